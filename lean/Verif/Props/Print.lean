import Verif.Spec.Print
import Verif.Props.ViewReading
import Verif.Props.Reading
import Verif.Props.TreeModel
import Verif.Proofs.ViewRows

/-! # C56, C57: printing and checking -/

namespace Larch

open Spec Graph

variable {α : Type}

/-! ### Going down first -/

/-- The ways down from `x`, which is reached by `p`, at most `d` steps deep. -/
def preRows (kids : α → List α) : Nat → List α → α → List (List α)
  | 0, _, _ => []
  | d + 1, p, x => (p ++ [x]) :: (kids x).flatMap (preRows kids d (p ++ [x]))

theorem mem_preRows {kids : α → List α} {ht : α → Nat} (h : ∀ x y, y ∈ kids x → ht y < ht x) :
    ∀ d p x l, ht x < d → (l ∈ preRows kids d p x ↔ ∃ r, l = p ++ x :: r ∧ (x :: r).IsChain fun a b => b ∈ kids a) := by
  intro d
  induction d with
  | zero => intro p x l hx; omega
  | succ d ih =>
    intro p x l hx
    rw [preRows, List.mem_cons, List.mem_flatMap]
    constructor
    · rintro (rfl | ⟨y, hy, hl⟩)
      · exact ⟨[], by simp, by simp⟩
      · obtain ⟨r, rfl, hc⟩ := (ih (p ++ [x]) y l (by have := h x y hy; omega)).1 hl
        exact ⟨y :: r, by simp, List.IsChain.cons_cons hy hc⟩
    · rintro ⟨r, rfl, hc⟩
      cases r with
      | nil => left; simp
      | cons y r =>
        right
        rw [List.isChain_cons_cons] at hc
        exact ⟨y, hc.1, (ih (p ++ [x]) y _ (by have := h x y hc.1; omega)).2 ⟨r, by simp, hc.2⟩⟩

theorem below_last (top : List α) (kids : α → List α) (p : List α) (x : α) : below top kids (p ++ [x]) = kids x := by
  unfold below; rw [List.getLast?_concat]

theorem pairwise_blocks {top : List α} {kids : α → List α} {p : List α} {xs : List α} {f : α → List (List α)}
    (hb : xs = below top kids p) (hnd : xs.Nodup) (hf : ∀ x ∈ xs, (f x).Pairwise (DepthFirst top kids))
    (hm : ∀ x ∈ xs, ∀ l ∈ f x, ∃ r, l = p ++ x :: r) : (xs.flatMap f).Pairwise (DepthFirst top kids) := by
  rw [List.pairwise_flatMap]
  refine ⟨hf, ?_⟩
  rw [List.pairwise_iff_forall_sublist]
  intro x y hs l hl l' hl'
  have hx : x ∈ xs := hs.subset (by simp)
  have hy : y ∈ xs := hs.subset (by simp)
  have hne : x ≠ y := by
    have := hnd.sublist hs
    simpa using this
  obtain ⟨r, rfl⟩ := hm x hx l hl
  obtain ⟨r', rfl⟩ := hm y hy l' hl'
  refine ⟨fun e => hne ?_, Or.inr ⟨p, x, y, r, r', rfl, rfl, hb ▸ hs⟩⟩
  have := List.append_cancel_left e
  injection this

theorem pairwise_preRows {top : List α} {kids : α → List α} {ht : α → Nat} (h : ∀ x y, y ∈ kids x → ht y < ht x)
    (hnd : ∀ x, (kids x).Nodup) : ∀ d p x, ht x < d → (preRows kids d p x).Pairwise (DepthFirst top kids) := by
  intro d
  induction d with
  | zero => intro p x hx; omega
  | succ d ih =>
    intro p x hx
    have hm : ∀ y ∈ kids x, ∀ l ∈ preRows kids d (p ++ [x]) y, ∃ r, l = (p ++ [x]) ++ y :: r := by
      intro y hy l hl
      obtain ⟨r, e, -⟩ := (mem_preRows h d (p ++ [x]) y l (by have := h x y hy; omega)).1 hl
      exact ⟨r, e⟩
    rw [preRows, List.pairwise_cons]
    refine ⟨fun l hl => ?_, ?_⟩
    · obtain ⟨y, hy, hl⟩ := List.mem_flatMap.1 hl
      obtain ⟨r, rfl⟩ := hm y hy l hl
      exact ⟨fun e => by simpa using congrArg List.length e, Or.inl ⟨y :: r, rfl⟩⟩
    · exact pairwise_blocks (below_last top kids p x).symm (hnd x)
        (fun y hy => ih (p ++ [x]) y (by have := h x y hy; omega)) hm

theorem listing_of {top : List α} {kids : α → List α} {ht : α → Nat} {d : Nat} (h : ∀ x y, y ∈ kids x → ht y < ht x)
    (hd : ∀ x, ht x < d) (htop : top.Nodup) (hnd : ∀ x, (kids x).Nodup) : Listing top kids (top.flatMap (preRows kids d [])) := by
  refine ⟨fun l => ?_, ?_⟩
  · rw [List.mem_flatMap]
    constructor
    · rintro ⟨x, hx, hl⟩
      obtain ⟨r, rfl, hc⟩ := (mem_preRows h d [] x l (hd x)).1 hl
      exact ⟨⟨x, hx, rfl⟩, hc⟩
    · rintro ⟨⟨x, hx, hl⟩, hc⟩
      cases l with
      | nil => cases hl
      | cons y r =>
        cases hl
        exact ⟨x, hx, (mem_preRows h d [] x _ (hd x)).2 ⟨r, rfl, hc⟩⟩
  · refine pairwise_blocks (p := []) rfl htop (fun x _ => pairwise_preRows h hnd d [] x (hd x)) (fun x _ l hl => ?_)
    obtain ⟨r, e, -⟩ := (mem_preRows h d [] x l (hd x)).1 hl
    exact ⟨r, e⟩

/-- The lines for the ways down from `x`, which is `k` deep. -/
def preLines (kids : α → List α) : Nat → Nat → α → List (Nat × α)
  | 0, _, _ => []
  | d + 1, k, x => (k, x) :: (kids x).flatMap (preLines kids d (k + 1))

theorem preLines_stable {kids : α → List α} {ht : α → Nat} (h : ∀ x y, y ∈ kids x → ht y < ht x) :
    ∀ d k x, ht x < d → preLines kids (d + 1) k x = preLines kids d k x := by
  intro d
  induction d with
  | zero => intro k x hx; omega
  | succ d ih =>
    intro k x hx
    rw [preLines, preLines]
    congr 1
    have : ∀ y ∈ kids x, preLines kids (d + 1) (k + 1) y = preLines kids d (k + 1) y :=
      fun y hy => ih (k + 1) y (by have := h x y hy; omega)
    exact List.flatMap_congr this

theorem preLines_eq {kids : α → List α} {ht : α → Nat} (h : ∀ x y, y ∈ kids x → ht y < ht x) (d k : Nat) (x : α) (hx : ht x < d) :
    preLines kids d k x = (k, x) :: (kids x).flatMap (preLines kids d (k + 1)) := by
  rw [← preLines_stable h d k x hx, preLines]

theorem lines_rows (kids : Id → List Id) : ∀ d p x, (preRows kids d p x).map lineOf = preLines kids d (p.length + 1) x := by
  intro d
  induction d with
  | zero => intro p x; rfl
  | succ d ih =>
    intro p x
    rw [preRows, preLines, List.map_cons, List.map_flatMap]
    congr 1
    · simp [lineOf]
    · refine List.flatMap_congr fun y _ => ?_
      rw [ih (p ++ [x]) y, List.length_append]; rfl

theorem pushAll_eq (k : Nat) (l : List Id) (st : List Line) : Tree.pushAll k l st = l.map (fun c => (k, c)) ++ st := by
  unfold Tree.pushAll
  rw [List.foldl_reverse]
  induction l with
  | nil => rfl
  | cons x l ih => rw [List.foldr_cons, ih]; rfl

theorem lines_stack {kids : Id → List Id} (d k : Nat) (l : List Id) (st : List Line) :
    (l.map (fun c => (k, c)) ++ st).flatMap (fun q => preLines kids d q.1 q.2) =
      l.flatMap (preLines kids d k) ++ st.flatMap (fun q => preLines kids d q.1 q.2) := by
  rw [List.flatMap_append, List.flatMap_map]

/-! ### The main tree -/

theorem treeLoop {t : Tree} (hids : ∀ x, t.has x = true → x ≠ .none) {ht : Id → Nat} {d : Nat} {W : Id → Nat}
    (h : ∀ x y, y ∈ t.getChildren x → ht y < ht x) (hd : ∀ x, ht x < d) (hW : ∀ x, W x = 1 + ((t.getChildren x).map W).sum) :
    ∀ (f : Nat) (st out : List Line), (∀ q ∈ st, t.has q.2 = true) → (st.map fun q => W q.2).sum ≤ f →
      t.printLoop f st out = .ok (out ++ st.flatMap fun q => preLines t.getChildren d q.1 q.2) := by
  intro f
  induction f with
  | zero =>
    intro st out hst hf
    cases st with
    | nil => simp [Tree.printLoop]
    | cons q st => rw [List.map_cons, List.sum_cons, hW] at hf; omega
  | succ f ih =>
    intro st out hst hf
    cases st with
    | nil => simp [Tree.printLoop]
    | cons q st =>
      obtain ⟨k, x⟩ := q
      have hx : t.has x = true := hst (k, x) (by simp)
      obtain ⟨nd, hn⟩ := Option.isSome_iff_exists.1 hx
      have hc : t.getChildren x = t.childrenOf nd := by
        unfold Tree.getChildren Tree.node?; rw [hn]; rfl
      rw [Tree.printLoop, if_neg (hids x hx)]
      unfold Tree.node?
      rw [hn]
      dsimp only
      rw [pushAll_eq, ← hc, ih]
      · rw [lines_stack, List.flatMap_cons, preLines_eq h d k x (hd x)]
        simp
      · intro q hq
        rw [List.mem_append, List.mem_map] at hq
        rcases hq with ⟨c, hc', rfl⟩ | hq
        · rw [hc] at hc'
          unfold Tree.childrenOf at hc'
          split at hc'
          · exact (List.mem_filter.1 hc').2
          · cases hc'
        · exact hst q (by simp [hq])
      · rw [List.map_cons, List.sum_cons, hW] at hf
        rw [List.map_append, List.sum_append, List.map_map]
        have : ((fun q : Line => W q.2) ∘ fun c => (k + 1, c)) = W := rfl
        rw [this]
        dsimp only at hf
        omega

theorem tree_print {t : Tree} (hg : Good t) : ∃ rows : List (List Id), t.printTree = .ok ((0, rootId) :: rows.map lineOf) ∧
    Listing t.rootChildren t.getChildren rows := by
  obtain ⟨ht, h1, h2⟩ := exists_height t.getChildren t.nodes.keys (by
      intro x hx
      refine t.rawChildren_keys x fun hn => hx ?_
      rw [List.eq_nil_iff_forall_not_mem]
      intro c hc
      have := hg.wf.up x c (getChildren_sub hg.wf hc)
      rw [hn] at this; cases this)
    (hg.wf.acyclicC.mono fun x c hc => hg.wf.up x c (getChildren_sub hg.wf hc))
  have hd : ∀ x, ht x < t.nodes.entries.length + 2 := fun x => by have := h1 x; rw [Dict.keys_length] at this; omega
  have hroot : t.root.children = t.rootChildren := by
    unfold Tree.rootChildren Tree.childrenOf
    rw [hg.wf.rootKids, hg.wf.rootTree, Bool.and_self, if_pos rfl, List.filter_eq_self.2]
    intro x hx
    exact ((hg.root.mem x).1 hx).1
  refine ⟨t.rootChildren.flatMap (preRows t.getChildren (t.nodes.entries.length + 2) []), ?_,
    listing_of h2 hd hg.topLevel.once (hg.wf.agree.children_once)⟩
  unfold Tree.printTree
  have hids : ∀ x, t.has x = true → x ≠ .none := by
    intro x hx e
    have := (hg.wf.ids x hx).1
    rw [e] at this; cases this
  rw [treeLoop (W := walks t.getChildren (t.nodes.entries.length + 2)) hids h2 hd
    (fun x => walks_eq t.getChildren ht h2 _ x (hd x))]
  · rw [List.reverse_reverse, List.flatMap_map, hroot, List.map_flatMap]
    congr 1
    show _ :: _ = _ :: _
    congr 1
    exact (List.flatMap_congr fun x _ => lines_rows _ _ [] x).symm
  · intro q hq
    rw [List.reverse_reverse, List.mem_map] at hq
    obtain ⟨x, hx, rfl⟩ := hq
    exact ((hg.root.mem x).1 hx).1
  · rw [List.reverse_reverse, List.map_map, hroot]
    unfold FT.rounds
    rw [funext (treeWalks_eq t _)]
    exact le_refl _

theorem downward_iff {t : Tree} (hg : Good t) (l : List Id) :
    Downward t.rootChildren t.getChildren l ↔ ∃ x, IsPathTo t l x := by
  constructor
  · rintro ⟨⟨y, hy, hl⟩, hc⟩
    cases l with
    | nil => cases hl
    | cons z l =>
      cases hl
      refine ⟨(y :: l).getLast (by simp), hc, List.getLast?_eq_some_getLast _, fun y' hy' => ?_⟩
      cases hy'
      exact (hg.topLevel.exact y).1 hy
  · rintro ⟨x, h⟩
    refine ⟨?_, h.chain⟩
    cases l with
    | nil => have := h.ends; cases this
    | cons z l => exact ⟨z, (hg.topLevel.exact z).2 (h.starts z rfl), rfl⟩

/-- **C56** (partial): after every careful history `print_tree` of the main tree ends without exception and prints, below the line
of the root, one line for every path of every node, indented by the length of the path, depth first in the order of the children. -/
theorem C56_tree_partial (ops : List Op) (h : Along Careful St.init ops) :
    ∃ rows : List (List Id), (runOps St.init ops).t.printTree = .ok ((0, rootId) :: rows.map lineOf) ∧
      (∀ l, l ∈ rows ↔ ∃ x, IsPathTo (runOps St.init ops).t l x) ∧
      rows.Pairwise (DepthFirst (runOps St.init ops).t.rootChildren (runOps St.init ops).t.getChildren) := by
  have hg := (runOps_careful ops St.init init_good init_noDangling h).1
  obtain ⟨rows, e, hl⟩ := tree_print hg
  exact ⟨rows, e, fun l => (hl.all l).trans (downward_iff hg l), hl.order⟩

example : demo.t.printTree = .ok [(0, rootId), (1, .str 1), (2, .str 2), (3, .str 3), (1, .str 5), (2, .str 2), (3, .str 3)] ∧
    Along Careful St.init demoOps := ⟨by decide, demo_careful⟩

/-- A history after which two nodes are among each other's children: 3 is removed while it has two parents, is added again, and
becomes the parent of 2, which still lists it as a child. -/
def endlessOps : List Op := twoParentsOps ++ [.addParent (.str 2) (.str 3)]

theorem endless_loop : ∀ f k st out,
    (runOps St.init endlessOps).t.printLoop f ((k, .str 3) :: st) out = .error .diverge ∧
    (runOps St.init endlessOps).t.printLoop f ((k, .str 2) :: st) out = .error .diverge := by
  intro f
  induction f with
  | zero => intro k st out; exact ⟨rfl, rfl⟩
  | succ f ih =>
    intro k st out
    constructor
    · rw [Tree.printLoop]
      have e : ∃ nd, (runOps St.init endlessOps).t.node? (.str 3) = some nd ∧ (runOps St.init endlessOps).t.childrenOf nd = [.str 2] :=
        ⟨_, rfl, rfl⟩
      obtain ⟨nd, e1, e2⟩ := e
      rw [if_neg (by simp), e1]
      dsimp only
      rw [e2]
      exact (ih _ _ _).2
    · rw [Tree.printLoop]
      have e : ∃ nd, (runOps St.init endlessOps).t.node? (.str 2) = some nd ∧ (runOps St.init endlessOps).t.childrenOf nd = [.str 3] :=
        ⟨_, rfl, rfl⟩
      obtain ⟨nd, e1, e2⟩ := e
      rw [if_neg (by simp), e1]
      dsimp only
      rw [e2]
      exact (ih _ _ _).1

/-- **The loop may never end**: when a node with two parents was removed and its id is used again, `print_tree` runs for ever,
however many rounds the loop is given, although no call raised an exception. -/
theorem C56_refuted_endless : ∃ ops, NewNodes ops ∧ NoRaise St.init ops ∧
    ∀ f, (runOps St.init ops).t.printLoop f ((runOps St.init ops).t.root.children.reverse.reverse.map fun c => (1, c))
      [(0, rootId)] = .error .diverge := by
  refine ⟨endlessOps, ?_, by decide, fun f => ?_⟩
  · intro nd p hm
    simp only [endlessOps, twoParentsOps, List.cons_append, List.nil_append, List.mem_cons, Op.addNode.injEq, reduceCtorEq,
      List.not_mem_nil, or_false, false_or] at hm
    rcases hm with ⟨rfl, -⟩ | ⟨rfl, -⟩ | ⟨rfl, -⟩ | ⟨rfl, -⟩ <;> exact Made.new _ _
  · have e : (runOps St.init endlessOps).t.root.children = [.str 1, .str 3] := by decide
    rw [e]
    cases f with
    | zero => rfl
    | succ f =>
      show (runOps St.init endlessOps).t.printLoop (f + 1) [(1, .str 1), (1, .str 3)] _ = _
      rw [Tree.printLoop]
      have e : ∃ nd, (runOps St.init endlessOps).t.node? (.str 1) = some nd ∧ (runOps St.init endlessOps).t.childrenOf nd = [] :=
        ⟨_, rfl, rfl⟩
      obtain ⟨nd, e1, e2⟩ := e
      rw [if_neg (by simp), e1]
      dsimp only
      rw [e2]
      exact (endless_loop f _ _ _).1

/-- A node may have the id `None`; then `print_tree` raises. -/
theorem C56_refuted_none : ∃ ops, NewNodes ops ∧ NoRaise St.init ops ∧ (runOps St.init ops).t.printTree = .error .typeError := by
  refine ⟨[.addNode (Node.new .none .none) .none], ?_, by decide, by decide⟩
  intro nd p hm
  simp only [List.mem_cons, Op.addNode.injEq, List.not_mem_nil, or_false] at hm
  obtain ⟨rfl, -⟩ := hm
  exact Made.new _ _

/-! ### A view -/

theorem viewLoop {v : View} {ht : Id → Nat} {d : Nat} {W : Id → Nat} (hs : ∀ p c, c ∈ v.kids p → v.has c = true)
    (h : ∀ x y, y ∈ v.kids x → ht y < ht x) (hd : ∀ x, ht x < d) (hW : ∀ x, W x = 1 + ((v.kids x).map W).sum) :
    ∀ (f : Nat) (st out : List Line), (∀ q ∈ st, v.has q.2 = true) → (st.map fun q => W q.2).sum ≤ f →
      FT.printLoop v f st out = .ok (out ++ st.flatMap fun q => preLines v.kids d q.1 q.2) := by
  intro f
  induction f with
  | zero =>
    intro st out hst hf
    cases st with
    | nil => simp [FT.printLoop]
    | cons q st => rw [List.map_cons, List.sum_cons, hW] at hf; omega
  | succ f ih =>
    intro st out hst hf
    cases st with
    | nil => simp [FT.printLoop]
    | cons q st =>
      obtain ⟨k, x⟩ := q
      have hx : v.has x = true := hst (k, x) (by simp)
      obtain ⟨nd, hn⟩ := Option.isSome_iff_exists.1 hx
      have hc : v.kids x = nd.children := by
        unfold View.kids; rw [hn]; rfl
      rw [FT.printLoop, hn]
      dsimp only
      rw [pushAll_eq, ← hc, ih]
      · rw [lines_stack, List.flatMap_cons, preLines_eq h d k x (hd x)]
        simp
      · intro q hq
        rw [List.mem_append, List.mem_map] at hq
        rcases hq with ⟨c, hc', rfl⟩ | hq
        · exact hs x c hc'
        · exact hst q (by simp [hq])
      · rw [List.map_cons, List.sum_cons, hW] at hf
        rw [List.map_append, List.sum_append, List.map_map]
        have : ((fun q : Line => W q.2) ∘ fun c => (k + 1, c)) = W := rfl
        rw [this]
        dsimp only at hf
        omega

theorem row_downward (ft : FT) (l : List Id) : IsRow ft l ↔ Downward (ft.view.kids ft.root) ft.view.kids l := by
  unfold IsRow Downward
  cases l with
  | nil => simp
  | cons y l => simp [List.isChain_cons_cons]

/-- **C56**: `print_tree` of every view that holds together ends without exception and prints, below the line of the virtual
root, one line for every row of the view, indented by its depth, depth first in the order of the children. -/
theorem C56_view (ft : FT) (h : ViewOK ft) : ∃ rows : List (List Id), ft.printTree = .ok ((0, ft.root) :: rows.map lineOf) ∧
    (∀ l, l ∈ rows ↔ IsRow ft l) ∧ rows.Pairwise (DepthFirst (ft.view.kids ft.root) ft.view.kids) := by
  obtain ⟨ht, h1, h2⟩ := exists_height ft.view.kids ft.view.nodes.keys ft.view.kids_keys h.noCycle
  have hd : ∀ x, ht x < ft.view.nodes.entries.length + 2 := fun x => by have := h1 x; rw [Dict.keys_length] at this; omega
  have hl := listing_of (top := ft.view.kids ft.root) h2 hd (h.children_once _) h.children_once
  refine ⟨_, ?_, fun l => (hl.all l).trans (row_downward ft l).symm, hl.order⟩
  have hw : ∀ d z, ft.view.downWalks d z = walks ft.view.kids d z := by
    intro d
    induction d with
    | zero => intro z; rfl
    | succ d ih =>
      intro z
      rw [View.downWalks, walks]
      congr 2
      exact List.map_congr_left (fun a _ => ih a)
  unfold FT.printTree
  rw [viewLoop (W := walks ft.view.kids (ft.view.nodes.entries.length + 2)) h.shown h2 hd
    (fun x => walks_eq ft.view.kids ht h2 _ x (hd x))]
  · rw [List.map_flatMap, List.nil_append]
    congr 1
    rw [List.flatMap_cons, List.flatMap_nil, List.append_nil, preLines_eq h2 _ 0 _ (hd _)]
    congr 1
    exact (List.flatMap_congr fun x _ => lines_rows _ _ [] x).symm
  · intro q hq
    rw [List.mem_singleton] at hq
    subst hq
    exact h.root
  · unfold View.walksBelow
    rw [hw]; simp

/-! ### The GTK model -/

theorem lines_cells (kids : Nat → List Nat) (g : Nat → Option Id) : ∀ d p x,
    (preRows kids d p x).map (fun l => (l.length - 1, l.getLast?.bind g)) = (preLines kids d p.length x).map fun q => (q.1, g q.2) := by
  intro d
  induction d with
  | zero => intro p x; rfl
  | succ d ih =>
    intro p x
    rw [preRows, preLines, List.map_cons, List.map_cons, List.map_flatMap, List.map_flatMap]
    congr 1
    · simp
    · refine List.flatMap_congr fun y _ => ?_
      rw [ih (p ++ [x]) y, List.length_append]; rfl

theorem gtkLoop {O : GtkOrder} {order : List GRow → Option Nat → List Nat} (hO : GtkOrdered O order) {m : TM}
    (haddr : (m.rows.map GRow.addr).Nodup) {ht : Nat → Nat} {d : Nat}
    (h : ∀ x y, y ∈ order m.rows (some x) → ht y < ht x) (hd : ∀ x, ht x < d) :
    ∀ (f : Nat) (G : List (Nat × Nat × List Nat)) (out : List (Nat × Option Id)),
      (∀ g ∈ G, ∃ p before, order m.rows p = before ++ g.2.1 :: g.2.2) →
      (G.flatMap fun g => (g.2.1 :: g.2.2).flatMap (preLines (fun a => order m.rows (some a)) d g.1)).length ≤ f →
      m.printLoop O f (G.map fun g => (g.1, g.2.1)) out = .ok (out ++
        (G.flatMap fun g => (g.2.1 :: g.2.2).flatMap (preLines (fun a => order m.rows (some a)) d g.1)).map fun q => (q.1, m.value q.2)) := by
  intro f
  induction f with
  | zero =>
    intro G out hG hf
    cases G with
    | nil => simp [TM.printLoop]
    | cons g G =>
      obtain ⟨k, a, after⟩ := g
      rw [List.flatMap_cons, List.flatMap_cons, preLines_eq h d k a (hd a)] at hf
      simp at hf
  | succ f ih =>
    intro G out hG hf
    cases G with
    | nil => simp [TM.printLoop]
    | cons g G =>
      obtain ⟨k, a, after⟩ := g
      obtain ⟨p, before, hp⟩ := hG (k, a, after) (by simp)
      dsimp only at hp
      have hnext := hO.next _ _ _ _ _ haddr hp
      have hnth := hO.nth m.rows (some a) 0
      rw [List.map_cons, TM.printLoop, hnext, hnth]
      -- the new stack
      have key : ∃ G' : List (Nat × Nat × List Nat), G'.map (fun g : Nat × Nat × List Nat => (g.1, g.2.1)) =
            TM.pushIter (k + 1) (order m.rows (some a))[0]? (TM.pushIter k after.head? (G.map fun g => (g.1, g.2.1))) ∧
          (∀ g ∈ G', ∃ p before, order m.rows p = before ++ g.2.1 :: g.2.2) ∧
          (G'.flatMap fun g => (g.2.1 :: g.2.2).flatMap (preLines (fun a => order m.rows (some a)) d g.1)) =
            (order m.rows (some a)).flatMap (preLines (fun a => order m.rows (some a)) d (k + 1)) ++
              (after.flatMap (preLines (fun a => order m.rows (some a)) d k) ++
                G.flatMap fun g => (g.2.1 :: g.2.2).flatMap (preLines (fun a => order m.rows (some a)) d g.1)) := by
        have k1 : ∃ G1 : List (Nat × Nat × List Nat), G1.map (fun g : Nat × Nat × List Nat => (g.1, g.2.1)) = TM.pushIter k after.head? (G.map fun g => (g.1, g.2.1)) ∧
            (∀ g ∈ G1, ∃ p before, order m.rows p = before ++ g.2.1 :: g.2.2) ∧
            (G1.flatMap fun g => (g.2.1 :: g.2.2).flatMap (preLines (fun a => order m.rows (some a)) d g.1)) =
              after.flatMap (preLines (fun a => order m.rows (some a)) d k) ++
                G.flatMap fun g => (g.2.1 :: g.2.2).flatMap (preLines (fun a => order m.rows (some a)) d g.1) := by
          cases after with
          | nil => exact ⟨G, rfl, fun g hg => hG g (by simp [hg]), by simp⟩
          | cons b after =>
            refine ⟨(k, b, after) :: G, rfl, fun g hg => ?_, rfl⟩
            rcases List.mem_cons.1 hg with rfl | hg
            · exact ⟨p, before ++ [a], by rw [hp]; simp⟩
            · exact hG g (by simp [hg])
        obtain ⟨G1, a1, a2, a3⟩ := k1
        rw [← a1, ← a3]
        cases hk : order m.rows (some a) with
        | nil => exact ⟨G1, rfl, a2, by simp⟩
        | cons c cs =>
          refine ⟨(k + 1, c, cs) :: G1, rfl, fun g hg => ?_, rfl⟩
          rcases List.mem_cons.1 hg with rfl | hg
          · exact ⟨some a, [], hk⟩
          · exact a2 g hg
      obtain ⟨G', b1, b2, b3⟩ := key
      have hcons : (((k, a, after) :: G).flatMap fun g => (g.2.1 :: g.2.2).flatMap (preLines (fun a => order m.rows (some a)) d g.1)) =
          (k, a) :: (G'.flatMap fun g => (g.2.1 :: g.2.2).flatMap (preLines (fun a => order m.rows (some a)) d g.1)) := by
        rw [b3, List.flatMap_cons, List.flatMap_cons, preLines_eq h d k a (hd a)]
        simp
      rw [← b1, ih G' _ b2 ?_, hcons]
      · simp
      · rw [hcons] at hf
        simpa using hf

theorem chain_value {m : TM}
    (haddr : (m.rows.map GRow.addr).Nodup) {r : GRow} (hr : r ∈ m.rows) : m.value r.addr = some r.nid := by
  unfold TM.value
  have : m.rows.find? (fun r' => decide (r'.addr = r.addr)) = some r := by
    rw [List.find?_eq_some_iff_append]
    refine ⟨by simp, ?_⟩
    obtain ⟨as, bs, e⟩ := List.append_of_mem hr
    refine ⟨as, bs, e, fun a ha => ?_⟩
    rw [e, List.map_append, List.map_cons, List.nodup_append] at haddr
    have := haddr.2.2 a.addr (List.mem_map_of_mem ha) r.addr (by simp)
    simpa using this
  rw [this]; rfl

theorem rowPath_inv {rows : List GRow} {a : Nat} {l : List Id} (h : RowPath rows a l) : ∃ r ∈ rows, r.addr = a ∧
    ((r.parent = none ∧ l = [r.nid]) ∨ ∃ p l', r.parent = some p ∧ RowPath rows p l' ∧ l = l' ++ [r.nid]) := by
  cases h with
  | top hr hp => exact ⟨_, hr, rfl, Or.inl ⟨hp, rfl⟩⟩
  | under hr hp hq => exact ⟨_, hr, rfl, Or.inr ⟨_, _, hp, hq, rfl⟩⟩

/-- A way down by addresses has a path. -/
theorem chain_path {O : GtkOrder} {order : List GRow → Option Nat → List Nat} (hO : GtkOrdered O order) {m : TM}
    (haddr : (m.rows.map GRow.addr).Nodup) (c : List Nat) :
    Downward (order m.rows none) (fun a => order m.rows (some a)) c →
    ∃ a l, c.getLast? = some a ∧ RowPath m.rows a l ∧ c.map m.value = l.map some := by
  induction c using List.reverseRecOn with
  | nil => rintro ⟨⟨x, -, h⟩, -⟩; cases h
  | append_singleton c a ih =>
    rintro ⟨⟨x, hx, hh⟩, hc⟩
    cases hcn : c.getLast? with
    | none =>
      rw [List.getLast?_eq_none_iff] at hcn
      subst hcn
      cases hh
      obtain ⟨r, hr, rfl, hp⟩ := (hO.mem _ _ _).1 hx
      exact ⟨r.addr, [r.nid], rfl, RowPath.top hr hp, by simp [chain_value haddr hr]⟩
    | some b =>
      have hne : c ≠ [] := by rintro rfl; cases hcn
      rw [List.isChain_append] at hc
      obtain ⟨b', l, e1, e2, e3⟩ := ih ⟨⟨x, hx, by rw [List.head?_append_of_ne_nil _ hne] at hh; exact hh⟩, hc.1⟩
      rw [hcn] at e1
      cases e1
      have hk := hc.2.2 b (by rw [hcn]; rfl) a rfl
      obtain ⟨r, hr, rfl, hp⟩ := (hO.mem _ _ _).1 hk
      exact ⟨r.addr, l ++ [r.nid], by simp, RowPath.under hr hp e2, by simp [e3, chain_value haddr hr]⟩

/-- A row with a path has a way down. -/
theorem path_chain {O : GtkOrder} {order : List GRow → Option Nat → List Nat} (hO : GtkOrdered O order) {m : TM}
    (haddr : (m.rows.map GRow.addr).Nodup) {a : Nat} {l : List Id} (h : RowPath m.rows a l) :
    ∃ c, Downward (order m.rows none) (fun a => order m.rows (some a)) c ∧ c.getLast? = some a ∧ c.map m.value = l.map some ∧
      c.length = l.length := by
  induction h with
  | top hr hp =>
    rename_i r
    exact ⟨[r.addr], ⟨⟨r.addr, (hO.mem _ _ _).2 ⟨r, hr, rfl, hp⟩, rfl⟩, by simp⟩, rfl, by simp [chain_value haddr hr], rfl⟩
  | under hr hp _ ih =>
    rename_i r p l _
    obtain ⟨c, ⟨⟨x, hx, hh⟩, hc⟩, e2, e3, e4⟩ := ih
    have hne : c ≠ [] := by rintro rfl; cases e2
    refine ⟨c ++ [r.addr], ⟨⟨x, hx, by rw [List.head?_append_of_ne_nil _ hne]; exact hh⟩, ?_⟩, by simp,
      by simp [e3, chain_value haddr hr], by simp [e4]⟩
    rw [List.isChain_append]
    refine ⟨hc, by simp, fun y hy z hz => ?_⟩
    rw [e2] at hy
    cases hy
    cases hz
    exact (hO.mem _ _ _).2 ⟨r, hr, rfl, hp⟩

theorem row_unique {m : TM} (haddr : (m.rows.map GRow.addr).Nodup) {r r' : GRow} (hr : r ∈ m.rows) (hr' : r' ∈ m.rows)
    (e : r.addr = r'.addr) : r = r' := List.inj_on_of_nodup_map haddr hr hr' e

/-- There is only one way down to an address. -/
theorem chain_unique {O : GtkOrder} {order : List GRow → Option Nat → List Nat} (hO : GtkOrdered O order) {m : TM}
    (haddr : (m.rows.map GRow.addr).Nodup) (c : List Nat) : ∀ c',
    Downward (order m.rows none) (fun a => order m.rows (some a)) c → Downward (order m.rows none) (fun a => order m.rows (some a)) c' →
    c.getLast? = c'.getLast? → c = c' := by
  induction c using List.reverseRecOn with
  | nil => rintro c' ⟨⟨x, -, h⟩, -⟩; cases h
  | append_singleton c a ih =>
    intro c'
    cases c' using List.reverseRecOn with
    | nil => rintro - ⟨⟨x, -, h⟩, -⟩; cases h
    | append_singleton c' a' =>
      rintro ⟨⟨x, hx, hh⟩, hc⟩ ⟨⟨x', hx', hh'⟩, hc'⟩ e
      rw [List.getLast?_concat, List.getLast?_concat] at e
      cases e
      have par : ∀ (c : List Nat) (x : Nat), x ∈ order m.rows none → (c ++ [a]).head? = some x →
          (c ++ [a]).IsChain (fun p c => c ∈ order m.rows (some p)) → ∃ r ∈ m.rows, r.addr = a ∧ r.parent = c.getLast? := by
        intro c x hx hh hc
        cases hcn : c.getLast? with
        | none =>
          rw [List.getLast?_eq_none_iff] at hcn
          subst hcn
          cases hh
          exact (hO.mem _ _ _).1 hx
        | some b =>
          rw [List.isChain_append] at hc
          exact (hO.mem _ _ _).1 (hc.2.2 b (by rw [hcn]; rfl) a rfl)
      obtain ⟨r, hr, e1, e2⟩ := par c x hx hh hc
      obtain ⟨r', hr', e1', e2'⟩ := par c' x' hx' hh' hc'
      have := row_unique haddr hr hr' (e1.trans e1'.symm)
      subst this
      have hl : c.getLast? = c'.getLast? := e2.symm.trans e2'
      congr 1
      by_cases hn : c = []
      · subst hn
        exact (List.getLast?_eq_none_iff.1 hl.symm).symm
      · have hn' : c' ≠ [] := by
          rintro rfl
          exact hn (List.getLast?_eq_none_iff.1 hl)
        rw [List.isChain_append] at hc hc'
        rw [List.head?_append_of_ne_nil _ hn] at hh
        rw [List.head?_append_of_ne_nil _ hn'] at hh'
        exact ih c' ⟨⟨x, hx, hh⟩, hc.1⟩ ⟨⟨x', hx', hh'⟩, hc'.1⟩ hl

theorem le_sum_of_mem' {l : List Nat} {x : Nat} (h : x ∈ l) : x ≤ l.sum := by
  induction l with
  | nil => cases h
  | cons y l ih =>
    rw [List.sum_cons]
    rcases List.mem_cons.1 h with rfl | h
    · omega
    · have := ih h; omega

/-- **C56**: `print_tree` of a GTK model whose rows are the announced ones (C36), in whatever order GTK sorts them, ends without
exception and prints one line for every row, indented by its depth, with the id of its node, depth first in GTK's order. -/
theorem C56_gtk {O : GtkOrder} {order : List GRow → Option Nat → List Nat} (hO : GtkOrdered O order) (m : TM) (rows : List (List Id))
    (h : Mirrors m.rows rows) : ∃ chains : List (List Nat),
      m.printTree O = .ok (chains.map fun c => (c.length - 1, c.getLast?.bind m.value)) ∧
      Listing (order m.rows none) (fun a => order m.rows (some a)) chains ∧
      ∀ l, l ∈ rows ↔ ∃ c ∈ chains, c.map m.value = l.map some := by
  classical
  -- depths
  let dep : Nat → Nat := fun a => if h : ∃ l, RowPath m.rows a l then (Classical.choose h).length else 0
  have hrow : ∀ r ∈ m.rows, ∀ l, RowPath m.rows r.addr l → dep r.addr = l.length := by
    intro r hr l hl
    have hex : ∃ l, RowPath m.rows r.addr l := ⟨l, hl⟩
    show (if h : ∃ l, RowPath m.rows r.addr l then (Classical.choose h).length else 0) = _
    rw [dif_pos hex]
    obtain ⟨l0, -, -, h3⟩ := h.row r hr
    rw [h3 _ (Classical.choose_spec hex), h3 _ hl]
  have hkid : ∀ x y, y ∈ order m.rows (some x) → dep y = dep x + 1 ∧ ∃ r ∈ m.rows, r.addr = y := by
    intro x y hy
    obtain ⟨r, hr, rfl, hp⟩ := (hO.mem _ _ _).1 hy
    obtain ⟨l, -, hl, -⟩ := h.row r hr
    obtain ⟨r', hr', e, ⟨hp', -⟩ | ⟨p, l', hp', hq, -⟩⟩ := rowPath_inv hl
    · have := row_unique h.addrs hr hr' e.symm
      subst this
      rw [hp] at hp'; cases hp'
    · have := row_unique h.addrs hr hr' e.symm
      subst this
      rw [hp] at hp'
      cases hp'
      obtain ⟨q, hq1, rfl, -⟩ := rowPath_inv hq
      rw [hrow q hq1 _ hq, hrow r hr _ (RowPath.under hr hp hq)]
      exact ⟨by simp, r, hr, rfl⟩
  let B := (m.rows.map fun r => dep r.addr).sum
  have hB : ∀ r ∈ m.rows, dep r.addr ≤ B := fun r hr => le_sum_of_mem' (List.mem_map_of_mem hr)
  have h2 : ∀ x y, y ∈ order m.rows (some x) → (B - dep y) < (B - dep x) := by
    intro x y hy
    obtain ⟨e, r, hr, rfl⟩ := hkid x y hy
    have := hB r hr
    omega
  have hd : ∀ x, B - dep x < B + 1 := fun x => by omega
  have hl := listing_of (top := order m.rows none) (kids := fun a => order m.rows (some a)) (ht := fun x => B - dep x) (d := B + 1)
    h2 hd (hO.once _ _ h.addrs) (fun x => hO.once _ _ h.addrs)
  refine ⟨_, ?_, hl, fun l => ⟨fun hm => ?_, ?_⟩⟩
  · -- the number of rounds
    have hnd : ((order m.rows none).flatMap (preRows (fun a => order m.rows (some a)) (B + 1) [])).Nodup :=
      hl.order.imp fun h => h.1
    have hlen : ((order m.rows none).flatMap (preRows (fun a => order m.rows (some a)) (B + 1) [])).length ≤ m.rows.length := by
      have hnd' : (((order m.rows none).flatMap (preRows (fun a => order m.rows (some a)) (B + 1) [])).map List.getLast?).Nodup := by
        refine List.Nodup.map_on (fun c hc c' hc' e => ?_) hnd
        exact chain_unique hO h.addrs c c' ((hl.all c).1 hc) ((hl.all c').1 hc') e
      have hsub : (((order m.rows none).flatMap (preRows (fun a => order m.rows (some a)) (B + 1) [])).map List.getLast?) ⊆
          m.rows.map fun r => some r.addr := by
        intro o ho
        obtain ⟨c, hc, rfl⟩ := List.mem_map.1 ho
        obtain ⟨a, l, e1, e2, -⟩ := chain_path hO h.addrs c ((hl.all c).1 hc)
        rw [e1]
        obtain ⟨q, hq, rfl, -⟩ := rowPath_inv e2
        exact List.mem_map.2 ⟨q, hq, rfl⟩
      have := (hnd'.subperm hsub).length_le
      simpa using this
    have hlines : ∀ (k : Nat) (xs : List Nat), (xs.flatMap (preLines (fun a => order m.rows (some a)) (B + 1) k)).map (fun q => (q.1, m.value q.2)) =
        xs.flatMap fun x => (preLines (fun a => order m.rows (some a)) (B + 1) k x).map fun q => (q.1, m.value q.2) :=
      fun k xs => List.map_flatMap
    have hrl : ((order m.rows none).flatMap (preRows (fun a => order m.rows (some a)) (B + 1) [])).map
          (fun c => (c.length - 1, c.getLast?.bind m.value)) =
        ((order m.rows none).flatMap (preLines (fun a => order m.rows (some a)) (B + 1) 0)).map (fun q => (q.1, m.value q.2)) := by
      rw [hlines, List.map_flatMap]
      exact List.flatMap_congr fun x _ => lines_cells _ _ _ [] x
    rw [hrl]
    have hlen' : ((order m.rows none).flatMap (preLines (fun a => order m.rows (some a)) (B + 1) 0)).length ≤ m.rows.length := by
      have := congrArg List.length hrl
      rw [List.length_map, List.length_map] at this
      omega
    unfold TM.printTree
    rw [hO.nth]
    cases htop : order m.rows none with
    | nil =>
      cases m.rows.length <;> rfl
    | cons a after =>
      rw [htop] at hlen'
      have := gtkLoop hO (m := m) h.addrs (ht := fun x => B - dep x) (d := B + 1) h2 hd m.rows.length [(0, a, after)] [] (fun g hg => by
        rw [List.mem_singleton] at hg
        subst hg
        exact ⟨none, [], htop⟩) (by simpa using hlen')
      rw [List.flatMap_cons, List.flatMap_nil, List.append_nil, List.nil_append] at this
      exact this
  · obtain ⟨r, hr, hp, -⟩ := h.path l hm
    obtain ⟨c, hc, -, e, -⟩ := path_chain hO h.addrs hp
    exact ⟨c, (hl.all c).2 hc, e⟩
  · rintro ⟨c, hc, e⟩
    obtain ⟨a, l', e1, e2, e3⟩ := chain_path hO h.addrs c ((hl.all c).1 hc)
    have : l = l' := List.map_injective_iff.2 (Option.some_injective _) (e.symm.trans e3)
    subst this
    obtain ⟨q, hq, rfl, -⟩ := rowPath_inv e2
    obtain ⟨l', h1, -, h3⟩ := h.row q hq
    rw [h3 _ e2]
    exact h1

/-- The order in which the rows were inserted. -/
def insertionOrder (rows : List GRow) (p : Option Nat) : List Nat := (rows.filter fun r => r.parent = p).map GRow.addr

theorem byInsertion_ordered : GtkOrdered byInsertion insertionOrder := by
  refine ⟨fun rows p a => ?_, fun rows p h => ?_, fun rows p n => ?_, fun rows p before a after h e => ?_⟩
  · unfold insertionOrder
    simp only [List.mem_map, List.mem_filter, decide_eq_true_eq]
    exact ⟨fun ⟨r, ⟨h1, h2⟩, h3⟩ => ⟨r, h1, h3, h2⟩, fun ⟨r, h1, h3, h2⟩ => ⟨r, ⟨h1, h2⟩, h3⟩⟩
  · exact h.sublist (List.filter_sublist.map _)
  · unfold insertionOrder byInsertion
    rw [List.getElem?_map]
  · unfold insertionOrder at e
    rw [List.map_eq_append_iff] at e
    obtain ⟨L1, L2, e1, e2, e3⟩ := e
    rw [List.map_eq_cons_iff] at e3
    obtain ⟨r, L3, rfl, rfl, rfl⟩ := e3
    have hmem : r ∈ rows.filter fun r => r.parent = p := by rw [e1]; simp
    rw [List.mem_filter, decide_eq_true_eq] at hmem
    have hfind : rows.find? (fun q => decide (q.addr = r.addr)) = some r := by
      have := chain_value (m := { rows := rows }) h hmem.1
      unfold TM.value at this
      obtain ⟨q, hq, -⟩ := Option.map_eq_some_iff.1 this
      have hq' : rows.find? (fun q => decide (q.addr = r.addr)) = some q := hq
      rw [hq']
      have := row_unique (m := { rows := rows }) h (List.mem_of_find?_eq_some hq') hmem.1 (by simpa using List.find?_some hq')
      rw [this]
    have hnd : ((L1 ++ r :: L3).map GRow.addr).Nodup := by
      rw [← e1]; exact h.sublist (List.filter_sublist.map _)
    rw [List.map_append, List.map_cons, List.nodup_append, List.nodup_cons] at hnd
    have hdrop : (L1 ++ r :: L3).dropWhile (fun q => decide (q.addr ≠ r.addr)) = r :: L3 := by
      rw [List.dropWhile_append_of_pos]
      · simp
      · intro q hq
        have := hnd.2.2 q.addr (List.mem_map_of_mem hq) r.addr (by simp)
        simpa using this
    show (match rows.find? (fun q => decide (q.addr = r.addr)) with
      | none => none
      | some r' => (((rows.filter (fun q : GRow => q.parent = r'.parent)).dropWhile (fun q : GRow => q.addr ≠ r.addr)).find?
          (fun q : GRow => q.addr ≠ r.addr)).map GRow.addr) = _
    rw [hfind]
    dsimp only
    rw [hmem.2, e1, hdrop, List.find?_cons_of_neg (by simp)]
    cases L3 with
    | nil => rfl
    | cons q L3 =>
      rw [List.find?_cons_of_pos]
      · rfl
      · have := hnd.2.1.1
        simp only [List.map_cons, List.mem_cons, not_or] at this
        simpa using fun e => this.1 e.symm

example : ∃ (m : TM) (rows : List (List Id)), Mirrors m.rows rows ∧
    m.printTree byInsertion = .ok [(0, some (.str 1)), (1, some (.str 3)), (0, some (.str 2)), (1, some (.str 3))] := by
  obtain ⟨m, e, h, -⟩ := C36_mirror_no_reuse_partial byInsertion_sound tmHistory rfl (by decide) (by
    refine ⟨trivial, trivial, trivial, trivial, trivial, Or.inr ⟨10, ?_⟩, trivial, trivial, trivial, trivial,
      Or.inr ⟨10, ?_⟩, Or.inr ⟨11, ?_⟩, trivial⟩
    · exact RowPath.top (r := ⟨10, none, .str 1⟩) (by decide) rfl
    · exact RowPath.top (r := ⟨10, none, .str 1⟩) (by decide) rfl
    · exact RowPath.top (r := ⟨11, none, .str 2⟩) (by decide) rfl)
  refine ⟨m, _, h, ?_⟩
  have : m = (TM.run byInsertion tmHistory {}).state := by rw [e]; rfl
  subst this
  rfl

/-! ### C57 -/

theorem assertAll_ok {test : Id → Except Err Bool} (l : List Id) :
    FT.assertAll test l = .ok () ↔ ∀ x ∈ l, test x = .ok true := by
  induction l with
  | nil => simp [FT.assertAll]
  | cons x l ih =>
    rw [FT.assertAll]
    rcases hx : test x with e | b
    · simp [hx]
    · cases b
      · simp [hx]
      · simp [hx, ih]

theorem testAll_ok (ft : FT) (l : List Id) : ft.testAll l = .ok () ↔ ∀ x ∈ l, ft.testNode x = .ok () := by
  induction l with
  | nil => simp [FT.testAll]
  | cons x l ih =>
    rw [FT.testAll]
    rcases hx : ft.testNode x with e | b
    · simp [hx]
    · simp [hx, ih]

theorem inChildren_ok (v : View) (x p : Id) : FT.inChildren v x p = .ok true ↔ v.has p = true ∧ x ∈ v.kids p := by
  unfold FT.inChildren View.kids View.has Dict.has
  cases v.nodes.get? p <;> simp

theorem inParents_ok (v : View) (x c : Id) : FT.inParents v x c = .ok true ↔ v.has c = true ∧ x ∈ v.pars c := by
  unfold FT.inParents View.pars View.has Dict.has
  cases v.nodes.get? c <;> simp

theorem testNode_ok (ft : FT) (x : Id) : ft.testNode x = .ok () ↔
    (∀ p ∈ ft.view.pars x, ft.view.has p = true ∧ x ∈ ft.view.kids p) ∧ (ft.view.pars x = [] → x = ft.root) ∧
    ∀ c ∈ ft.view.kids x, ft.view.has c = true ∧ x ∈ ft.view.pars c := by
  unfold FT.testNode
  have h1 := assertAll_ok (test := FT.inChildren ft.view x) (ft.view.pars x)
  have h2 := assertAll_ok (test := FT.inParents ft.view x) (ft.view.kids x)
  simp only [inChildren_ok] at h1
  simp only [inParents_ok] at h2
  rcases he : FT.assertAll (FT.inChildren ft.view x) (ft.view.pars x) with e | u
  · rw [he] at h1
    simp only [reduceCtorEq, false_iff] at h1 ⊢
    exact fun h => h1 h.1
  · rw [he] at h1
    have h1 := h1.1 rfl
    dsimp only
    split
    · next hc =>
      simp only [reduceCtorEq, false_iff]
      exact fun h => hc.2 (h.2.1 hc.1)
    · next hc =>
      rw [h2]
      exact ⟨fun h => ⟨h1, fun e => Classical.byContradiction fun hn => hc ⟨e, hn⟩, h⟩, fun h => h.2.2⟩

/-- C57: `test_validity` of any view whatsoever ends normally exactly if parents and children mirror each other, all of them are
displayed, and only the virtual root has no parents. -/
theorem C57_test_validity (ft : FT) : ft.testValidity = .ok () ↔ Valid ft := by
  unfold FT.testValidity
  rw [testAll_ok]
  simp only [testNode_ok]
  have hk : ∀ x, x ∈ ft.view.nodes.keys ↔ ft.view.has x = true := fun x => ft.view.nodes.mem_keys x
  constructor
  · intro h
    exact ⟨fun x hx => (h x ((hk x).2 hx)).1, fun x hx => (h x ((hk x).2 hx)).2.1, fun x hx => (h x ((hk x).2 hx)).2.2⟩
  · intro h x hx
    have := (hk x).1 hx
    exact ⟨h.parents x this, h.orphans x this, h.children x this⟩

theorem pathLoop_ok (v : View) : ∀ p, FT.pathLoop v p = true ↔ p.IsChain fun a b => b ∈ v.kids a := by
  intro p
  induction p with
  | nil => simp [FT.pathLoop]
  | cons x p ih =>
    cases p with
    | nil => simp [FT.pathLoop]
    | cons y p =>
      rw [FT.pathLoop, List.isChain_cons_cons, ← ih]
      unfold View.kids
      cases v.nodes.get? x with
      | none => simp
      | some n =>
        by_cases h : y ∈ n.children <;> simp [h]

/-- C57: `is_path_valid` accepts the empty path and the chains of at least two nodes in which each is a displayed child of the one
before. -/
theorem C57_path (ft : FT) (p : List Id) :
    ft.isPathValid p = true ↔ p.length ≠ 1 ∧ p.IsChain fun a b => b ∈ ft.view.kids a := by
  unfold FT.isPathValid
  split
  · next h => simp [h]
  · next h => rw [pathLoop_ok]; simp [h]

/-- C57: after every fair history of an application `test_validity` finds nothing. -/
theorem C57_passes_partial {V : Type} {diff : List Id → List Id → List Id} {ops : List Op} {bcs : List (Bank.Call (Id → V))} {root : Id}
    (h : ViewStart ops root) (hdiff : SetDiff diff) (d : Id → V) :
    ∃ ft, FT.new diff (Bank.run {} bcs) (runOps St.init ops).t d root true = .ok ft ∧
      ∀ cs, ViewFairRun diff cs ⟨runOps St.init ops, d, Bank.run {} bcs, ft⟩ →
        ∃ a, FApp.run diff cs ⟨runOps St.init ops, d, Bank.run {} bcs, ft⟩ = .ok a ∧ a.ft.testValidity = .ok () := by
  obtain ⟨ft, e, hr⟩ := h.run hdiff d
  refine ⟨ft, e, fun cs hf => ?_⟩
  obtain ⟨a, ea, hv⟩ := hr cs hf
  have hok := hv.viewOK hdiff
  refine ⟨a, ea, (C57_test_validity a.ft).2 ⟨fun x hx p hp => ?_, fun x hx hp => ?_, fun x hx c hc => ?_⟩⟩
  · have hk := (hok.mirror p x).2 hp
    exact ⟨View.has_of_kids hk, hk⟩
  · by_contra hne
    have hw := (hv.rebuilt.showsExactly.shown x hne).1 hx
    have hpar := hv.rebuilt.rightShape.parents x hw
    by_cases hex : ∃ q, WantedParent a q x
    · obtain ⟨q, hq⟩ := hex
      have := (hpar q).2 (Or.inl hq)
      rw [hp] at this; cases this
    · have := (hpar a.ft.root).2 (Or.inr ⟨rfl, fun q hq => hex ⟨q, hq⟩⟩)
      rw [hp] at this; cases this
  · exact ⟨hok.shown x c hc, (hok.mirror x c).1 hc⟩

/-- **`is_path_valid` does not tell the paths of a view from others**: it rejects the path of a node at the top, as
`get_paths_for_node` gives it, and accepts a chain that does not start at the top. -/
theorem C57_refuted_path : ViewOK shownApp.ft ∧ (∃ l, IsRow shownApp.ft l ∧ shownApp.ft.isPathValid l = false) ∧
    ∃ l, ¬ IsRow shownApp.ft l ∧ shownApp.ft.isPathValid l = true := by
  refine ⟨shownApp_ok, ⟨[.str 2], ?_, by decide⟩, [.str 3, .str 4], ?_, by decide⟩
  · refine ⟨by simp, ?_⟩
    rw [List.isChain_cons_cons]
    exact ⟨by decide, by simp⟩
  · rintro ⟨-, h⟩
    rw [List.isChain_cons_cons] at h
    exact absurd h.1 (by decide)

example : shownApp.ft.testValidity = .ok () ∧ shownApp.ft.isPathValid [.str 2, .str 3, .str 4] = true ∧
    shownApp.ft.isPathValid [.str 4, .str 3] = false ∧
    ({ shownApp.ft with root := .str 2 } : FT).testValidity = .error .inconsistent := by decide

example : shownApp.ft.printTree = .ok [(0, .str 100), (1, .str 2), (2, .str 3), (3, .str 4), (2, .str 4)] ∧ ViewOK shownApp.ft :=
  ⟨by decide, shownApp_ok⟩

end Larch
