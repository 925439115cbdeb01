import Verif.Props.Suite
import Verif.Props.Fewer
import Verif.Proofs.Kept

/-!
# C74: counters with filters that look at the children of a node
-/

namespace Larch

open Graph Spec

variable {V : Type}

theorem MadeCarefully.init : MadeCarefully St.init := ⟨[], trivial, rfl⟩

theorem madeCarefully_step {s : St} (h : MadeCarefully s) {op : Op} (hc : Careful s op) : MadeCarefully (step s op).state := by
  obtain ⟨ops, h1, rfl⟩ := h
  exact ⟨ops ++ [op], along_append h1 ⟨hc, trivial⟩, by rw [runOps_append']; rfl⟩

theorem modifyAll_applied (b : Bank (Id → V)) (t : Tree) (d : Id → V) (l : List Id) (v : VC) :
    (Res.forEach (VC.modify b t d) l v).state.applied = v.applied := by
  induction l generalizing v with
  | nil => rfl
  | cons x l ih =>
    rw [Res.forEach]
    have := modify_applied b t d x v
    cases hr : VC.modify b t d x v with
    | ok v' => rw [hr] at this; exact (ih v').trans this
    | err e v' => rw [hr] at this; exact this

theorem applied_apply (b : Bank (Id → V)) (t : Tree) (d : Id → V) (n : FName) (v : VC) (hi : v.initialized = true) :
    ∀ m ∈ (v.applyFilter b t d n true).state.applied, m ∈ v.applied ∨ m = n := by
  intro m hm
  unfold VC.applyFilter at hm
  split at hm
  · split at hm
    · dsimp only at hm
      rw [if_pos rfl, if_pos hi, modifyAll_applied] at hm
      simpa using hm
    · exact .inl hm
  · exact .inl hm

/-- Filters are applied one after the other. -/
theorem apply_all (ns : List FName) : ∀ a : CApp V, CInv a →
    ∃ a', CApp.run (ns.map fun n => .apply n true) a = .ok a' ∧ CInv a' ∧ a'.s = a.s ∧ a'.bank = a.bank ∧
      ∀ n ∈ a'.vc.applied, n ∈ a.vc.applied ∨ n ∈ ns := by
  induction ns with
  | nil => exact fun a ha => ⟨a, rfl, ha, rfl, rfl, fun n hn => .inl hn⟩
  | cons n ns ih =>
    intro a ha
    obtain ⟨a1, e1, h1⟩ := act_inv a ha (.apply n true) rfl
    have hsame : a1.s = a.s ∧ a1.bank = a.bank ∧ ∀ m ∈ a1.vc.applied, m ∈ a.vc.applied ∨ m = n := by
      change a.withVC (a.vc.applyFilter a.bank a.s.t a.data n true) = .ok a1 at e1
      have := applied_apply a.bank a.s.t a.data n a.vc ha.initialized
      cases hr : a.vc.applyFilter a.bank a.s.t a.data n true with
      | err e v => rw [hr] at e1; cases e1
      | ok v =>
        rw [hr] at e1 this
        cases e1
        exact ⟨rfl, rfl, this⟩
    obtain ⟨a2, e2, h2, s2, b2, g2⟩ := ih a1 h1
    refine ⟨a2, ?_, h2, s2.trans hsame.1, b2.trans hsame.2.1, fun m hm => ?_⟩
    · rw [List.map_cons, CApp.run, e1]; exact e2
    · rcases g2 m hm with g | g
      · rcases hsame.2.2 m g with g | rfl
        · exact .inl g
        · exact .inr (by simp)
      · exact .inr (by simp [g])

theorem childRun_inv (cs : List (CAct V)) : ∀ a : CApp V, CInv a → MadeCarefully a.s → ChildrenUsed a → ChildRun cs a →
    ∃ a', CApp.run cs a = .ok a' ∧ CInv a' := by
  induction cs with
  | nil => exact fun a h _ _ _ => ⟨a, rfl, h⟩
  | cons c cs ih =>
    intro a h hm hk hr
    have key : Fair a c ∧ ∀ a1, a.act c = .ok a1 → MadeCarefully a1.s ∧ a1.bank = a.bank ∧ a1.vc.applied = a.vc.applied := by
      have := hr.1
      cases c with
      | edit op =>
        refine ⟨.inr ⟨hm, this.1, .inr ⟨hk, this.2⟩⟩, fun a1 e => ?_⟩
        obtain ⟨g1, g2, g3⟩ := countEdit_same (show a.edit op = .ok a1 from e)
        exact ⟨g1 ▸ madeCarefully_step hm this.1, g2, g3⟩
      | change x v =>
        refine ⟨⟨this, .inr ⟨hm, hk⟩⟩, fun a1 e => ?_⟩
        obtain ⟨g1, g2, g3⟩ := countEdit_same (show CApp.edit { a with data := fun y => if y = x then v else a.data y } (.refreshNode x) = .ok a1 from e)
        exact ⟨g1 ▸ madeCarefully_step hm trivial, g2, g3⟩
      | _ => exact this.elim
    obtain ⟨a1, e1, h1⟩ := act_inv a h c key.1
    obtain ⟨g1, g2, g3⟩ := key.2 a1 e1
    have hr2 := hr.2
    rw [e1] at hr2
    obtain ⟨a2, e2, h2⟩ := ih a1 h1 g1 (by unfold ChildrenUsed; rw [g2, g3]; exact hk) hr2
    exact ⟨a2, by rw [CApp.run, e1]; exact e2, h2⟩

/-- C74: a counter made at any time of a careful history, with any filters on a node's own data and children applied, reports the exact
number through all careful edits in which nodes come without parents. Missing: nodes that come with a parent (refuted below). -/
theorem C74_exact_partial (ops : List Op) (hc : Along Careful St.init ops) (d : Id → V) (bcs : List (Bank.Call (Id → V))) (ns : List FName)
    (hb : ∀ n ∈ ns, ∀ f, (Bank.run {} bcs).getFilter n = some f → LooksAtChildren f) :
    ∃ v, VC.new (Bank.run {} bcs) (runOps St.init ops).t d true = .ok v ∧
      ∃ a, CApp.run (ns.map fun n => .apply n true) ⟨runOps St.init ops, d, Bank.run {} bcs, v⟩ = .ok a ∧ Exact a ∧
        ∀ cs, ChildRun cs a → ∃ a', CApp.run cs a = .ok a' ∧ Exact a' := by
  obtain ⟨v, e, h⟩ := new_inv (runOps St.init ops) d (Bank.run {} bcs) (bank_run bcs _ ⟨rfl, by simp [KV.keys]⟩)
  have hv : v.applied = [] := by
    have := modifyAll_applied (Bank.run {} bcs) (runOps St.init ops).t d (runOps St.init ops).t.nodes.keys {}
    change VC.refresh _ _ _ {} = _ at e
    unfold VC.refresh at e
    cases hr : Res.forEach (VC.modify (Bank.run {} bcs) (runOps St.init ops).t d) (runOps St.init ops).t.nodes.keys {} with
    | err x w => rw [hr] at e; cases e
    | ok w => rw [hr] at e this; cases e; exact this
  obtain ⟨a, ea, ha, g1, g2, g3⟩ := apply_all ns _ h
  refine ⟨v, e, a, ea, ha.exact, fun cs hr => ?_⟩
  obtain ⟨a', e', h'⟩ := childRun_inv cs a ha (g1 ▸ ⟨ops, hc, rfl⟩) (fun n hn f hf => by
    rw [g2] at hf
    rcases g3 n hn with g | g
    · rw [hv] at g; cases g
    · exact hb n g f hf) hr
  exact ⟨a', e', h'.exact⟩

/-! ### A concrete case -/

theorem isLeaf_looks (dic : Params) : LooksAtChildren (⟨isLeaf, dic⟩ : Filter (Id → V)) := by
  intro t t' d d' x hx hx' _ _ _ hc
  have : isLeaf t d x (if dic.truthy then some dic else none) = isLeaf t' d' x (if dic.truthy then some dic else none) := by
    unfold isLeaf
    rw [Bool.eq_iff_iff, List.isEmpty_iff, List.isEmpty_iff, List.eq_nil_iff_forall_not_mem, List.eq_nil_iff_forall_not_mem]
    exact forall_congr' fun c => not_congr (hc c)
  unfold Filter.isDisplayed
  rw [if_pos hx, if_pos hx']
  dsimp only
  rw [this]

/-- 1: the leaves; 2: the nodes with children; 3: the nodes without grandchildren. -/
def kidsBank : List (Bank.Call (Id → Nat)) :=
  [ .add (.plain 1) isLeaf none, .add (.plain 2) isLeaf (some { negate := some true }),
    .add (.plain 3) (fun t _ x _ => (t.getChildren x).all fun c => (t.getChildren c).isEmpty) none ]

/-- Two nodes, 2 below 1. -/
def kidsOps : List Op := [.addNode (.new (.str 1) .none) .none, .addNode (.new (.str 2) .none) (.str 1)]

def kidsApp (n : Nat) : CApp Nat := (CApp.run [.apply (.plain n) true] ⟨runOps St.init kidsOps, fun _ => 0, Bank.run {} kidsBank,
  (VC.new (Bank.run {} kidsBank) (runOps St.init kidsOps).t (fun _ => 0) true).state⟩).state

/-- A node arrives and is put below 2, 2 is removed with all below it, and 1 is changed. -/
def kidsHistory : List (CAct Nat) :=
  [ .edit (.addNode (.new (.str 3) .none) .none), .edit (.moveNode (.str 3) (.str 2)), .edit (.delNode (.str 2) true), .change (.str 1) 4 ]

/-- The nodes counted after each action. -/
def countedAfter (a : CApp Nat) (cs : List (CAct Nat)) : List (List Id) :=
  (List.range (cs.length + 1)).map fun k => (CApp.run (cs.take k) a).state.vc.nodes

theorem kidsOps_careful : Along Careful St.init kidsOps :=
  ⟨careful_add (Made.new _ _) (by decide), careful_add (Made.new _ _) (by decide), trivial⟩

theorem kidsBank_looks (n : Nat) (hn : n = 1 ∨ n = 2) : ∀ m ∈ [FName.plain n], ∀ f, (Bank.run {} kidsBank).getFilter m = some f →
    LooksAtChildren f := by
  intro m hm f hf
  rw [List.mem_singleton.1 hm] at hf
  rcases hn with rfl | rfl
  · cases hf; exact isLeaf_looks _
  · cases hf; exact isLeaf_looks _

theorem kidsHistory_run (n : Nat) (hn : n = 1 ∨ n = 2) : ChildRun kidsHistory (kidsApp n) := by
  have alone : ∀ s : St, (addNode s (.new (.str 3) .none) .none).state.t.getParents (.str 3) = [] →
      ComesAlone s (.addNode (.new (.str 3) .none) .none) := by
    intro s h nd p e _ q hq
    cases e
    unfold IsParent at hq
    change q ∈ (addNode s (.new (.str 3) .none) .none).state.t.getParents (.str 3) at hq
    rw [h] at hq; cases hq
  have below : ∀ s : St, (∀ x ∈ [Id.str 3], ∀ c ∈ s.t.getChildren x, c ∈ [Id.str 3]) → (∀ c ∈ s.t.getChildren (.str 2), c ∈ [Id.str 3]) →
      (s.t.getParents (.str 2)).length ≤ 1 → s.t.getParents (.str 3) = [.str 2] → Careful s (.delNode (.str 2) true) := by
    intro s h1 h2 h3 h4
    refine ⟨h3, fun y hy p hp => .inl ?_⟩
    have : y ∈ [Id.str 3] := by
      clear hp
      induction hy with
      | single h => exact h2 _ h
      | tail _ h ih => exact h1 _ ih _ h
    rw [List.mem_singleton.1 this] at hp
    unfold IsParent at hp
    rw [h4] at hp
    exact List.mem_singleton.1 hp
  have noAdd : ∀ (s : St) (op : Op), (∀ nd p, op ≠ .addNode nd p) → ComesAlone s op := fun s op h nd p e => absurd e (h nd p)
  rcases hn with rfl | rfl <;>
    exact ⟨⟨careful_add (Made.new _ _) (by decide), alone _ (by decide)⟩, ⟨trivial, noAdd _ _ (by intro _ _ h; cases h)⟩,
      ⟨below _ (by decide) (by decide) (by decide) (by decide), noAdd _ _ (by intro _ _ h; cases h)⟩, (by decide : Id.str 1 ≠ rootId), trivial⟩

/-- The leaves (and with the second filter: the nodes that are none) on the way. -/
example : countedAfter (kidsApp 1) kidsHistory = [[.str 2], [.str 2, .str 3], [.str 3], [.str 1], [.str 1]] ∧
    countedAfter (kidsApp 2) kidsHistory = [[.str 1], [.str 1], [.str 1, .str 2], [], []] := by decide

example (n : Nat) (hn : n = 1 ∨ n = 2) : ∃ a, CApp.run kidsHistory (kidsApp n) = .ok a ∧ Exact a := by
  obtain ⟨v, e, a, ea, -, h⟩ := C74_exact_partial kidsOps kidsOps_careful (fun _ => 0) kidsBank [.plain n] (kidsBank_looks n hn)
  have : kidsApp n = a := by
    unfold kidsApp
    rw [e]
    change CApp.run [.apply (.plain n) true] _ = _ at ea
    show (CApp.run [.apply (.plain n) true] _).state = a
    rw [show Res.state (Res.ok v) = v from rfl, ea]; rfl
  exact this ▸ h kidsHistory (this ▸ kidsHistory_run n hn)

/-! ### A view and a counter of the leaves in one application (C54) -/

/-- Nodes 1 and 2 arrive, 2 is put below 1, 3 arrives and is put below 2; 2 is removed with all below it. -/
def leafSuite : List (SuiteAct Nat) :=
  [ .bank (.add (.plain 1) isLeaf none), .getView (some 5) true, .onView 1 (.apply (.plain 1) none false true), .getCount none true,
    .onCount 2 (.apply (.plain 1) true), .edit (.addNode (.new (.str 1) .none) .none), .edit (.addNode (.new (.str 2) .none) .none),
    .edit (.moveNode (.str 2) (.str 1)), .edit (.addNode (.new (.str 3) .none) .none), .edit (.newRelationship (.str 2) (.str 3)),
    .onView 0 .currentState, .change (.str 2) 4, .edit (.delNode (.str 2) true) ]

/-- What all views and counters use is the filter of the leaves. -/
def LeafOnly (a : Suite Nat) : Bool :=
  (List.range a.objs.length).all fun k =>
    ((viewAt a k).all fun ft => ft.applied.all (· == .plain 1)) && ((countAt a k).all fun c => c.applied.all (· == .plain 1))

theorem leafOnly_uses {a : Suite Nat} (h : LeafOnly a = true) (hb : ∀ f, a.bank.getFilter (.plain 1) = some f → f = ⟨isLeaf, {}⟩) :
    (∀ k ft, viewAt a k = some ft → FewerApplied (alone a ft)) ∧ ∀ k c, countAt a k = some c → ChildrenUsed (aloneCount a c) := by
  have h := List.all_eq_true.1 h
  refine ⟨fun k ft hk n hn f hf => ?_, fun k c hk n hn f hf => ?_⟩
  · have hl : k < a.objs.length := by
      obtain ⟨s, hs⟩ := viewAt_some hk
      exact (List.getElem?_eq_some_iff.1 hs).1
    have := h k (List.mem_range.2 hl)
    rw [Bool.and_eq_true, hk] at this
    have : n = .plain 1 := by simpa using (List.all_eq_true.1 this.1) n hn
    subst this
    rw [hb f hf]
    exact isLeaf_fewer _ (by decide)
  · have hl : k < a.objs.length := (List.getElem?_eq_some_iff.1 (countAt_some hk)).1
    have := h k (List.mem_range.2 hl)
    rw [Bool.and_eq_true, hk] at this
    have : n = .plain 1 := by simpa using (List.all_eq_true.1 this.2) n hn
    subst this
    rw [hb f hf]
    exact isLeaf_looks _

theorem leafOnly_follow {fresh : Nat → Bool} {a : Suite Nat} (hfr : (List.range a.objs.length).all fresh = true) (h : LeafOnly a = true) (hb : ∀ f, a.bank.getFilter (.plain 1) = some f → f = ⟨isLeaf, {}⟩) (op : Op)
    (ho : ComesAlone a.s op)
    (hd : ∀ x, op = .delNode x true → ∀ y, Descendant a.s.t y x → (a.s.t.getParents y).length ≤ 1 := by rintro _ ⟨⟩) :
    AllFollow fresh a op :=
  ⟨fun k ft _ hk => .inl ⟨allFresh_of hfr k ft hk, .inr (.inl ⟨(leafOnly_uses h hb).1 k ft hk, fun nd p e hx => .inl (ho nd p e hx), hd⟩)⟩,
    fun k c hk => .inr ⟨(leafOnly_uses h hb).2 k c hk, ho⟩⟩

theorem leafOnly_followData {a : Suite Nat} (h : LeafOnly a = true)
    (hb : ∀ f, a.bank.getFilter (.plain 1) = some f → f = ⟨isLeaf, {}⟩) : AllFollowData a :=
  ⟨fun k ft _ hk => .inr (.inl ((leafOnly_uses h hb).1 k ft hk)), fun k c hk => .inr ((leafOnly_uses h hb).2 k c hk)⟩

theorem leafOnly_followChange {fresh : Nat → Bool} {a : Suite Nat} (hfr : (List.range a.objs.length).all fresh = true) (h : LeafOnly a = true)
    (hb : ∀ f, a.bank.getFilter (.plain 1) = some f → f = ⟨isLeaf, {}⟩) (x : Id) (v : Nat) : AllFollowChange fresh a x v :=
  ⟨fun k ft hk0 hk => .inl ⟨allFresh_of hfr k ft hk, (leafOnly_followData h hb).1 k ft hk0 hk⟩, (leafOnly_followData h hb).2⟩

theorem alone_add (s : St) (i : Nat) (h : (addNode s (.new (.str i) .none) .none).state.t.getParents (.str i) = []) :
    ComesAlone s (.addNode (.new (.str i) .none) .none) := by
  intro nd p e _ q hq
  cases e
  unfold IsParent at hq
  change q ∈ (addNode s (.new (.str i) .none) .none).state.t.getParents (.str i) at hq
  rw [h] at hq; cases hq

theorem noAdd_alone (s : St) (op : Op) (h : ∀ nd p, op ≠ .addNode nd p) : ComesAlone s op := fun nd p e => absurd e (h nd p)

theorem below_only (s : St) (h1 : ∀ x ∈ [Id.str 3], ∀ c ∈ s.t.getChildren x, c ∈ [Id.str 3])
    (h2 : ∀ c ∈ s.t.getChildren (.str 2), c ∈ [Id.str 3]) : ∀ y, Descendant s.t y (.str 2) → y = .str 3 := by
  intro y hy
  have : y ∈ [Id.str 3] := by
    induction hy with
    | single h => exact h2 _ h
    | tail _ h ih => exact h1 _ ih _ h
  exact List.mem_singleton.1 this

theorem leafSuite_fair : SuiteFairRun someDiff (fun _ => true) leafSuite (Suite.init fun _ => 0) := by
  have hb : ∀ f, (Bank.call ({} : Bank (Id → Nat)) (.add (.plain 1) isLeaf none)).2.getFilter (.plain 1) = some f →
      f = (⟨isLeaf, {}⟩ : Filter (Id → Nat)) := by
    intro f hf; cases hf; rfl
  refine ⟨trivial, trivial, ⟨by decide, fun h => (by cases h)⟩, rfl, rfl,
    ⟨leafOnly_follow (by decide) (by decide) hb _ (alone_add _ _ (by decide)),
      careful_add (Made.new _ _) (by decide), small_not_root (by decide), fun _ e => (by cases e)⟩,
    ⟨leafOnly_follow (by decide) (by decide) hb _ (alone_add _ _ (by decide)),
      careful_add (Made.new _ _) (by decide), small_not_root (by decide), fun _ e => (by cases e)⟩,
    ⟨leafOnly_follow (by decide) (by decide) hb _ (noAdd_alone _ _ fun _ _ h => by cases h),
      trivial, fun _ _ e => (by cases e), fun _ e => (by cases e)⟩,
    ⟨leafOnly_follow (by decide) (by decide) hb _ (alone_add _ _ (by decide)),
      careful_add (Made.new _ _) (by decide), small_not_root (by decide), fun _ e => (by cases e)⟩,
    ⟨leafOnly_follow (by decide) (by decide) hb _ (noAdd_alone _ _ fun _ _ h => by cases h),
      Tree.allEnabled_accept (by decide) _ _, fun _ _ e => (by cases e), fun _ e => (by cases e)⟩,
    ⟨rfl, allFresh_of (by decide), leafOnly_followData (by decide) hb⟩,
    leafOnly_followChange (by decide) (by decide) hb _ _,
    ⟨leafOnly_follow (by decide) (by decide) hb _ (noAdd_alone _ _ fun _ _ h => by cases h) ?_,
      ?_, fun _ _ e => (by cases e), ?_⟩, trivial⟩
  · intro x e y hy
    cases e
    rcases below_only _ (by decide) (by decide) y hy with rfl
    decide
  · refine ⟨by decide, fun y hy p hp => .inl ?_⟩
    have := below_only _ (by decide) (by decide) y hy
    subst this
    have : p ∈ [Id.str 2] := hp
    exact List.mem_singleton.1 this
  · intro x e y hy
    cases e
    rcases below_only _ (by decide) (by decide) y hy with rfl
    decide

/-- In the end only 1 is left, and both show it as a leaf; before 2 is removed both have 3 only. -/
example : ∃ a, Suite.run someDiff leafSuite (Suite.init fun _ => 0) = .ok a ∧
    SuiteRight someDiff (freshAtEnd someDiff (fun _ => true) leafSuite (Suite.init fun _ => 0)) a ∧
    ((viewAt a 1).map fun ft => ft.view.kids (rootOf (some 5))) = some [.str 1] ∧ ((countAt a 2).map (·.nodes)) = some [.str 1] := by
  obtain ⟨a, e, h⟩ := C54_all_right_partial someDiff_ok (fun _ => 0) leafSuite leafSuite_fair
  refine ⟨a, e, h, ?_⟩
  have : (Suite.run someDiff leafSuite (Suite.init fun _ => 0)).state = a := by rw [e]; rfl
  rw [← this]
  exact ⟨by decide, by decide⟩

example : ((viewAt (Suite.run someDiff (leafSuite.take 12) (Suite.init fun _ => 0)).state 1).map fun ft => ft.view.kids (rootOf (some 5))) =
      some [.str 3] ∧
    ((countAt (Suite.run someDiff (leafSuite.take 12) (Suite.init fun _ => 0)).state 2).map (·.nodes)) = some [.str 3] :=
  ⟨by decide, by decide⟩

/-! ### The limits -/

theorem not_exact {a : CApp Nat} (l : List Id) (hl : ∀ x, Counted a x → x ∈ l) (hn : l.length < a.vc.nNodes) : ¬ Exact a := by
  rintro ⟨m, h1, h2, h3⟩
  have := (List.subperm_of_subset h1 fun x hx => hl x ((h2 x).1 hx)).length_le
  omega

/-- C74 is false when a node comes with a parent: the counter of the leaves still counts 2 after 3 came below it. A view is told
(its parents are asked again, `filteredtree.py:176-181, 205-218`). -/
theorem C74_refuted_arrival : ¬ Exact (CApp.run [.edit (.addNode (.new (.str 3) .none) (.str 2))] (kidsApp 1)).state := by
  refine not_exact [.str 3] (fun x hx => ?_) (by decide)
  obtain ⟨h1, h2⟩ := hx
  have hk : x ∈ [Id.str 1, .str 2, .str 3] := (mem_keys _ x).2 h1
  obtain ⟨f, hf, hd⟩ := h2 (.plain 1) (by decide)
  cases hf
  simp only [List.mem_cons, List.not_mem_nil, or_false] at hk ⊢
  rcases hk with rfl | rfl | rfl
  · exact absurd hd (by decide)
  · exact absurd hd (by decide)
  · rfl

/-- C74 is false for filters that look further down: after 3 is moved below 2, node 1 has a grandchild and is still counted. -/
theorem C74_refuted_below : ¬ Exact (CApp.run [.edit (.addNode (.new (.str 3) .none) .none), .edit (.moveNode (.str 3) (.str 2))] (kidsApp 3)).state := by
  refine not_exact [.str 2, .str 3] (fun x hx => ?_) (by decide)
  obtain ⟨h1, h2⟩ := hx
  have hk : x ∈ [Id.str 1, .str 2, .str 3] := (mem_keys _ x).2 h1
  obtain ⟨f, hf, hd⟩ := h2 (.plain 3) (by decide)
  cases hf
  simp only [List.mem_cons, List.not_mem_nil, or_false] at hk ⊢
  rcases hk with rfl | rfl | rfl
  · exact absurd hd (by decide)
  · exact .inl rfl
  · exact .inr rfl

end Larch
