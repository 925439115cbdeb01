import Verif.Model.Sorting
import Verif.Proofs.Moments
import Verif.Props.TreeModel

/-!
# C60: rows are built from real nodes, and comparing functions get real nodes

While a view sends a signal, a change of the tree is half done. A GTK model that hears the signal asks the tree for the node
(`treemodel.py:133,174`) to compute the columns of the row, and then GTK sorts and asks the tree for the nodes of other rows
(`__init__.py:359-360`). `get_node` raises for a node that has left the tree.
-/

namespace Larch

open Spec

variable {V : Type} {diff : List Id → List Id → List Id}

/-- What the view sends when it is made. -/
theorem new_real {s : St} {d : Id → V} {b : Bank (Id → V)} {root : Id} {ft : FT} (e : FT.new diff b s.t d root true = .ok ft)
    (h : VState diff ⟨s, d, b, ft⟩) : ∃ rows, Real [] (ft.view.out.map fun g => (s.t, g)) rows := by
  obtain ⟨rows, q, -⟩ := h.replay
  unfold FT.new at e
  rw [if_pos rfl] at e
  obtain ⟨v, h1, rfl⟩ := withView_eq e
  obtain ⟨tr, -, o, k, -⟩ := refilter_follows (G := fun y => s.t.has y = true) (fun y hy => accepts_has hy) h1
  have hall : All (fun y => s.t.has y = true) root ⟨View.rootOnly root, []⟩ :=
    ⟨fun y hy hyr => (by
      have hy' : (View.rootOnly root).has y = true := hy
      rw [View.rootOnly, Dict.has_set] at hy'
      simp [hyr] at hy'
      rw [show Dict.empty.has y = false from rfl] at hy'
      cases hy'),
    fun p hc => (by
      unfold View.kids at hc
      rw [View.rootOnly, Dict.get?_set] at hc
      split at hc
      · cases hc
      · cases hc), by
      unfold View.pars
      rw [View.rootOnly, Dict.get?_set, if_pos rfl]; rfl⟩
  have hg := (k hall).2
  refine ⟨rows, (Real.of_good h.good.wf q (fun l hl => by cases hl) fun g hs => ?_).1⟩
  have o' : v.out = [] ++ tr.map Prod.snd := o
  have hs' : g ∈ v.out := hs
  rw [o'] at hs'
  obtain ⟨c, hc, rfl⟩ := List.mem_map.1 hs'
  exact hg c hc

/-- **C60** (partial), for rows. After any fair history, the signals that the view has sent are those listed with the tree at
the moment of each. At every signal that is no deletion, its node is in the tree of that moment, so that the columns of the
row can be computed; and the observer has rows only for nodes of the tree of that moment, so that any two rows can be compared.
After the history, the rows are rows of nodes in the tree.

Missing: the conditions of `ViewFair`; see `C60_refuted_removal` in `Props/Now.lean`. -/
theorem C60_moment_partial {ops : List Op} {bcs : List (Bank.Call (Id → V))} {root : Id} (hs : ViewStart ops root)
    (hdiff : SetDiff diff) (d : Id → V) :
    ∃ ft, FT.new diff (Bank.run {} bcs) (runOps St.init ops).t d root true = .ok ft ∧
      ∀ cs, ViewFairRun diff cs ⟨runOps St.init ops, d, Bank.run {} bcs, ft⟩ →
        ∃ a, FApp.run diff cs ⟨runOps St.init ops, d, Bank.run {} bcs, ft⟩ = .ok a ∧
          (allMoments diff cs ⟨runOps St.init ops, d, Bank.run {} bcs, ft⟩).map Prod.snd = a.ft.view.out ∧
          (∀ pre t s post, allMoments diff cs ⟨runOps St.init ops, d, Bank.run {} bcs, ft⟩ = pre ++ (t, s) :: post → s.ev ≠ .deleted →
            (∃ n, t.getNode s.nid = .ok n ∧ n.id = s.nid) ∧
            ∃ rows, replay (pre.map Prod.snd ++ [s]) [] = some rows ∧ WF t ∧ RowsReal t rows) ∧
          ∃ rows, replay a.ft.view.out [] = some rows ∧ WF a.s.t ∧ RowsReal a.s.t rows := by
  obtain ⟨ft, e, hr⟩ := hs.run hdiff d
  refine ⟨ft, e, fun cs hf => ?_⟩
  obtain ⟨a0, e0, v0⟩ := hr [] trivial
  cases e0
  obtain ⟨rows0, r0⟩ := new_real e v0
  obtain ⟨a, ea, va, ho, hreal⟩ := run_real hdiff cs v0 hf
  have q0 : replay ft.view.out [] = some rows0 := by
    have := r0.heard
    rw [List.map_map, show (Prod.snd ∘ fun g : Sig => ((runOps St.init ops).t, g)) = id from rfl, List.map_id] at this
    exact this
  obtain ⟨rows', r1⟩ := hreal q0
  have rall := r0.append r1
  refine ⟨a, ea, ?_, fun pre t s post e1 h1 => ?_, ?_⟩
  · rw [ho]
    unfold allMoments
    rw [List.map_append, List.map_map]
    congr 1
    exact List.map_id _
  · obtain ⟨rows, q, w, hh, rr⟩ := rall.moment e1 h1
    obtain ⟨n, hn⟩ := (Tree.has_iff _ _).1 hh
    refine ⟨⟨n, by unfold Tree.getNode; rw [hn], (w.self _ n hn).1⟩, rows, q, w, rr⟩
  · obtain ⟨rows, q, rr⟩ := va.replay
    exact ⟨rows, q, va.good.wf, rr⟩

/-- Any two rows of a model that has heard these signals can be compared. -/
theorem compare_real {O : GtkOrder} (hO : GtkSound O) {h : List TM.Act} {rows : List (List Id)} {t : Tree} (hw : WF t)
    (h1 : replay (signals h) [] = some rows) (hr : RowsReal t rows) (hadd : (addresses h).Nodup) (hl : Throughout O ParentThere h {}) :
    ∃ m, TM.run O h {} = .ok m ∧ ∀ r1 ∈ m.rows, ∀ r2 ∈ m.rows, ∃ n1 n2, t.node? r1.nid = some n1 ∧ t.node? r2.nid = some n2 ∧
      ∀ f, m.sortFunc t (some f) r1.addr r2.addr = .ok (f n1 n2) := by
  obtain ⟨hf', hc'⟩ := no_reuse hO h (U := []) (TInv.init (P := fun _ => [])) h1 hadd
    (fun r hr => by cases hr) (fun k b hk => by cases hk) hl
  obtain ⟨m, P, em, hi⟩ := tmRun_inv hO h (TInv.init (P := fun _ => [])) h1 hf' hc' hl
  have key : ∀ r ∈ m.rows, ∃ n, t.node? r.nid = some n ∧ m.value r.addr = some r.nid ∧ r.nid.falsy = false := by
    intro r hrm
    obtain ⟨x, e, hx⟩ := hr (P r.addr).reverse ((hi.img _).2 ⟨r, hrm, by simp⟩)
    rw [hi.path r hrm] at e
    simp at e
    subst e
    obtain ⟨n, hn⟩ := (Tree.has_iff _ _).1 hx
    exact ⟨n, hn, (TM.value_eq hi.addrs).2 ⟨r, hrm, rfl, rfl⟩, (hw.ids _ hx).1⟩
  refine ⟨m, em, fun r1 h1 r2 h2 => ?_⟩
  obtain ⟨n1, e1, v1, f1⟩ := key r1 h1
  obtain ⟨n2, e2, v2, f2⟩ := key r2 h2
  refine ⟨n1, n2, e1, e2, fun f => ?_⟩
  unfold TM.sortFunc
  rw [v1, v2]
  simp [f1, f2, Tree.getNode, e1, e2]

/-- **C60** (partial), for the comparing functions. A GTK model hears the signals of a view, up to any signal that is no deletion
of any fair history, with any lookups in between, at addresses of its own. Then, while the signal is handled, GTK may compare
any two rows: the function of the column gets the two nodes of the rows, as they are in the tree at that moment, and nothing
raises. The same holds after the history, when the user sorts by another column.

Missing: the conditions of `ViewFair` and C36. -/
theorem C60_compare_partial {ops : List Op} {bcs : List (Bank.Call (Id → V))} {root : Id} (hs : ViewStart ops root)
    (hdiff : SetDiff diff) (d : Id → V) {O : GtkOrder} (hO : GtkSound O) :
    ∃ ft, FT.new diff (Bank.run {} bcs) (runOps St.init ops).t d root true = .ok ft ∧
      ∀ cs, ViewFairRun diff cs ⟨runOps St.init ops, d, Bank.run {} bcs, ft⟩ →
        ∃ a, FApp.run diff cs ⟨runOps St.init ops, d, Bank.run {} bcs, ft⟩ = .ok a ∧
          (∀ pre t s post, allMoments diff cs ⟨runOps St.init ops, d, Bank.run {} bcs, ft⟩ = pre ++ (t, s) :: post → s.ev ≠ .deleted →
            ∀ h : List TM.Act, signals h = pre.map Prod.snd ++ [s] → (addresses h).Nodup → Throughout O ParentThere h {} →
              ∃ m, TM.run O h {} = .ok m ∧ ∀ r1 ∈ m.rows, ∀ r2 ∈ m.rows, ∃ n1 n2, t.node? r1.nid = some n1 ∧
                t.node? r2.nid = some n2 ∧ ∀ f, m.sortFunc t (some f) r1.addr r2.addr = .ok (f n1 n2)) ∧
          ∀ h : List TM.Act, signals h = a.ft.view.out → (addresses h).Nodup → Throughout O ParentThere h {} →
            ∃ m, TM.run O h {} = .ok m ∧ ∀ r1 ∈ m.rows, ∀ r2 ∈ m.rows, ∃ n1 n2, a.s.t.node? r1.nid = some n1 ∧
              a.s.t.node? r2.nid = some n2 ∧ ∀ f, m.sortFunc a.s.t (some f) r1.addr r2.addr = .ok (f n1 n2) := by
  obtain ⟨ft, e, hr⟩ := C60_moment_partial hs hdiff d
  refine ⟨ft, e, fun cs hf => ?_⟩
  obtain ⟨a, ea, -, hm, rows, q, w, rr⟩ := hr cs hf
  refine ⟨a, ea, fun pre t s post e1 h1 h hsig hadd hl => ?_, fun h hsig hadd hl => ?_⟩
  · obtain ⟨-, rows, q, w, rr⟩ := hm pre t s post e1 h1
    exact compare_real hO w (hsig ▸ q) rr hadd hl
  · exact compare_real hO w (hsig ▸ q) rr hadd hl

/-! ### A concrete case and a limit -/

/-- Nodes 3 and 4 are added, 3 gets a second parent, and the parents are removed, so that 3 comes to the top. -/
def sortHistory : List (FAct Nat) :=
  [ .edit (.addNode (.new (.str 3) .none) (.str 1)), .edit (.addNode (.new (.str 4) .none) (.str 3)),
    .edit (.newRelationship (.str 2) (.str 3)), .edit (.delNode (.str 2) false),
    .edit (.delNode (.str 1) false) ]

theorem sortHistory_fair : ViewFairRun someDiff sortHistory viewApp := by
  refine countBank_fair rfl ⟨⟨careful_add (Made.new _ _) (by decide), ?_, ?_⟩, ⟨careful_add (Made.new _ _) (by decide), ?_, ?_⟩,
    ⟨Tree.allEnabled_accept (by decide) _ _, ?_, ?_⟩, ⟨show List.length _ ≤ 1 by decide, ?_, ?_⟩,
    ⟨show List.length _ ≤ 1 by decide, ?_, ?_⟩, trivial⟩
  all_goals first
    | (intro nd p h; cases h; decide)
    | (intro nd p h; cases h; done)
    | (intro x h; cases h; done)

/-- The moment when node 3 comes to the top: node 1, which is being removed, has a row and is still in the tree; 2 is gone. -/
def sortMoment : Tree × Sig := ((allMoments someDiff sortHistory viewApp)[33]?).getD (viewApp.s.t, ⟨.deleted, .none, []⟩)

def heardThen : List TM.Act := Screen.heard id 0 (((allMoments someDiff sortHistory viewApp).take 34).map Prod.snd)

set_option maxRecDepth 8000 in
example : sortMoment.2 = ⟨.added, .str 3, [.str 3]⟩ ∧ sortMoment.1.nodes.keys = [.str 1, .str 3, .str 4] ∧
    replay (signals heardThen) [] = some [[.str 3], [.str 1]] ∧ (addresses heardThen).Nodup := by decide

example : ∃ m, TM.run byInsertion heardThen {} = .ok m ∧ m.rows.map GRow.nid = [.str 1, .str 3] ∧
    m.rows.map GRow.addr = [0, 33] ∧ m.sortFunc sortMoment.1 (some fun x y => if x.id = y.id then 0 else 1) 0 33 = .ok 1 := ⟨_, rfl, rfl, rfl, rfl⟩

end Larch
