import Verif.Proofs.Late

/-!
# C45: changes that are announced later
-/

namespace Larch

open Graph Spec

variable {V : Type} {diff : List Id → List Id → List Id}

/-- C45: at any time the application may change the data of any nodes and the parameters of any filters without telling
anybody, and then announce the nodes for which the answer of the filters changed, in any order, or refresh everything. No
call raises, and afterwards the view displays exactly the wanted nodes, in the right places, and the observers have the right rows.
Missing for the literal claim: the restrictions of `LateFair`, see the refutations below. -/
theorem C45_announced_partial {ops : List Op} {bcs : List (Bank.Call (Id → V))} {root : Id} (h : ViewStart ops root)
    (hdiff : SetDiff diff) (d : Id → V) :
    ∃ ft, FT.new diff (Bank.run {} bcs) (runOps St.init ops).t d root true = .ok ft ∧
      ∀ cs, LateFairRun diff cs ⟨runOps St.init ops, d, Bank.run {} bcs, ft⟩ →
        ∃ a, FApp.runLate diff cs ⟨runOps St.init ops, d, Bank.run {} bcs, ft⟩ = .ok a ∧
          ShowsExactly a ∧ RightShape a ∧ ObserverAgrees a := by
  obtain ⟨ft, e, hr⟩ := h.run hdiff d
  refine ⟨ft, e, fun cs hf => ?_⟩
  obtain ⟨a0, e0, hv⟩ := hr [] trivial
  cases e0
  obtain ⟨a, ea, ha⟩ := runLate_vstate hdiff cs _ hv hf
  exact ⟨a, ea, ha.rebuilt.showsExactly, ha.rebuilt.rightShape, ha.observerAgrees⟩

/-! ### A concrete case -/

theorem forest_of {t : Tree} (hw : WF t) (h : ∀ x ∈ t.nodes.keys, (t.getParents x).length ≤ 1) : Forest t := by
  intro x p q hp hq
  have hp' : p ∈ t.getParents x := hp
  have hq' : q ∈ t.getParents x := hq
  have := h x ((Dict.mem_keys _ _).2 (Tree.has_of_mem_rawParents ((hw.isParent p x).1 hp)))
  generalize t.getParents x = l at *
  match l with
  | [] => cases hp'
  | [a] => simp at hp' hq'; rw [hp', hq']
  | a :: b :: l => simp at this

/-- Apply a filter; hide both nodes without a word and refresh everything; show the lower one, then invert the filter and
change the data at once, and announce both nodes; add a node. -/
def lateHistory : List (LAct Nat) :=
  [ .act (.apply (.plain 1) none false true), .lateAll (fun _ => 1) [],
    .late (fun x => if x = .str 2 then 4 else 1) [] [.str 2],
    .late (fun x => if x = .str 2 then 4 else 1) [(.plain 1, { negate := some true })] [.str 1, .str 2],
    .late (fun _ => 3) [] [.str 2], .act (.edit (.addNode (.new (.str 3) .none) (.str 2))) ]

theorem lateHistory_fair : LateFairRun someDiff lateHistory viewApp := by
  have hw : WF (runOps St.init viewOps).t := (runOps_careful viewOps St.init init_good init_noDangling viewStart.careful).1.wf
  have hforest : Forest (runOps St.init viewOps).t := forest_of hw (by decide)
  have hno : ∀ x, x ∉ ([.str 1, .str 2] : List Id) → (runOps St.init viewOps).t.has x = false := fun x hx => by
    by_contra hc
    exact hx ((Dict.mem_keys _ _).2 (Bool.eq_true_of_not_eq_false hc))
  have same : ∀ (a a' : FApp Nat) (told : List Id), a.s.t = (runOps St.init viewOps).t → a'.s.t = (runOps St.init viewOps).t →
      (∀ x ∈ ([.str 1, .str 2] : List Id), x ∉ told → FT.accepts a'.bank a'.s.t a'.data a'.ft.applied x = FT.accepts a.bank a.s.t a.data a.ft.applied x) →
      ∀ x, x ∉ told → (Wanted a' x ↔ Wanted a x) := by
    intro a a' told h1 h2 h x hx
    by_cases hm : x ∈ ([.str 1, .str 2] : List Id)
    · rw [← accepts_iff (a := a') (h2 ▸ hw), ← accepts_iff (a := a) (h1 ▸ hw), h x hm hx]
    · have := hno x hm
      constructor
      · intro h'; have e := h'.1; rw [h2, this] at e; cases e
      · intro h'; have e := h'.1; rw [h1, this] at e; cases e
  have nf : ∀ {a a' : FApp Nat}, FT.anyFlat a'.bank a'.ft.applied = false → FT.anyFlat a.bank a.ft.applied = false →
      (FlatView a' ↔ FlatView a) := by
    intro a a' h1 h2
    rw [← flatView_iff, ← flatView_iff, h1, h2]
  refine ⟨⟨rfl, fun h => by cases h⟩, ⟨nf rfl rfl, Or.inr (Or.inl hforest)⟩,
    ⟨⟨nf rfl rfl, Or.inr (Or.inl hforest)⟩, same _ _ _ rfl rfl (by decide)⟩,
    ⟨⟨nf rfl rfl, Or.inr (Or.inl hforest)⟩, same _ _ _ rfl rfl (by decide)⟩,
    ⟨⟨nf rfl rfl, Or.inr (Or.inl hforest)⟩, same _ _ _ rfl rfl (by decide)⟩,
    ⟨⟨careful_add (Made.new _ _) (by decide), fun nd p h => by cases h; decide, fun x h => by cases h⟩, .inl ?_⟩, trivial⟩
  exact OwnBank.applied (setParameters_own (ownBank_run _ countBank_own).1 (ownBank_run _ countBank_own).2 (.plain 1) (some { negate := some true }))

example : ∃ a, FApp.runLate someDiff lateHistory viewApp = .ok a ∧ ShowsExactly a ∧ RightShape a ∧ ObserverAgrees a := by
  obtain ⟨ft, e, h⟩ := C45_announced_partial viewStart someDiff_ok (fun _ => 0)
  have : viewApp = ⟨runOps St.init viewOps, fun _ => 0, Bank.run {} countBank, ft⟩ := by
    unfold viewApp; rw [e]; rfl
  rw [this]
  exact h lateHistory (this ▸ lateHistory_fair)

/-- The view on the way: 1 with 2 below it; nothing; 2; 1; 1 with 2 below it; and 3 below 2. -/
example :
    ((List.range 7).map fun n => (FApp.runLate someDiff (lateHistory.take n) viewApp).state.ft.view.kids (.str 100)) =
      [[.str 1], [.str 1], [], [.str 2], [.str 1], [.str 1], [.str 1]] ∧
    ((List.range 7).map fun n => (FApp.runLate someDiff (lateHistory.take n) viewApp).state.ft.view.kids (.str 1)) =
      [[.str 2], [.str 2], [], [], [], [.str 2], [.str 2]] := by decide

/-! ### The limits -/

/-- Node 3 has the parents 1 and 2, and 2 has the parent 1. -/
def sharedOps : List Op :=
  [ .addNode (.new (.str 1) .none) .none, .addNode (.new (.str 2) .none) (.str 1), .addNode (.new (.str 3) .none) (.str 1),
    .newRelationship (.str 2) (.str 3) ]

/-- C45 is false when nodes with several parents may be hidden: 1 and 3 are displayed and the filter hides both; announcing
1 and then 3, which are the nodes for which its answer changed, makes the view raise `KeyError`. -/
theorem C45_refuted_hidden : ∃ a, FApp.runLate someDiff
    ((LAct.act (.apply (.plain 1) none false true) :: sharedOps.map fun o => .act (.edit o)) ++ [.late (fun _ => 1) [] [.str 1, .str 3]])
    (emptyApp fun x => if x = .str 2 then 1 else 0) = .err .keyError a := ⟨_, rfl⟩

/-- Nor does `refresh_all` work for this change. -/
theorem C45_refuted_refresh : ∃ a, FApp.runLate someDiff
    ((LAct.act (.apply (.plain 1) none false true) :: sharedOps.map fun o => .act (.edit o)) ++ [.lateAll (fun _ => 1) []])
    (emptyApp fun x => if x = .str 2 then 1 else 0) = .err .keyError a := ⟨_, rfl⟩

theorem not_rightShape_of {a : FApp Nat} {x : Id} (hf : FT.anyFlat a.bank a.ft.applied = true) (hw : WF a.s.t)
    (hx : FT.accepts a.bank a.s.t a.data a.ft.applied x = true) (hp : a.ft.view.pars x ≠ [a.ft.root]) : ¬ RightShape a :=
  fun h => hp (h.flat (flatView_iff.1 hf) x ((accepts_iff hw x).1 hx))

/-- C45 is false when a filter in use is made flat without a word: `refresh_all` leaves the child below its parent. -/
theorem C45_refuted_flat : ¬ RightShape (FApp.runLate someDiff
      [.act (.apply (.plain 1) none false true), .lateAll (fun _ => 0) [(.plain 1, { flat := some true })]] viewApp).state := by
  refine not_rightShape_of (x := .str 2) (by decide) ?_ (by decide) (by decide)
  exact (runOps_careful viewOps St.init init_good init_noDangling viewStart.careful).1.wf

end Larch
