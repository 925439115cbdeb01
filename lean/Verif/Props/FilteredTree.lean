import Verif.Proofs.BelowApp
import Verif.Proofs.ViewRefilter
import Verif.Props.ViewCount
import Verif.Props.Consistency

/-!
# C24–C28: the view of an application
-/

namespace Larch

open Graph Spec

variable {V : Type} {diff : List Id → List Id → List Id}

/-- The part of `VState` that does not depend on the observers. -/
structure Rebuilt (diff : List Id → List Id → List Id) (a : FApp V) : Prop where
  good : Good a.s.t
  rootFree : a.s.t.has a.ft.root = false
  flat : a.ft.flat = FT.anyFlat a.bank a.ft.applied
  fit : ∃ o, Fit (FT.env diff a.bank a.s.t a.data a.ft) (fun _ => False) ⟨a.ft.view.nodes, o⟩

theorem VState.rebuilt {a : FApp V} (h : VState diff a) : Rebuilt diff a :=
  ⟨h.good, h.rootFree, h.flat, a.ft.view.out, h.fit⟩

theorem Rebuilt.showsExactly {a : FApp V} (h : Rebuilt diff a) : ShowsExactly a := by
  obtain ⟨o, hfit⟩ := h.fit
  obtain ⟨r, -, hv⟩ := hfit.inv
  have hs : ∀ x, x ≠ a.ft.root → (a.ft.view.has x = true ↔ Wanted a x) := by
    intro x hx
    rw [← accepts_iff h.good.wf]
    exact ⟨fun hh => hv.sub x hh hx, fun hd => hfit.all x hd⟩
  refine ⟨hs, a.ft.view.nodes.keys.erase a.ft.root, ?_, hv.keys.erase _, fun x => ?_⟩
  · unfold FT.allNodes
    have hk : a.ft.root ∈ a.ft.view.nodes.keys := (Dict.mem_keys _ _).2 hv.rootIn
    rw [if_pos hk]
  · rw [hv.keys.mem_erase_iff, Dict.mem_keys]
    constructor
    · rintro ⟨h1, h2⟩; exact (hs x h1).1 h2
    · intro hw
      have : x ≠ a.ft.root := by rintro rfl; have := hw.1; rw [h.rootFree] at this; cases this
      exact ⟨this, (hs x this).2 hw⟩

theorem Rebuilt.rightShape {a : FApp V} (h : Rebuilt diff a) : RightShape a := by
  obtain ⟨o, hfit⟩ := h.fit
  obtain ⟨r, -, hv⟩ := hfit.inv
  have hnf : a.ft.flat = false ↔ ¬ FlatView a := by
    rw [← flatView_iff, ← h.flat]; simp
  have hc : ∀ x p, Wanted a x → (p ∈ candAll (FT.env diff a.bank a.s.t a.data a.ft) x ↔ WantedParent a p x) := by
    intro x p hx
    rw [mem_npCand]
    unfold WantedParent
    rw [← hnf, ← accepts_iff h.good.wf]
    constructor
    · rintro ⟨⟨h1, -⟩, h2, -, h3⟩; exact ⟨h1, h2, h3⟩
    · rintro ⟨h1, h2, h3⟩; exact ⟨⟨h1, hx.1⟩, h2, rfl, h3⟩
  have hpar : ∀ x, Wanted a x → ∀ p, p ∈ a.ft.view.pars x ↔ WantedParent a p x ∨ (p = a.ft.root ∧ ∀ q, ¬ WantedParent a q x) := by
    intro x hx p
    rw [show a.ft.view.pars x = View.pars ⟨a.ft.view.nodes, o⟩ x from rfl, hfit.settled x ((accepts_iff h.good.wf x).2 hx) (fun h => h) p, mem_npAll, hc x p hx, List.eq_nil_iff_forall_not_mem]
    have : (∀ q, q ∉ candAll (FT.env diff a.bank a.s.t a.data a.ft) x) ↔ ∀ q, ¬ WantedParent a q x :=
      forall_congr' fun q => not_congr (hc x q hx)
    rw [this]; rfl
  refine ⟨hpar, ?_, ?_, hv.rootPars, fun p x => (hv.mirror x (fun h => h) p).symm, hv.ndP, hv.ndK⟩
  · intro x hx
    obtain ⟨n, hn⟩ := View.get_of_has (hfit.all x ((accepts_iff h.good.wf x).2 hx))
    have hp : a.ft.view.pars x = n.parents := View.pars_of_get hn
    refine ⟨n.parents.erase a.ft.root, ?_, (hp ▸ hv.ndP x).erase _, fun p => ?_⟩
    · unfold FT.nodeParents; rw [hn]
    · rw [(hp ▸ hv.ndP x : n.parents.Nodup).mem_erase_iff, ← hp, hpar x hx]
      constructor
      · rintro ⟨h1, h2 | h2⟩
        · exact h2
        · exact absurd h2.1 h1
      · intro hw
        refine ⟨?_, Or.inl hw⟩
        rintro rfl
        have := hw.2.2.1
        rw [h.rootFree] at this; cases this
  · intro hf x hx
    have hno : ∀ q, ¬ WantedParent a q x := fun q hq => hq.1 hf
    have hm : ∀ p, p ∈ a.ft.view.pars x ↔ p = a.ft.root := by
      intro p; rw [hpar x hx]
      constructor
      · rintro (h1 | h1)
        · exact absurd h1 (hno p)
        · exact h1.1
      · intro h1; exact Or.inr ⟨h1, hno⟩
    have hnd : (a.ft.view.pars x).Nodup := hv.ndP x
    generalize a.ft.view.pars x = l at hm hnd
    cases l with
    | nil => exact absurd ((hm a.ft.root).2 rfl) (by simp)
    | cons p l =>
      cases l with
      | nil => rw [(hm p).1 (by simp)]
      | cons q l =>
        have e1 := (hm p).1 (by simp)
        have e2 := (hm q).1 (by simp)
        rw [e1, e2] at hnd
        simp at hnd

theorem VState.observerAgrees {a : FApp V} (h : VState diff a) : ObserverAgrees a := by
  obtain ⟨r, -, hv⟩ := h.fit.inv
  obtain ⟨rows, h1, h2, h3, -⟩ := hv.rows
  exact ⟨rows, h1, h2, h3⟩

/-- The circumstances in which the view is created: any careful history of the tree, any filters in the bank, and a
virtual root that is no node of the tree. -/
structure ViewStart (ops : List Op) (root : Id) : Prop where
  careful : Along Careful St.init ops
  rootFree : (runOps St.init ops).t.has root = false

theorem ViewStart.run {ops : List Op} {bcs : List (Bank.Call (Id → V))} {root : Id} (h : ViewStart ops root)
    (hdiff : SetDiff diff) (d : Id → V) :
    ∃ ft, FT.new diff (Bank.run {} bcs) (runOps St.init ops).t d root true = .ok ft ∧
      ∀ cs, ViewFairRun diff cs ⟨runOps St.init ops, d, Bank.run {} bcs, ft⟩ →
        ∃ a, FApp.run diff cs ⟨runOps St.init ops, d, Bank.run {} bcs, ft⟩ = .ok a ∧ VState diff a := by
  have h0 : BankInv ({} : Bank (Id → V)) := ⟨rfl, by simp [KV.keys]⟩
  obtain ⟨hg, hn⟩ := runOps_careful ops St.init init_good init_noDangling h.careful
  obtain ⟨ft, e, hv⟩ := new_vstate hdiff hg hn d (Bank.run {} bcs) (bank_run bcs _ h0) root h.rootFree
  exact ⟨ft, e, fun cs hf => run_vstate hdiff cs _ hv hf⟩

/-- C24: after every fair history of edits, data changes and filter changes, the view displays exactly the nodes of the
tree that all applied filters accept. Missing for the literal claim: the restrictions of `ViewFair`, see the refutations
below. -/
theorem C24_exact_partial {ops : List Op} {bcs : List (Bank.Call (Id → V))} {root : Id} (h : ViewStart ops root)
    (hdiff : SetDiff diff) (d : Id → V) :
    ∃ ft, FT.new diff (Bank.run {} bcs) (runOps St.init ops).t d root true = .ok ft ∧
      ∀ cs, ViewFairRun diff cs ⟨runOps St.init ops, d, Bank.run {} bcs, ft⟩ →
        ∃ a, FApp.run diff cs ⟨runOps St.init ops, d, Bank.run {} bcs, ft⟩ = .ok a ∧ ShowsExactly a := by
  obtain ⟨ft, e, hr⟩ := h.run (bcs := bcs) hdiff d
  refine ⟨ft, e, fun cs hf => ?_⟩
  obtain ⟨a, ea, hv⟩ := hr cs hf
  exact ⟨a, ea, hv.rebuilt.showsExactly⟩

/-- C25: under the same conditions the displayed nodes are below their displayed parents. -/
theorem C25_shape_partial {ops : List Op} {bcs : List (Bank.Call (Id → V))} {root : Id} (h : ViewStart ops root)
    (hdiff : SetDiff diff) (d : Id → V) :
    ∃ ft, FT.new diff (Bank.run {} bcs) (runOps St.init ops).t d root true = .ok ft ∧
      ∀ cs, ViewFairRun diff cs ⟨runOps St.init ops, d, Bank.run {} bcs, ft⟩ →
        ∃ a, FApp.run diff cs ⟨runOps St.init ops, d, Bank.run {} bcs, ft⟩ = .ok a ∧ RightShape a := by
  obtain ⟨ft, e, hr⟩ := h.run (bcs := bcs) hdiff d
  refine ⟨ft, e, fun cs hf => ?_⟩
  obtain ⟨a, ea, hv⟩ := hr cs hf
  exact ⟨a, ea, hv.rebuilt.rightShape⟩

/-- C26: under the same conditions the signals sent so far make sense one after the other, and an observer that follows
them has exactly the rows of the view. -/
theorem C26_observer_partial {ops : List Op} {bcs : List (Bank.Call (Id → V))} {root : Id} (h : ViewStart ops root)
    (hdiff : SetDiff diff) (d : Id → V) :
    ∃ ft, FT.new diff (Bank.run {} bcs) (runOps St.init ops).t d root true = .ok ft ∧
      ∀ cs, ViewFairRun diff cs ⟨runOps St.init ops, d, Bank.run {} bcs, ft⟩ →
        ∃ a, FApp.run diff cs ⟨runOps St.init ops, d, Bank.run {} bcs, ft⟩ = .ok a ∧ ObserverAgrees a := by
  obtain ⟨ft, e, hr⟩ := h.run (bcs := bcs) hdiff d
  refine ⟨ft, e, fun cs hf => ?_⟩
  obtain ⟨a, ea, hv⟩ := hr cs hf
  exact ⟨a, ea, hv.observerAgrees⟩

/-- C27: under the same conditions no action raises an exception in the view, nor runs forever. -/
theorem C27_no_failure_partial {ops : List Op} {bcs : List (Bank.Call (Id → V))} {root : Id} (h : ViewStart ops root)
    (hdiff : SetDiff diff) (d : Id → V) :
    ∃ ft, FT.new diff (Bank.run {} bcs) (runOps St.init ops).t d root true = .ok ft ∧
      ∀ cs, ViewFairRun diff cs ⟨runOps St.init ops, d, Bank.run {} bcs, ft⟩ →
        (FApp.run diff cs ⟨runOps St.init ops, d, Bank.run {} bcs, ft⟩).isOk = true := by
  obtain ⟨ft, e, hr⟩ := h.run (bcs := bcs) hdiff d
  refine ⟨ft, e, fun cs hf => ?_⟩
  obtain ⟨a, ea, hv⟩ := hr cs hf
  rw [ea]; rfl

/-! ### A concrete case -/

theorem descendants_in {t : Tree} {x : Id} (S : List Id) (h : ∀ y ∈ x :: S, ∀ c ∈ t.getChildren y, c ∈ S) (d : Id)
    (hd : Descendant t d x) : d ∈ S := by
  induction hd with
  | single h1 => exact h x (by simp) _ h1
  | tail _ h1 ih => exact h _ (by simp [ih]) _ h1

/-- An order in which Python might iterate over a difference of sets. -/
def someDiff (a b : List Id) : List Id := a.dedup.filter (· ∉ b)

theorem someDiff_ok : SetDiff someDiff := by
  intro a b
  unfold someDiff
  refine ⟨(List.nodup_dedup _).filter _, fun x => ?_⟩
  simp

def viewOps : List Op := [.addNode (.new (.str 1) .none) .none, .addNode (.new (.str 2) .none) (.str 1)]

def viewApp : FApp Nat := ⟨runOps St.init viewOps, fun _ => 0, Bank.run {} countBank,
  (FT.new someDiff (Bank.run {} countBank) (runOps St.init viewOps).t (fun _ => 0) (.str 100) true).state⟩

/-- Apply a filter, change data, add nodes below a node that is not displayed, give a node a second parent, apply the
other filter, remove a subtree, reset. -/
def viewHistory : List (FAct Nat) :=
  [ .apply (.plain 1) none false true, .change (.str 1) 3, .edit (.addNode (.new (.str 3) .none) (.str 1)),
    .edit (.addNode (.new (.str 4) .none) (.str 3)), .edit (.newRelationship (.str 2) (.str 3)), .change (.str 2) 8,
    .apply (.plain 2) (some { negate := some false }) false true, .edit (.breakRelationship (.str 1) (.str 3)),
    .edit (.delNode (.str 3) true), .reset true ]

theorem viewStart : ViewStart viewOps (.str 100) :=
  ⟨⟨careful_add (Made.new _ _) (by decide), careful_add (Made.new _ _) (by decide), trivial⟩, by decide⟩

theorem countBank_own : ∀ n f p, Bank.Call.add n f p ∈ countBank → OwnData f := by
  intro n f p hm
  simp only [countBank, List.mem_cons, Bank.Call.add.injEq, List.not_mem_nil, or_false] at hm
  rcases hm with ⟨-, rfl, -⟩ | ⟨-, rfl, -⟩
  · exact isEven_own
  · exact isBig_own

theorem countBank_fair {cs : List (FAct Nat)} {a : FApp Nat} (e : a.bank = Bank.run {} countBank) (h : OwnFairRun someDiff cs a) :
    ViewFairRun someDiff cs a := by
  obtain ⟨h1, h2⟩ := ownBank_run _ countBank_own
  exact OwnFairRun.fair (e ▸ h1) (e ▸ h2) h

theorem viewHistory_fair : ViewFairRun someDiff viewHistory viewApp := by
  refine countBank_fair rfl ⟨⟨rfl, fun h => by cases h⟩, trivial, ⟨careful_add (Made.new _ _) (by decide), ?_, ?_⟩,
    ⟨careful_add (Made.new _ _) (by decide), ?_, ?_⟩, ⟨Tree.allEnabled_accept (by decide) _ _, ?_, ?_⟩, trivial,
    ⟨rfl, fun _ => by decide⟩, ⟨trivial, ?_, ?_⟩, ⟨⟨?_, ?_⟩, ?_, ?_⟩, rfl, trivial⟩
  all_goals first
    | (intro nd p h; cases h; decide)
    | (intro nd p h; cases h; done)
    | (intro x h; cases h; done)
    | skip
  · decide
  · intro y hy
    have := descendants_in [.str 4] (by decide) y hy
    simp only [List.mem_singleton] at this
    subst this
    intro p hp
    left
    exact List.mem_singleton.1 (hp : p ∈ [Id.str 3])
  · intro x h y hy
    cases h
    have := descendants_in [.str 4] (by decide) y hy
    simp only [List.mem_singleton] at this
    subst this
    decide

example : ∃ a, FApp.run someDiff viewHistory viewApp = .ok a ∧ ShowsExactly a ∧ RightShape a ∧ ObserverAgrees a := by
  obtain ⟨ft, e, h⟩ := viewStart.run (bcs := countBank) someDiff_ok (fun _ => 0)
  have : viewApp = ⟨runOps St.init viewOps, fun _ => 0, Bank.run {} countBank, ft⟩ := by
    unfold viewApp; rw [e]; rfl
  obtain ⟨a, ea, hv⟩ := h viewHistory (this ▸ viewHistory_fair)
  exact ⟨a, this ▸ ea, hv.rebuilt.showsExactly, hv.rebuilt.rightShape, hv.observerAgrees⟩

/-- The view on the way: 1 is hidden because of its number 3, so 2 is at the top; 3 and 4 are hidden by the second filter;
after the reset everything that is left is shown. -/
example : (FApp.run someDiff (viewHistory.take 5) viewApp).state.ft.view.kids (.str 100) = [.str 2] ∧
    (FApp.run someDiff (viewHistory.take 5) viewApp).state.ft.view.kids (.str 2) = [.str 3] ∧
    (FApp.run someDiff (viewHistory.take 5) viewApp).state.ft.view.kids (.str 3) = [.str 4] ∧
    (FApp.run someDiff (viewHistory.take 7) viewApp).state.ft.view.kids (.str 100) = [.str 2] ∧
    (FApp.run someDiff viewHistory viewApp).state.ft.view.kids (.str 1) = [.str 2] := by decide

/-! ### The limits -/

/-- An empty application: no nodes, and the bank of the concrete case. -/
def emptyApp (d : Id → Nat) : FApp Nat := ⟨St.init, d, Bank.run {} countBank, ⟨.str 100, [], false, ⟨View.rootOnly (.str 100), []⟩⟩⟩

theorem emptyApp_new (d : Id → Nat) :
    FT.new someDiff (Bank.run {} countBank) St.init.t d (.str 100) true = .ok (emptyApp d).ft := rfl

/-- A list of descendants: everybody is a child of `x` or of somebody later in the list. -/
def listed (t : Tree) (x : Id) : List Id → Bool
  | [] => true
  | y :: ys => listed t x ys && (x :: ys).any fun p => decide (y ∈ t.getChildren p)

theorem descendant_of_listed {t : Tree} {x : Id} : ∀ {S : List Id}, listed t x S = true → ∀ y ∈ S, Descendant t y x
  | y :: ys, h, z, hz => by
    unfold listed at h
    rw [Bool.and_eq_true, List.any_eq_true] at h
    obtain ⟨h1, p, hp, hc⟩ := h
    have hc' : IsChild t p y := of_decide_eq_true hc
    rcases List.mem_cons.1 hz with rfl | hz
    · rcases List.mem_cons.1 hp with rfl | hp
      · exact .single hc'
      · exact (descendant_of_listed h1 p hp).tail hc'
    · exact descendant_of_listed h1 z hz

/-- No descendant has a parent outside. -/
theorem inside_of_listed {t : Tree} {x : Id} (S : List Id) (h1 : listed t x S = true)
    (h2 : ∀ y ∈ x :: S, ∀ c ∈ t.getChildren y, c ∈ S) (h3 : ∀ y ∈ S, ∀ p ∈ t.getParents y, p = x ∨ p ∈ S) :
    ∀ y, Descendant t y x → ∀ p, IsParent t p y → p = x ∨ Descendant t p x := fun y hy p hp =>
  (h3 y (descendants_in S h2 y hy) p hp).imp id (descendant_of_listed h1 p)

/-- Two levels below node 3, with a node of four parents, all of them below 3. -/
def manyParents : List Op :=
  [ .addNode (.new (.str 3) .none) .none, .addNode (.new (.str 4) .none) .none, .addNode (.new (.str 5) .none) .none,
    .addNode (.new (.str 6) .none) .none, .addNode (.new (.str 7) .none) .none, .addNode (.new (.str 8) .none) .none,
    .newRelationship (.str 3) (.str 4), .newRelationship (.str 3) (.str 6), .newRelationship (.str 3) (.str 7),
    .newRelationship (.str 6) (.str 5), .newRelationship (.str 8) (.str 5), .newRelationship (.str 7) (.str 5),
    .newRelationship (.str 4) (.str 5), .newRelationship (.str 4) (.str 8), .delNode (.str 3) true ]

set_option maxRecDepth 4000 in
theorem manyParents_careful : Along Careful St.init manyParents := by
  refine ⟨careful_add (Made.new _ _) (by decide), careful_add (Made.new _ _) (by decide),
    careful_add (Made.new _ _) (by decide), careful_add (Made.new _ _) (by decide),
    careful_add (Made.new _ _) (by decide), careful_add (Made.new _ _) (by decide),
    Tree.allEnabled_accept (by decide) _ _, Tree.allEnabled_accept (by decide) _ _,
    Tree.allEnabled_accept (by decide) _ _, Tree.allEnabled_accept (by decide) _ _,
    Tree.allEnabled_accept (by decide) _ _, Tree.allEnabled_accept (by decide) _ _,
    Tree.allEnabled_accept (by decide) _ _, Tree.allEnabled_accept (by decide) _ _, ⟨by decide, ?_⟩, trivial⟩
  exact inside_of_listed [.str 8, .str 5, .str 7, .str 6, .str 4] (by decide) (by decide) (by decide)

/-- C27 is false without the guard on recursive removal: no filter is applied, all edits are careful, and the view raises
`KeyError` when the subtree of node 3 is removed. -/
theorem C27_refuted_removal : ∃ ops, Along Careful St.init ops ∧
    ∃ a, FApp.run someDiff (ops.map .edit) (emptyApp fun _ => 0) = .err .keyError a := by
  refine ⟨manyParents, manyParents_careful, ?_⟩
  exact ⟨_, rfl⟩

/-- A filter on the structure: the node or one of its descendants is accepted by the data (`10` bounds the recursion). -/
def someBelow : Nat → Tree → (Id → Nat) → Id → Bool
  | 0, _, _, _ => false
  | k + 1, t, d, x => decide (d x = 0) || (t.getChildren x).any (someBelow k t d)

def belowBank : List (Bank.Call (Id → Nat)) := [.add (.plain 3) (fun t d x _ => someBelow 10 t d x) none]

/-- C27 does not extend to filters on the structure: with "the node or one of its descendants is unfinished", nodes 3 > 4 > 5
and 5 also directly below 3, finishing 5 makes the view raise `KeyError`. -/
theorem C27_limit_structure : ∃ a, FApp.run someDiff
    [ .apply (.plain 3) none false true, .edit (.addNode (.new (.str 3) .none) .none),
      .edit (.addNode (.new (.str 4) .none) .none), .edit (.addNode (.new (.str 5) .none) .none),
      .edit (.newRelationship (.str 4) (.str 5)), .edit (.newRelationship (.str 3) (.str 5)),
      .edit (.newRelationship (.str 3) (.str 4)), .change (.str 5) 1 ]
    { emptyApp (fun x => if x = .str 5 then 0 else 1) with bank := Bank.run {} belowBank } = .err .keyError a := ⟨_, rfl⟩

theorem not_showsExactly_of_shown {a : FApp Nat} {x : Id} (hx : a.ft.view.has x = true) (hr : x ≠ a.ft.root)
    (h : FT.accepts a.bank a.s.t a.data a.ft.applied x = false) (hf : x.falsy = false) : ¬ ShowsExactly a := by
  intro hs
  obtain ⟨h1, h2⟩ := (hs.shown x hr).1 hx
  unfold FT.accepts at h
  rw [hf, h1] at h
  simp only [Bool.not_false, Bool.and_self, Bool.true_and] at h
  rw [List.all_eq_false] at h
  obtain ⟨n, hn, hd⟩ := h
  obtain ⟨f, e, hf'⟩ := h2 n hn
  rw [e] at hd
  exact hd hf'

/-- C24 is false when another view gives a filter in use new parameters: filters are shared, and this view is not told. -/
theorem C24_refuted_parameters : ¬ ShowsExactly (FApp.run someDiff
    [ .apply (.plain 1) none false true, .edit (.addNode (.new (.str 3) .none) .none),
      .setParams (.plain 1) { negate := some true } ] (emptyApp fun _ => 0)).state :=
  not_showsExactly_of_shown (x := .str 3) (by decide) (by decide) (by decide) rfl

/-- C24 is false when a filter in use is removed from the bank. -/
theorem C24_refuted_removed : ¬ ShowsExactly (FApp.run someDiff
    [ .apply (.plain 1) none false true, .edit (.addNode (.new (.str 3) .none) .none),
      .bank (.remove (.plain 1)) ] (emptyApp fun _ => 0)).state :=
  not_showsExactly_of_shown (x := .str 3) (by decide) (by decide) (by decide) rfl

/-- C24 is false when `apply_filter` is given parameters for a filter the bank does not have, together with `reset`: the
list of applied filters is emptied before `ValueError` is raised, and the view still hides the nodes. -/
theorem C24_refuted_apply : ∃ a, FApp.run someDiff
    [ .apply (.plain 1) none false true, .edit (.addNode (.new (.str 3) .none) .none),
      .apply (.plain 9) (some { negate := some true }) true true ] (emptyApp fun _ => 1) = .err .valueError a ∧
    ¬ ShowsExactly a := by
  refine ⟨_, rfl, fun hs => ?_⟩
  have := (hs.shown (.str 3) (by decide)).2 ⟨by decide, fun n hn => by cases hn⟩
  revert this; decide

/-- C24 is false when a node has the id of the view's virtual root: it is never shown. -/
theorem C24_refuted_root : ¬ ShowsExactly (FApp.run someDiff [ .edit (.addNode (.new (.str 100) .none) .none) ]
    (emptyApp fun _ => 0)).state := by
  rintro ⟨-, l, hl, -, h⟩
  have e : (FApp.run someDiff [ .edit (.addNode (.new (.str 100) .none) .none) ] (emptyApp fun _ => 0)).state.ft.allNodes
    = .ok [] := rfl
  rw [e] at hl
  cases hl
  have := (h (.str 100)).2 ⟨by decide, fun n hn => by cases hn⟩
  cases this

/-- C26 is false for an observer already connected when somebody calls `get_current_state`: it is told twice about a row. -/
theorem C26_refuted_current_state : ¬ ObserverAgrees (FApp.run someDiff
    [ .edit (.addNode (.new (.str 3) .none) .none), .currentState ] (emptyApp fun _ => 0)).state := by
  rintro ⟨rows, h, -⟩
  have e : replay (FApp.run someDiff [ .edit (.addNode (.new (.str 3) .none) .none), .currentState ]
    (emptyApp fun _ => 0)).state.ft.view.out [] = none := rfl
  rw [e] at h; cases h

end Larch
