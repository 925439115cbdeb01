import Verif.Spec.Below
import Verif.Props.Fewer

/-!
# C65: views with filters that look at everything below a node
-/

namespace Larch

open Graph Spec

variable {V : Type} {diff : List Id → List Id → List Id}

theorem BelowFair.fair {a : FApp V} {c : FAct V} (hf : BelowFair a c) : ViewFair a c := by
  cases c with
  | edit op => exact ⟨hf.1, .inr (.inr hf.2)⟩
  | change x v => exact .inr (.inr hf)
  | _ => exact FewerFair.fair hf

theorem BelowFairRun.fair {cs : List (FAct V)} {a : FApp V} (hf : BelowFairRun diff cs a) : ViewFairRun diff cs a := by
  induction cs generalizing a with
  | nil => trivial
  | cons c cs ih => exact ⟨hf.1.elim BelowFair.fair FewerFair.fair, ih hf.2⟩

/-- C65: after any careful history of the tree a view is created, with any filters in the bank. During every history in which
each action meets `BelowFair` or `FewerFair`, nothing raises, and afterwards the view displays exactly the nodes that the applied
filters accept, each below its displayed parents, and the observers have been told exactly the rows of the view.
Missing for the literal claim: the restrictions of `BelowFair`, see the refutations below. -/
theorem C65_below_partial {ops : List Op} (hc : Along Careful St.init ops) (bcs : List (Bank.Call (Id → V))) {root : Id}
    (hr : (runOps St.init ops).t.has root = false) (hdiff : SetDiff diff) (d : Id → V) :
    ∃ ft, FT.new diff (Bank.run {} bcs) (runOps St.init ops).t d root true = .ok ft ∧
      ∀ cs, BelowFairRun diff cs ⟨runOps St.init ops, d, Bank.run {} bcs, ft⟩ →
        ∃ a, FApp.run diff cs ⟨runOps St.init ops, d, Bank.run {} bcs, ft⟩ = .ok a ∧
          ShowsExactly a ∧ RightShape a ∧ ObserverAgrees a := by
  obtain ⟨ft, e, hr⟩ := (ViewStart.mk hc hr).run (bcs := bcs) hdiff d
  refine ⟨ft, e, fun cs hf => ?_⟩
  obtain ⟨a, ea, ha⟩ := hr cs (BelowFairRun.fair hf)
  exact ⟨a, ea, ha.rebuilt.showsExactly, ha.rebuilt.rightShape, ha.observerAgrees⟩

/-! ### Filters of this kind -/

/-- The data of the node or of something at most `k` levels below it passes. -/
def anyBelow (g : V → Bool) : Nat → Tree → (Id → V) → Id → Bool
  | 0, _, d, x => g (d x)
  | k + 1, t, d, x => g (d x) || (t.getChildren x).any (anyBelow g k t d)

/-- The data of the node or of something below it passes. The tests have such filters: `is_there_purple_somewhere`
(`tests/test_liblarch.py:1927-1936`) and `has_something_pink` (`tests/test_liblarch.py:1967-1976`). -/
def belowFilter (g : V → Bool) (t : Tree) (d : Id → V) (x : Id) (_ : Option Params) : Bool :=
  anyBelow g t.nodes.entries.length t d x

theorem anyBelow_sound (g : V → Bool) {t : Tree} {d : Id → V} (k : Nat) : ∀ {x : Id}, anyBelow g k t d x = true →
    ∃ y, (y = x ∨ Descendant t y x) ∧ g (d y) = true := by
  induction k with
  | zero => intro x h; exact ⟨x, Or.inl rfl, h⟩
  | succ k ih =>
    intro x h
    unfold anyBelow at h
    rw [Bool.or_eq_true, List.any_eq_true] at h
    rcases h with h | ⟨c, hc, h⟩
    · exact ⟨x, Or.inl rfl, h⟩
    · obtain ⟨y, hy, hg⟩ := ih h
      refine ⟨y, Or.inr ?_, hg⟩
      rcases hy with rfl | hy
      · exact Relation.TransGen.single hc
      · exact Relation.TransGen.head hc hy

theorem anyBelow_complete (g : V → Bool) {t : Tree} {d : Id → V} (ht : Id → Nat) (hlt : ∀ x c, c ∈ t.getChildren x → ht c < ht x) (k : Nat) :
    ∀ {x y : Id}, ht x ≤ k → (y = x ∨ Descendant t y x) → g (d y) = true → anyBelow g k t d x = true := by
  induction k with
  | zero =>
    rintro x y hk (rfl | hy) hg
    · exact hg
    · obtain ⟨c, hc, -⟩ := Relation.TransGen.head'_iff.1 hy
      have := hlt x c hc
      omega
  | succ k ih =>
    rintro x y hk hy hg
    unfold anyBelow
    rw [Bool.or_eq_true, List.any_eq_true]
    rcases hy with rfl | hy
    · exact Or.inl hg
    · obtain ⟨c, hc, hr⟩ := Relation.TransGen.head'_iff.1 hy
      have := hlt x c hc
      refine Or.inr ⟨c, hc, ih (by omega) ?_ hg⟩
      rcases Relation.reflTransGen_iff_eq_or_transGen.1 hr with h | h
      · exact Or.inl h
      · exact Or.inr h

/-- The filter says what its name says. -/
theorem belowFilter_iff (g : V → Bool) {t : Tree} (h : Agree t) (hn : NoCycle t) (d : Id → V) (x : Id) (p : Option Params) :
    belowFilter g t d x p = true ↔ ∃ y, (y = x ∨ Descendant t y x) ∧ g (d y) = true := by
  refine ⟨anyBelow_sound g _, fun ⟨y, hy, hg⟩ => ?_⟩
  have hk : ∀ y, t.getChildren y ≠ [] → y ∈ t.nodes.keys := by
    intro y hy
    obtain ⟨c, hc⟩ := List.exists_mem_of_ne_nil _ hy
    exact (Dict.mem_keys _ _).2 (h.exists_both y c ((h.mirror y c).1 hc)).1
  have hac : Acyclic t.getChildren := by
    intro y hy
    refine hn y ?_
    have : ∀ a b, Relation.TransGen (fun x y => y ∈ t.getChildren x) a b → Ancestor t a b := by
      intro a b hab
      induction hab with
      | single h1 => exact Relation.TransGen.single ((h.mirror _ _).1 h1)
      | tail _ h1 ih => exact Relation.TransGen.head ((h.mirror _ _).1 h1) ih
    exact this y y hy
  obtain ⟨ht, hle, hlt⟩ := exists_height t.getChildren t.nodes.keys hk hac
  refine anyBelow_complete g ht hlt _ ?_ hy hg
  have := hle x
  rw [Dict.keys_length] at this; exact this

theorem belowFilter_congr (g : V → Bool) {t t' : Tree} {d d' : Id → V} {x : Id} (h : Agree t) (hn : NoCycle t) (h' : Agree t')
    (hn' : NoCycle t') (hs : ∀ y, y = x ∨ Descendant t y x → d y = d' y ∧ ∀ c, IsChild t y c ↔ IsChild t' y c) (p : Option Params) :
    belowFilter g t' d' x p = belowFilter g t d x p := by
  have h1 : ∀ y, Descendant t y x → Descendant t' y x := by
    intro y hy
    induction hy with
    | single hc => exact Relation.TransGen.single (((hs x (Or.inl rfl)).2 _).1 hc)
    | tail hz hc ih => exact Relation.TransGen.tail ih (((hs _ (Or.inr hz)).2 _).1 hc)
  have h2 : ∀ y, Descendant t' y x → Descendant t y x := by
    intro y hy
    induction hy with
    | single hc => exact Relation.TransGen.single (((hs x (Or.inl rfl)).2 _).2 hc)
    | tail hz hc ih => exact Relation.TransGen.tail ih (((hs _ (Or.inr ih)).2 _).2 hc)
  rw [Bool.eq_iff_iff, belowFilter_iff g h' hn', belowFilter_iff g h hn]
  constructor
  · rintro ⟨y, hy, hg⟩
    have hy' := hy.imp id (h2 y)
    exact ⟨y, hy', by rw [(hs y hy').1]; exact hg⟩
  · rintro ⟨y, hy, hg⟩
    exact ⟨y, hy.imp id (h1 y), by rw [← (hs y hy).1]; exact hg⟩

theorem belowFilter_looks (g : V → Bool) (dic : Params) : LooksBelow (⟨belowFilter g, dic⟩ : Filter (Id → V)) := by
  intro t t' d d' x h hn h' hn' hx hx' hs
  unfold Filter.isDisplayed
  rw [if_pos hx, if_pos hx']
  dsimp only
  rw [belowFilter_congr g h hn h' hn' hs]

theorem belowFilter_bubbles (g : V → Bool) (dic : Params) (hneg : dic.negate ≠ some true) :
    BubblesUp (⟨belowFilter g, dic⟩ : Filter (Id → V)) := by
  intro t d p c h hn hpc hc
  obtain ⟨hp, hch⟩ := h.exists_both p c hpc
  unfold Filter.isDisplayed at hc ⊢
  rw [if_pos hch, if_neg hneg] at hc
  rw [if_pos hp, if_neg hneg]
  rw [belowFilter_iff g h hn] at hc ⊢
  obtain ⟨y, hy, hg⟩ := hc
  refine ⟨y, Or.inr ?_, hg⟩
  have hpc' := (h.mirror p c).2 hpc
  rcases hy with rfl | hy
  · exact Relation.TransGen.single hpc'
  · exact Relation.TransGen.head hpc' hy

/-! ### A concrete case -/

/-- 1: something at or below the node has number 0; 2: the same as a list; 3: few children. -/
def deepBank : List (Bank.Call (Id → Nat)) :=
  [ .add (.plain 1) (belowFilter (· == 0)) none, .add (.plain 2) (belowFilter (· == 0)) (some { flat := some true }),
    .add (.plain 3) fewKids none ]

def deepApp : FApp Nat := ⟨runOps St.init viewOps, fun _ => 1, Bank.run {} deepBank,
  (FT.new someDiff (Bank.run {} deepBank) (runOps St.init viewOps).t (fun _ => 1) (.str 100) true).state⟩

/-- 2 is below 1, all numbers are 1. With the filter on the nodes below: 3 comes below 2 and gets number 0, so that the whole
chain appears; 4 and 5 come below 3; 3 is cut off; 4 gets number 0; 3 goes below 1; 3 is removed, so 4 and 5 stay as
orphans; 4 goes below 5 and this branch is removed. Then few children are asked for. -/
def deepHistory : List (FAct Nat) :=
  [ .apply (.plain 1) none false true, .edit (.addNode (.new (.str 3) .none) (.str 2)), .change (.str 3) 0,
    .edit (.addNode (.new (.str 4) .none) (.str 3)), .edit (.addNode (.new (.str 5) .none) (.str 3)),
    .edit (.breakRelationship (.str 2) (.str 3)), .change (.str 4) 0, .edit (.newRelationship (.str 1) (.str 3)), .change (.str 3) 1,
    .edit (.delNode (.str 3) false), .edit (.newRelationship (.str 5) (.str 4)), .edit (.delNode (.str 5) true),
    .apply (.plain 3) none true true, .change (.str 1) 0 ]

theorem deep_applied (a : FApp Nat) (h : a.ft.applied = [.plain 1]) (hb : a.bank = Bank.run {} deepBank) : BelowApplied a := by
  intro n hn f hf
  rw [hb] at hf
  rw [h] at hn
  rw [List.mem_singleton.1 hn] at hf
  cases hf; exact ⟨belowFilter_looks _ _, belowFilter_bubbles _ _ (by decide)⟩

theorem singleParent_of {t : Tree} (h : ∀ x ∈ t.nodes.keys, (t.getParents x).length ≤ 1) : SingleParent t := by
  intro x
  by_cases hx : x ∈ t.nodes.keys
  · exact h x hx
  · have : t.getParents x = [] := by
      by_contra hc
      obtain ⟨p, hp⟩ := List.exists_mem_of_ne_nil _ hc
      exact hx ((Dict.mem_keys _ _).2 (has_of_getParents hp))
    rw [this]; simp

theorem deep_flat (a : FApp Nat) (h : FT.anyFlat a.bank a.ft.applied = false) : ¬ FlatView a := by
  rw [← flatView_iff, h]; simp

theorem deep_edit {a : FApp Nat} {op : Op} (h : Careful a.s op) (hroot : ∀ nd p, op = .addNode nd p → nd.id ≠ a.ft.root)
    (hb : a.bank = Bank.run {} deepBank) (ha : a.ft.applied = [.plain 1])
    (hfl : FT.anyFlat a.bank a.ft.applied = false)
    (h1 : ∀ x ∈ a.s.t.nodes.keys, (a.s.t.getParents x).length ≤ 1)
    (h2 : ∀ x ∈ (step a.s op).state.t.nodes.keys, ((step a.s op).state.t.getParents x).length ≤ 1) :
    BelowFair a (.edit op) :=
  ⟨⟨h, hroot, fun _ _ y _ => le_trans (singleParent_of h1 y) (by decide)⟩, deep_applied a ha hb, deep_flat a hfl, singleParent_of h1, singleParent_of h2⟩

theorem deep_change {a : FApp Nat} {x : Id} {v : Nat} (hb : a.bank = Bank.run {} deepBank) (ha : a.ft.applied = [.plain 1])
    (hfl : FT.anyFlat a.bank a.ft.applied = false) (h1 : ∀ x ∈ a.s.t.nodes.keys, (a.s.t.getParents x).length ≤ 1) :
    BelowFair a (.change x v) :=
  ⟨deep_applied a ha hb, deep_flat a hfl, singleParent_of h1⟩

theorem deepHistory_fair : BelowFairRun someDiff deepHistory deepApp := by
  refine ⟨Or.inr ⟨rfl, fun h => by cases h⟩,
    Or.inl (deep_edit (careful_add (Made.new _ _) (by decide)) ?_ rfl (by decide) (by decide) (by decide) (by decide)),
    Or.inl (deep_change rfl (by decide) (by decide) (by decide)),
    Or.inl (deep_edit (careful_add (Made.new _ _) (by decide)) ?_ rfl (by decide) (by decide) (by decide) (by decide)),
    Or.inl (deep_edit (careful_add (Made.new _ _) (by decide)) ?_ rfl (by decide) (by decide) (by decide) (by decide)),
    Or.inl (deep_edit trivial ?_ rfl (by decide) (by decide) (by decide) (by decide)),
    Or.inl (deep_change rfl (by decide) (by decide) (by decide)),
    Or.inl (deep_edit (Tree.allEnabled_accept (by decide) _ _) ?_ rfl (by decide) (by decide) (by decide) (by decide)),
    Or.inl (deep_change rfl (by decide) (by decide) (by decide)),
    Or.inl (deep_edit (show _ ≤ 1 by decide) ?_ rfl (by decide) (by decide) (by decide) (by decide)),
    Or.inl (deep_edit (Tree.allEnabled_accept (by decide) _ _) ?_ rfl (by decide) (by decide) (by decide) (by decide)),
    Or.inl (deep_edit ⟨by decide, ?_⟩ ?_ rfl (by decide) (by decide) (by decide) (by decide)),
    Or.inr ⟨rfl, fun h => by cases h⟩, Or.inr ?_, trivial⟩
  all_goals first
    | (intro nd p h; cases h; decide)
    | (intro nd p h; cases h; done)
    | skip
  · intro y hy
    have := descendants_in [.str 4] (by decide) y hy
    simp only [List.mem_singleton] at this
    subst this
    intro p hp
    left
    exact List.mem_singleton.1 (hp : p ∈ [Id.str 5])
  · intro n hn f hf
    rw [List.mem_singleton.1 (hn : n ∈ [FName.plain 3])] at hf
    cases hf; exact fewKids_fewer _ (by decide)

example : ∃ a, FApp.run someDiff deepHistory deepApp = .ok a ∧ ShowsExactly a ∧ RightShape a ∧ ObserverAgrees a := by
  obtain ⟨ft, e, h⟩ := C65_below_partial viewStart.careful deepBank (root := .str 100) (by decide) someDiff_ok (fun _ => 1)
  have : deepApp = ⟨runOps St.init viewOps, fun _ => 1, Bank.run {} deepBank, ft⟩ := by
    unfold deepApp; rw [e]; rfl
  exact this ▸ h deepHistory (this ▸ deepHistory_fair)

/-- The view on the way: nothing; the chain 1, 2, 3; 3 alone when it is cut off; the chain 1, 3, 4 and no 2; 4 alone when 3 is
removed; 4 below 5; nothing. -/
example : (FApp.run someDiff (deepHistory.take 2) deepApp).state.ft.view.kids (.str 100) = [] ∧
    (FApp.run someDiff (deepHistory.take 3) deepApp).state.ft.view.kids (.str 1) = [.str 2] ∧
    (FApp.run someDiff (deepHistory.take 3) deepApp).state.ft.view.kids (.str 2) = [.str 3] ∧
    (FApp.run someDiff (deepHistory.take 6) deepApp).state.ft.view.kids (.str 100) = [.str 3] ∧
    (FApp.run someDiff (deepHistory.take 9) deepApp).state.ft.view.kids (.str 1) = [.str 3] ∧
    (FApp.run someDiff (deepHistory.take 10) deepApp).state.ft.view.kids (.str 100) = [.str 4] ∧
    (FApp.run someDiff (deepHistory.take 11) deepApp).state.ft.view.kids (.str 5) = [.str 4] ∧
    (FApp.run someDiff (deepHistory.take 12) deepApp).state.ft.view.kids (.str 100) = [] := by decide

/-! ### The limits -/

/-- C65 is false when a node has two parents: nodes 3 > 4 > 5 and 5 also directly below 3; finishing 5 makes the view raise
`KeyError`. -/
theorem C65_refuted_parents : (LooksBelow (⟨belowFilter (· == 0), {}⟩ : Filter (Id → Nat)) ∧
      BubblesUp (⟨belowFilter (· == 0), {}⟩ : Filter (Id → Nat))) ∧
    ∃ a, FApp.run someDiff
      [ .apply (.plain 1) none false true, .edit (.addNode (.new (.str 3) .none) .none),
        .edit (.addNode (.new (.str 4) .none) .none), .edit (.addNode (.new (.str 5) .none) .none),
        .edit (.newRelationship (.str 4) (.str 5)), .edit (.newRelationship (.str 3) (.str 5)),
        .edit (.newRelationship (.str 3) (.str 4)), .change (.str 5) 1 ]
      (emptyFew deepBank fun x => if x = .str 5 then 0 else 1) = .err .keyError a :=
  ⟨⟨belowFilter_looks _ _, belowFilter_bubbles _ _ (by decide)⟩, ⟨_, rfl⟩⟩

/-- C65 is false for flat views: 8 is below 9; when 8 is finished, 9 stays in the list. -/
theorem C65_refuted_flat : ¬ ShowsExactly (FApp.run someDiff
    [ .apply (.plain 2) none false true, .edit (.addNode (.new (.str 9) .none) .none),
      .edit (.addNode (.new (.str 8) .none) (.str 9)), .change (.str 8) 1 ]
    (emptyFew deepBank fun x => if x = .str 8 then 0 else 1)).state :=
  not_showsExactly_of_shown (x := .str 9) (by decide) (by decide) (by decide) (by decide)

/-- Everything below the node is finished. -/
def allDone (t : Tree) (d : Id → Nat) (x : Id) (_ : Option Params) : Bool :=
  (t.getChildren x).all fun c => !belowFilter (· == 0) t d c none

theorem allDone_looks (dic : Params) : LooksBelow (⟨allDone, dic⟩ : Filter (Id → Nat)) := by
  intro t t' d d' x h hn h' hn' hx hx' hs
  have hb : ∀ p, allDone t' d' x p = allDone t d x p := by
    intro p
    unfold allDone
    rw [Bool.eq_iff_iff, List.all_eq_true, List.all_eq_true]
    refine forall_congr' fun c => ?_
    have hc := (hs x (Or.inl rfl)).2 c
    unfold IsChild at hc
    rw [← hc]
    refine forall_congr' fun hcx => ?_
    rw [belowFilter_congr _ h hn h' hn' fun y hy => hs y (Or.inr ?_)]
    rcases hy with rfl | hy
    · exact Relation.TransGen.single hcx
    · exact Relation.TransGen.head hcx hy
  unfold Filter.isDisplayed
  rw [if_pos hx, if_pos hx']
  dsimp only
  rw [hb]

/-- C65 is false for filters that do not keep the parents of what they accept: 9 > 8 > 7; when 7 becomes unfinished, 8 and 9
disappear, and when it is finished again, they do not come back. -/
theorem C65_refuted_bubble : LooksBelow (⟨allDone, {}⟩ : Filter (Id → Nat)) ∧ ¬ ShowsExactly (FApp.run someDiff
    [ .apply (.plain 1) none false true, .edit (.addNode (.new (.str 9) .none) .none),
      .edit (.addNode (.new (.str 8) .none) (.str 9)), .edit (.addNode (.new (.str 7) .none) (.str 8)),
      .change (.str 7) 0, .change (.str 7) 1 ]
    (emptyFew [.add (.plain 1) allDone none] fun _ => 1)).state := by
  refine ⟨allDone_looks _, fun h => ?_⟩
  have h1 := (h.shown (.str 9) (by decide)).2 ⟨by decide, fun n hn => ?_⟩
  · revert h1; decide
  · rw [show n = .plain 1 from List.mem_singleton.1 hn]
    exact ⟨_, rfl, by decide⟩

end Larch
