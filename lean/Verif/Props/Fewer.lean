import Verif.Spec.Fewer
import Verif.Props.FilteredTree

/-!
# C64: views with filters that look at the children of a node
-/

namespace Larch

open Graph Spec

variable {V : Type} {diff : List Id → List Id → List Id}

theorem FewerFair.fair {a : FApp V} {c : FAct V} (hf : FewerFair a c) : ViewFair a c := by
  cases c with
  | edit op => exact ⟨hf.1, .inr (.inl hf.2)⟩
  | change x v => exact .inr (.inl hf)
  | _ => exact hf

theorem FewerFairRun.fair {cs : List (FAct V)} {a : FApp V} (hf : FewerFairRun diff cs a) : ViewFairRun diff cs a := by
  induction cs generalizing a with
  | nil => trivial
  | cons c cs ih => exact ⟨FewerFair.fair hf.1, ih hf.2⟩

/-- C64: after any careful history of the tree a view is created, with any filters in the bank. During every history of edits,
data changes and filter changes that meets `FewerFair`, nothing raises, and afterwards the view displays exactly the nodes that
the applied filters accept, each below its displayed parents, and the observers have been told exactly the rows of the view.
Missing for the literal claim: the restrictions of `FewerFair`, see the refutations below. -/
theorem C64_children_partial {ops : List Op} (hc : Along Careful St.init ops) (bcs : List (Bank.Call (Id → V))) {root : Id}
    (hr : (runOps St.init ops).t.has root = false) (hdiff : SetDiff diff) (d : Id → V) :
    ∃ ft, FT.new diff (Bank.run {} bcs) (runOps St.init ops).t d root true = .ok ft ∧
      ∀ cs, FewerFairRun diff cs ⟨runOps St.init ops, d, Bank.run {} bcs, ft⟩ →
        ∃ a, FApp.run diff cs ⟨runOps St.init ops, d, Bank.run {} bcs, ft⟩ = .ok a ∧
          ShowsExactly a ∧ RightShape a ∧ ObserverAgrees a := by
  obtain ⟨ft, e, hr⟩ := (ViewStart.mk hc hr).run (bcs := bcs) hdiff d
  refine ⟨ft, e, fun cs hf => ?_⟩
  obtain ⟨a, ea, ha⟩ := hr cs (FewerFairRun.fair hf)
  exact ⟨a, ea, ha.rebuilt.showsExactly, ha.rebuilt.rightShape, ha.observerAgrees⟩

/-! ### Filters of this kind -/

/-- `is_leaf` of the tests (`tests/test_liblarch.py:246-247`): the node has no children. -/
def isLeaf {D : Type} (t : Tree) (_ : D) (x : Id) (_ : Option Params) : Bool := (t.getChildren x).isEmpty

/-- At most as many children as the number of the node says. -/
def fewKids (t : Tree) (d : Id → Nat) (x : Id) (_ : Option Params) : Bool := decide ((t.getChildren x).length ≤ d x)

theorem fewerIsMore_of {f : Filter (Id → V)} (hn : f.dic.negate ≠ some true)
    (h : ∀ (t t' : Tree) (d d' : Id → V) (x : Id) p, d x = d' x → (t.getChildren x).Nodup → (t'.getChildren x).Nodup →
      (∀ c, c ∈ t.getChildren x → c ∈ t'.getChildren x) → f.func t' d' x p = true → f.func t d x p = true) : FewerIsMore f := by
  intro t t' d d' x hx hx' hd n1 n2 hc hf
  unfold Filter.isDisplayed at hf ⊢
  rw [if_pos hx', if_neg hn] at hf
  rw [if_pos hx, if_neg hn]
  exact h t t' d d' x _ hd n1 n2 hc hf

theorem isLeaf_fewer (dic : Params) (hn : dic.negate ≠ some true) : FewerIsMore (⟨isLeaf, dic⟩ : Filter (Id → V)) :=
  fewerIsMore_of hn fun t t' d d' x _ _ _ _ hc hf => by
    unfold isLeaf at hf ⊢
    rw [List.isEmpty_iff] at hf ⊢
    exact List.eq_nil_iff_forall_not_mem.2 fun c hcx => by have := hc c hcx; rw [hf] at this; cases this

theorem fewKids_fewer (dic : Params) (hn : dic.negate ≠ some true) : FewerIsMore (⟨fewKids, dic⟩ : Filter (Id → Nat)) :=
  fewerIsMore_of hn fun t t' d d' x _ hd n1 _ hc hf => by
    unfold fewKids at hf ⊢
    rw [decide_eq_true_eq] at hf ⊢
    rw [hd]
    exact le_trans (n1.subperm fun c h => hc c h).length_le hf

/-! ### A concrete case -/

/-- 1: the leaves; 2: the leaves as a list; 3: the nodes with few children; 4: the nodes with an even number. -/
def leafBank : List (Bank.Call (Id → Nat)) :=
  [ .add (.plain 1) isLeaf none, .add (.plain 2) isLeaf (some { flat := some true }), .add (.plain 3) fewKids none,
    .add (.plain 4) isEven none ]

def leafApp : FApp Nat := ⟨runOps St.init viewOps, fun _ => 2, Bank.run {} leafBank,
  (FT.new someDiff (Bank.run {} leafBank) (runOps St.init viewOps).t (fun _ => 2) (.str 100) true).state⟩

/-- 2 is below 1. A late parent, as in `test_adding_to_late_parent_with_leaf_filter`: 5 waits for 6, and 6 comes when the leaves
are shown. Then 1 becomes a leaf and stops being one, a subtree is removed, few children are asked for, and 3 gets a second
parent. -/
def leafHistory : List (FAct Nat) :=
  [ .edit (.addNode (.new (.str 5) .none) (.str 6)), .apply (.plain 1) none false true,
    .edit (.addNode (.new (.str 6) .none) .none), .edit (.breakRelationship (.str 1) (.str 2)),
    .edit (.addNode (.new (.str 3) .none) (.str 1)), .edit (.addNode (.new (.str 4) .none) (.str 3)),
    .edit (.delNode (.str 6) true), .apply (.plain 3) none true true, .change (.str 3) 0,
    .edit (.newRelationship (.str 2) (.str 3)), .edit (.delNode (.str 2) false) ]

theorem leaf_applied (a : FApp Nat) (h : a.ft.applied = [.plain 1] ∨ a.ft.applied = [.plain 3] ∨ a.ft.applied = [])
    (hb : a.bank = Bank.run {} leafBank) : FewerApplied a := by
  intro n hn f hf
  rw [hb] at hf
  rcases h with h | h | h <;> rw [h] at hn
  · rw [List.mem_singleton.1 hn] at hf
    cases hf; exact isLeaf_fewer _ (by decide)
  · rw [List.mem_singleton.1 hn] at hf
    cases hf; exact fewKids_fewer _ (by decide)
  · cases hn

theorem few_edit {a : FApp Nat} {op : Op} (h : Careful a.s op) (hroot : ∀ nd p, op = .addNode nd p → nd.id ≠ a.ft.root)
    (hdel : ∀ x, op = .delNode x true → ∀ y, Descendant a.s.t y x → (a.s.t.getParents y).length ≤ 1)
    (hb : a.bank = Bank.run {} leafBank) (ha : a.ft.applied = [.plain 1] ∨ a.ft.applied = [.plain 3] ∨ a.ft.applied = [])
    (hadd : ∀ nd p, op = .addNode nd p →
      (addNode a.s nd p).state.t.getParents nd.id = [] ∨
      (∀ x ∈ (addNode a.s nd p).state.t.nodes.keys, nd.id ∉ (addNode a.s nd p).state.t.getParents x) ∧
      ((addNode a.s nd p).state.t.getParents nd.id).length ≤ 1) :
    FewerFair a (.edit op) := by
  refine ⟨⟨h, hroot, fun x e y hy => le_trans (hdel x e y hy) (by decide)⟩, leaf_applied a ha hb, fun nd p e _ => ?_, hdel⟩
  rcases hadd nd p e with h1 | ⟨h1, h2⟩
  · left; intro q hq; unfold IsParent at hq; rw [h1] at hq; cases hq
  · right
    refine ⟨fun _ c hc => ?_, h2⟩
    refine h1 c ((Dict.mem_keys _ _).2 ?_) hc
    exact has_of_getParents hc

theorem leafHistory_fair : FewerFairRun someDiff leafHistory leafApp := by
  refine ⟨few_edit (careful_add (Made.new _ _) (by decide)) ?_ ?_ rfl (by decide) ?_, ⟨rfl, fun h => by cases h⟩,
    few_edit (careful_add (Made.new _ _) (by decide)) ?_ ?_ rfl (by decide) ?_, few_edit trivial ?_ ?_ rfl (by decide) ?_,
    few_edit (careful_add (Made.new _ _) (by decide)) ?_ ?_ rfl (by decide) ?_,
    few_edit (careful_add (Made.new _ _) (by decide)) ?_ ?_ rfl (by decide) ?_,
    few_edit ⟨by decide, ?_⟩ ?_ ?_ rfl (by decide) ?_, ⟨rfl, fun h => by cases h⟩, leaf_applied _ (by decide) rfl,
    few_edit (Tree.allEnabled_accept (by decide) _ _) ?_ ?_ rfl (by decide) ?_,
    few_edit (show _ ≤ 1 by decide) ?_ ?_ rfl (by decide) ?_, trivial⟩
  all_goals first
    | (intro nd p h; cases h; decide)
    | (intro nd p h; cases h; done)
    | (intro x h; cases h; done)
    | skip
  · intro y hy
    have := descendants_in [.str 5] (by decide) y hy
    simp only [List.mem_singleton] at this
    subst this
    intro p hp
    left
    exact List.mem_singleton.1 (hp : p ∈ [Id.str 6])
  · intro x h y hy
    cases h
    have := descendants_in [.str 5] (by decide) y hy
    simp only [List.mem_singleton] at this
    subst this
    decide

example : ∃ a, FApp.run someDiff leafHistory leafApp = .ok a ∧ ShowsExactly a ∧ RightShape a ∧ ObserverAgrees a := by
  obtain ⟨ft, e, h⟩ := C64_children_partial viewStart.careful leafBank (root := .str 100) (by decide) someDiff_ok (fun _ => 2)
  have : leafApp = ⟨runOps St.init viewOps, fun _ => 2, Bank.run {} leafBank, ft⟩ := by
    unfold leafApp; rw [e]; rfl
  exact this ▸ h leafHistory (this ▸ leafHistory_fair)

/-- The view on the way: with 6 there, the leaves are still 2 and 5; without the relation also 1; when 1 and then 3 get children,
they disappear; 6 and 5 go; with few children and number 0 only 3 is hidden, and 4 is at the top. -/
example : (FApp.run someDiff (leafHistory.take 3) leafApp).state.ft.view.kids (.str 100) = [.str 5, .str 2] ∧
    (FApp.run someDiff (leafHistory.take 4) leafApp).state.ft.view.kids (.str 100) = [.str 5, .str 2, .str 1] ∧
    (FApp.run someDiff (leafHistory.take 6) leafApp).state.ft.view.kids (.str 100) = [.str 5, .str 2, .str 4] ∧
    (FApp.run someDiff (leafHistory.take 8) leafApp).state.ft.view.kids (.str 1) = [.str 3] ∧
    (FApp.run someDiff leafHistory leafApp).state.ft.view.kids (.str 100) = [.str 1, .str 4] := by decide

/-! ### The limits -/

/-- Nothing applied, no nodes; the numbers of the nodes say how many children are few. -/
def emptyFew (bcs : List (Bank.Call (Id → Nat))) (d : Id → Nat) : FApp Nat :=
  ⟨St.init, d, Bank.run {} bcs, ⟨.str 100, [], false, ⟨View.rootOnly (.str 100), []⟩⟩⟩

def twoParents : List Op :=
  [ .addNode (.new (.str 9) .none) .none, .addNode (.new (.str 8) .none) (.str 9),
    .addNode ((Node.new (.str 7) .none).detachedAddParent (.str 9)) (.str 8),
    .addNode ((Node.new (.str 3) .none).detachedAddParent (.str 9)) (.str 8) ]

/-- C64 is false when a node comes with two parents: 9 may have two children and 8 one; 8 and 7 are below 9, 7 is below 8; when
3 comes below both of them, the view raises `ValueError`. -/
theorem C64_refuted_parents : FewerIsMore (⟨fewKids, {}⟩ : Filter (Id → Nat)) ∧ Along Careful St.init twoParents ∧
    ∃ a, FApp.run someDiff (.apply (.plain 3) none false true :: twoParents.map .edit)
      (emptyFew leafBank fun x => if x = .str 9 then 2 else 1) = .err .valueError a := by
  refine ⟨fewKids_fewer _ (by decide), ⟨careful_add (Made.new _ _) (by decide), careful_add (Made.new _ _) (by decide),
    careful_add ((Made.new _ _).addParent _) (by decide), careful_add ((Made.new _ _).addParent _) (by decide), trivial⟩, ?_⟩
  exact ⟨_, rfl⟩

/-- At least as many children as the number of the node says. -/
def manyKids (t : Tree) (d : Id → Nat) (x : Id) (_ : Option Params) : Bool := decide (d x ≤ (t.getChildren x).length)

/-- C64 is false for filters that accept a node when it has more children: 7 is shown with two children; when the second one
comes, the first one stays at the top instead of going below 7. -/
theorem C64_refuted_more : ¬ RightShape (FApp.run someDiff
    [ .apply (.plain 1) none false true, .edit (.addNode (.new (.str 7) .none) .none),
      .edit (.addNode (.new (.str 9) .none) (.str 7)), .edit (.addNode (.new (.str 5) .none) (.str 7)) ]
    (emptyFew [.add (.plain 1) manyKids none] fun x => if x = .str 7 then 2 else 0)).state := by
  intro h
  have h1 := (h.parents (.str 9) ?_ (.str 7)).2 (Or.inl ?_)
  · revert h1; decide
  · refine ⟨by decide, fun n hn => ?_⟩
    rw [show n = .plain 1 from List.mem_singleton.1 hn]
    exact ⟨_, rfl, by decide⟩
  · refine ⟨fun hf => ?_, by decide, by decide, fun n hn => ?_⟩
    · revert hf
      rw [← flatView_iff]
      decide
    · rw [show n = .plain 1 from List.mem_singleton.1 hn]
      exact ⟨_, rfl, by decide⟩

end Larch
