import Verif.Model.Suite
import Verif.Spec.Waiting
import Verif.Spec.ViewTree

/-!
# What is claimed about an application with many views and counters
-/

namespace Larch
namespace Spec

variable {V : Type}

/-- The `FilteredTree` of object `k`, if it is a view that has one. -/
def viewAt (a : Suite V) (k : Nat) : Option FT :=
  match a.objs[k]? with
  | some (.view v) => v.ft
  | _ => none

/-- Object `k`, if it is a counter. -/
def countAt (a : Suite V) (k : Nat) : Option VC :=
  match a.objs[k]? with
  | some (.count c) => some c
  | _ => none

/-- The application as if this view were the only one. -/
def alone (a : Suite V) (ft : FT) : FApp V := ⟨a.s, a.data, a.bank, ft⟩

/-- The application as if this counter were the only one. -/
def aloneCount (a : Suite V) (c : VC) : CApp V := ⟨a.s, a.data, a.bank, c⟩

/-- The application as if the main view were the only one. -/
def aloneMain (a : Suite V) (v : VT) : MApp V := ⟨a.s, a.data, a.bank, v⟩

/-- What others notice when a view is given a filter with parameters: the filter object gets them. -/
def paramsGiven (n : FName) : Option Params → List (FName × Params)
  | some p => if p.truthy then [(n, p)] else []
  | none => []

/-- What view `k` notices of an action. -/
def seenByView (a : Suite V) (k : Nat) : SuiteAct V → List (FAct V)
  | .edit op => [.edit op]
  | .change x v => [.change x v]
  | .bank c => [.bank c]
  | .getView _ _ => []
  | .getCount _ _ => []
  | .onCount _ _ => []
  | .onView j c =>
    match a.objs[j]? with
    | some (.view v) =>
      match c with
      | .apply n p rs rf => if j = k then [.apply n p rs rf] else (paramsGiven n p).map fun q => .setParams q.1 q.2
      | .unapply n rf => if j = k then [.unapply n rf] else []
      | .reset rf => if j = k then [.reset rf] else []
      | .currentState =>
        if v.static then a.s.t.nodes.keys.map fun x => .edit (.refreshNode x)
        else if j = k then [.currentState] else []
      | _ => []
    | _ => []

/-- What counter `k` notices of an action. -/
def seenByCount (a : Suite V) (k : Nat) : SuiteAct V → List (CAct V)
  | .edit op => [.edit op]
  | .change x v => [.change x v]
  | .bank c => [.bank c]
  | .getView _ _ => []
  | .getCount _ _ => []
  | .onView j c =>
    match a.objs[j]? with
    | some (.view v) =>
      match c with
      | .apply n p _ _ => (paramsGiven n p).map fun q => .setParams q.1 q.2
      | .currentState => if v.static then a.s.t.nodes.keys.map fun x => .edit (.refreshNode x) else []
      | _ => []
    | _ => []
  | .onCount j c =>
    if j = k then
      match c with
      | .apply n rf => [.apply n rf]
      | .unapply n => [.unapply n]
      | .touch x => [.touch x]
      | .register f => [.register f]
      | .unregister f => [.unregister f]
    else []

/-- What view `k` notices of a history. -/
def viewStory (diff : List Id → List Id → List Id) (k : Nat) : List (SuiteAct V) → Suite V → List (FAct V)
  | [], _ => []
  | c :: cs, a => seenByView a k c ++ viewStory diff k cs (a.act diff c).state

/-- What counter `k` notices of a history. -/
def countStory (diff : List Id → List Id → List Id) (k : Nat) : List (SuiteAct V) → Suite V → List (CAct V)
  | [], _ => []
  | c :: cs, a => seenByCount a k c ++ countStory diff k cs (a.act diff c).state

/-- Which views are up to date after the action, if `fresh` tells which were before (`freshAfter`). A new view is up to date if
it was made with refresh. -/
def freshNext (fresh : Nat → Bool) (a : Suite V) (c : SuiteAct V) (k : Nat) : Bool :=
  match viewAt a k with
  | some ft => (seenByView a k c).foldl (fun f e => freshAfter f (alone a ft) e) (fresh k)
  | none => match c with
    | .getView _ refresh => refresh
    | _ => true

/-- All views are up to date. -/
def AllFresh (fresh : Nat → Bool) (a : Suite V) : Prop := ∀ k ft, viewAt a k = some ft → fresh k = true

/-- No counter uses the filter. -/
def NoCounterUses (a : Suite V) (n : FName) : Prop := ∀ k c, countAt a k = some c → n ∉ c.applied

/-- The view is up to date and can follow the edit with the filters it uses; or it may be out of date, but the filters look at a node's
own data only and nothing has to leave it (C81). -/
def ReadyFor (fresh : Bool) (a : FApp V) (op : Op) : Prop :=
  (fresh = true ∧ FollowsEdit a op) ∨ (OwnApplied a ∧ PlainRemoval a op ∧ NothingToGo a)

/-- The same for a change of the data: `x` gets `v`. -/
def ReadyForData (fresh : Bool) (a : FApp V) (x : Id) (v : V) : Prop :=
  (fresh = true ∧ FollowsData a) ∨ (OwnApplied a ∧ NothingToGo { a with data := fun y => if y = x then v else a.data y })

/-- All views (besides the main view, which has no filters) and all counters can follow the edit with the filters they use. -/
def AllFollow (fresh : Nat → Bool) (a : Suite V) (op : Op) : Prop :=
  (∀ k ft, k ≠ 0 → viewAt a k = some ft → ReadyFor (fresh k) (alone a ft) op) ∧
    ∀ k c, countAt a k = some c → CountFollows (aloneCount a c) op

/-- All of them can follow the change of the data. -/
def AllFollowChange (fresh : Nat → Bool) (a : Suite V) (x : Id) (v : V) : Prop :=
  (∀ k ft, k ≠ 0 → viewAt a k = some ft → ReadyForData (fresh k) (alone a ft) x v) ∧
    ∀ k c, countAt a k = some c → OwnUsed (aloneCount a c) ∨ ChildrenUsed (aloneCount a c)

/-- All of them can follow any changes of the nodes' data. -/
def AllFollowData (a : Suite V) : Prop :=
  (∀ k ft, k ≠ 0 → viewAt a k = some ft → FollowsData (alone a ft)) ∧
    ∀ k c, countAt a k = some c → OwnUsed (aloneCount a c) ∨ ChildrenUsed (aloneCount a c)

/-- What the application keeps to. The tree and the data are touched only while all views and counters can follow with their
filters; a view that waits for its refresh can, if its filters look at a node's own data only and nothing has to leave it:
* edits are careful (`Careful`), no node is called `'anonymous_root'` or `'root_…'`, and a node is removed recursively only if
  it has at most one parent and its descendants have at most three;
* filters in use may look at the children of a node, or, in views, at everything below it, as long as `FollowsEdit`,
  `CountFollows` and `FollowsData` hold; other filters in the bank may be of any kind;
* a filter used by a counter is neither removed nor given parameters; parameters are given only to known filters;
* counters are made and given filters with refresh, `modify` is called for existing nodes, `unregister_cllbck` is not used;
* the main view is not given filters;
* `get_current_state` is called only of the main view. -/
def SuiteFair (fresh : Nat → Bool) (a : Suite V) : SuiteAct V → Prop
  | .edit op => AllFollow fresh a op ∧ Careful a.s op ∧ (∀ nd p, op = .addNode nd p → ∀ name, nd.id ≠ rootOf name) ∧
      ∀ x, op = .delNode x true → ∀ y, Descendant a.s.t y x → (a.s.t.getParents y).length ≤ 3
  | .change x v => AllFollowChange fresh a x v
  | .bank (.add _ _ _) => True
  | .bank (.remove n) => NoCounterUses a n
  | .getView _ _ => True
  | .getCount _ refresh => refresh = true
  | .onView k (.apply n p _ _) => k ≠ 0 ∧ (FT.givesParams p = true → (a.bank.getFilter n).isSome = true ∧ NoCounterUses a n)
  | .onView k (.unapply _ _) => k ≠ 0
  | .onView k (.reset _) => k ≠ 0
  | .onView k .currentState => k = 0 ∧ AllFresh fresh a ∧ AllFollowData a
  | .onView _ _ => True
  | .onCount _ (.apply _ refresh) => refresh = true
  | .onCount _ (.touch x) => a.s.t.has x = true
  | .onCount _ (.unregister _) => False
  | .onCount _ _ => True

/-- Every view besides the main view is up to date, or nothing has to leave it. -/
def NoneToGo (fresh : Nat → Bool) (a : Suite V) (op : Op) : Prop :=
  ∀ k ft, k ≠ 0 → viewAt a k = some ft → fresh k = true ∨ (PlainRemoval (alone a ft) op ∧ NothingToGo (alone a ft))

/-- The same for a change of the data. -/
def NoneToGoData (fresh : Nat → Bool) (a : Suite V) (x : Id) (v : V) : Prop :=
  ∀ k ft, k ≠ 0 → viewAt a k = some ft →
    fresh k = true ∨ NothingToGo { alone a ft with data := fun y => if y = x then v else a.data y }

/-- The same as `SuiteFair` with filters that look only at a node's own data: less is asked of single edits. -/
def SuiteOwnFair (fresh : Nat → Bool) (a : Suite V) : SuiteAct V → Prop
  | .edit op => NoneToGo fresh a op ∧ Careful a.s op ∧ (∀ nd p, op = .addNode nd p → ∀ name, nd.id ≠ rootOf name) ∧
      ∀ x, op = .delNode x true → ∀ y, Descendant a.s.t y x → (a.s.t.getParents y).length ≤ 3
  | .change x v => NoneToGoData fresh a x v
  | .bank (.add _ f _) => OwnData f
  | .onView k .currentState => k = 0 ∧ AllFresh fresh a
  | c => SuiteFair fresh a c

/-- Every action of the history meets this condition. -/
def SuiteOwnFairRun (diff : List Id → List Id → List Id) : (Nat → Bool) → List (SuiteAct V) → Suite V → Prop
  | _, [], _ => True
  | fresh, c :: cs, a => SuiteOwnFair fresh a c ∧ SuiteOwnFairRun diff (freshNext fresh a c) cs (a.act diff c).state

/-- Every action of the history meets the condition in the state where it is made. -/
def SuiteFairRun (diff : List Id → List Id → List Id) : (Nat → Bool) → List (SuiteAct V) → Suite V → Prop
  | _, [], _ => True
  | fresh, c :: cs, a => SuiteFair fresh a c ∧ SuiteFairRun diff (freshNext fresh a c) cs (a.act diff c).state

/-- Which views are up to date after the history? -/
def freshAtEnd (diff : List Id → List Id → List Id) : (Nat → Bool) → List (SuiteAct V) → Suite V → Nat → Bool
  | fresh, [], _ => fresh
  | fresh, c :: cs, a => freshAtEnd diff (freshNext fresh a c) cs (a.act diff c).state

/-- Everything the application shows is right, if `fresh` tells which views are up to date. -/
structure SuiteRight (diff : List Id → List Id → List Id) (fresh : Nat → Bool) (a : Suite V) : Prop where
  /-- The main view answers as the tree does. -/
  main : ∃ v, a.objs[0]? = some (Obj.view v) ∧ MainAgrees diff (aloneMain a v)
  /-- The other views have a `FilteredTree`; their observers have exactly their rows; those up to date show what they should. -/
  views : ∀ (k : Nat) v, k ≠ 0 → a.objs[k]? = some (Obj.view v) → v.static = false ∧ ∃ ft, v.ft = some ft ∧ ViewOK ft ∧
    ObserverAgrees (alone a ft) ∧ (fresh k = true → ShowsExactly (alone a ft) ∧ RightShape (alone a ft))
  /-- Every counter is exact. -/
  counts : ∀ (k : Nat) c, a.objs[k]? = some (Obj.count c) → Exact (aloneCount a c)
  /-- The names refer to objects of the right kind, and every object has a number. -/
  named : ∀ n k, KV.get? a.names.views n = some k → ∃ v, a.objs[k]? = some (Obj.view v)
  namedCounts : ∀ n k, KV.get? a.names.viewscount n = some k → ∃ c, a.objs[k]? = some (Obj.count c)
  numbered : a.names.next = a.objs.length

end Spec
end Larch
