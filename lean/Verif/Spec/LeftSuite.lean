import Verif.Spec.Leftover
import Verif.Spec.Suite

/-!
# Removing nodes with several parents, while there are many views and counters

The conditions of `Verif/Spec/Leftover.lean` for an application with any number of views and counters (`SuiteAct`).
-/

namespace Larch

namespace Spec

variable {V : Type}

/-- All filters in use, by views or counters, look only at a node's own data. -/
def AllOwn (a : Suite V) : Prop :=
  (∀ k ft, viewAt a k = some ft → OwnApplied (alone a ft)) ∧ ∀ k c, countAt a k = some c → OwnUsed (aloneCount a c)

/-- No view but, perhaps, number `k` uses the filter, and no counter. -/
def UnusedBut (k : Option Nat) (a : Suite V) (n : FName) : Prop :=
  (∀ j ft, some j ≠ k → viewAt a j = some ft → n ∉ ft.applied) ∧ NoCounterUses a n

/-- What the application keeps to. `P` is the condition on the edits of the tree (`Considerate` or `Decent`).
* No node is called `'anonymous_root'` or `'root_…'`, and a node is removed recursively only if all its descendants have at
  most three parents (the node itself can have any number).
* While the tree or the data change, the filters in use look only at a node's own data.
* Filters in use are not removed, and only a view that is the only user of a filter gives it parameters; unknown filters in use
  do not become known.
* Everything is done with refresh; the main view is not given filters; `get_current_state` and `unregister_cllbck` are not
  called; `modify` of counters is called for existing nodes. -/
def SuiteLeftFair (P : St → Op → Prop) (a : Suite V) : SuiteAct V → Prop
  | .edit op => P a.s op ∧ (∀ nd p, op = .addNode nd p → ∀ name, nd.id ≠ rootOf name) ∧
      (∀ x, op = .delNode x true → ∀ y, Descendant a.s.t y x → (a.s.t.getParents y).length ≤ 3) ∧ AllOwn a
  | .change _ _ => AllOwn a
  | .bank (.add n _ _) => ∀ k ft, viewAt a k = some ft → n ∈ ft.applied → (a.bank.getFilter n).isSome = true
  | .bank (.remove n) => UnusedBut none a n
  | .getView _ refresh => refresh = true
  | .getCount _ refresh => refresh = true
  | .onView k (.apply n p _ refresh) => k ≠ 0 ∧ refresh = true ∧
      (FT.givesParams p = true → (a.bank.getFilter n).isSome = true ∧ UnusedBut (some k) a n)
  | .onView k (.unapply _ refresh) => k ≠ 0 ∧ refresh = true
  | .onView k (.reset refresh) => k ≠ 0 ∧ refresh = true
  | .onView _ .currentState => False
  | .onView _ _ => True
  | .onCount _ (.apply _ refresh) => refresh = true
  | .onCount _ (.touch x) => a.s.t.has x = true
  | .onCount _ (.unregister _) => False
  | .onCount _ _ => True

/-- Every action of the history meets the condition in the state where it is made. -/
def SuiteLeftFairRun (P : St → Op → Prop) (diff : List Id → List Id → List Id) : List (SuiteAct V) → Suite V → Prop
  | [], _ => True
  | c :: cs, a => SuiteLeftFair P a c ∧ SuiteLeftFairRun P diff cs (a.act diff c).state

/-- The edits of the tree among the actions. -/
def suiteEdits : List (SuiteAct V) → List Op
  | [] => []
  | .edit op :: cs => op :: suiteEdits cs
  | _ :: cs => suiteEdits cs

/-- The tree, the views and the counters are right. Nothing is said about what the main view answers. -/
structure SuiteSound (a : Suite V) : Prop where
  tree : Sound a.s.t
  views : ∀ (k : Nat) v, k ≠ 0 → a.objs[k]? = some (Obj.view v) → v.static = false ∧ ∃ ft, v.ft = some ft ∧ ViewOK ft ∧
    ShowsExactly (alone a ft) ∧ RightShape (alone a ft) ∧ ObserverAgrees (alone a ft)
  counts : ∀ (k : Nat) c, a.objs[k]? = some (Obj.count c) → Exact (aloneCount a c)
  named : ∀ n k, KV.get? a.names.views n = some k → ∃ v, a.objs[k]? = some (Obj.view v)
  namedCounts : ∀ n k, KV.get? a.names.viewscount n = some k → ∃ c, a.objs[k]? = some (Obj.count c)
  numbered : a.names.next = a.objs.length

end Spec

end Larch
