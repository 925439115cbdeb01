import Verif.Spec.Suite
import Verif.Spec.ForestWait

/-!
# What is claimed about an application with many views of a forest
-/

namespace Larch
namespace Spec

variable {V : Type}

/-- Each counter's filters look at the nodes' own data, or each at the children. -/
def CountersFollow (a : Suite V) : Prop := ∀ k c, countAt a k = some c → OwnUsed (aloneCount a c) ∨ ChildrenUsed (aloneCount a c)

/-- What the application keeps to. As in `SuiteFair`; but nothing is asked of the views and of the filters they use. Instead no node has
two parents:
* edits are careful (`Careful`), keep the forest, and name no node `'anonymous_root'` or `'root_…'`;
* the counters can follow edits and changes of data with the filters they use. -/
def ForestSuiteFair (a : Suite V) : SuiteAct V → Prop
  | .edit op => Careful a.s op ∧ (∀ nd p, op = .addNode nd p → ∀ name, nd.id ≠ rootOf name) ∧ Forest (step a.s op).state.t ∧
      ∀ k c, countAt a k = some c → CountFollows (aloneCount a c) op
  | .change _ _ => CountersFollow a
  | .onView k .currentState => k = 0 ∧ CountersFollow a
  | c => SuiteFair (fun _ => false) a c

/-- Every action of the history meets the condition in the state where it is made. -/
def ForestSuiteFairRun (diff : List Id → List Id → List Id) : List (SuiteAct V) → Suite V → Prop
  | [], _ => True
  | c :: cs, a => ForestSuiteFair a c ∧ ForestSuiteFairRun diff cs (a.act diff c).state

/-- Which views are up to date after the action, if `fresh` tells which were before? Those that are after what they notice of it
(`upToDate`), and new ones made with refresh. -/
noncomputable def forestNext (diff : List Id → List Id → List Id) (fresh : Nat → Bool) (a : Suite V) (c : SuiteAct V) (k : Nat) : Bool :=
  match viewAt a k with
  | some ft => upToDate diff (fresh k) (seenByView a k c) (alone a ft)
  | none => match c with
    | .getView _ refresh => refresh
    | _ => true

/-- Which views are up to date after the history? -/
noncomputable def forestEnd (diff : List Id → List Id → List Id) : (Nat → Bool) → List (SuiteAct V) → Suite V → Nat → Bool
  | fresh, [], _ => fresh
  | fresh, c :: cs, a => forestEnd diff (forestNext diff fresh a c) cs (a.act diff c).state

end Spec
end Larch
