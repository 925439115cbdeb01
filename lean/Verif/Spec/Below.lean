import Verif.Spec.Fewer

/-!
# Filters that look at everything below a node (C65)

"The node or something below it is unfinished": such a filter keeps the parents of what it shows.
-/

namespace Larch
namespace Spec

variable {V : Type}

/-- What the application keeps to while filters of this kind are applied: as in `FewerFair`, but when the tree or the data change,
* the applied filters are of this kind and none of them is flat;
* no node has two parents, neither before the change nor after it. -/
def BelowFair (a : FApp V) : FAct V → Prop
  | .edit op => EditFair a op ∧ BelowApplied a ∧ ¬ FlatView a ∧ SingleParent a.s.t ∧ SingleParent (step a.s op).state.t
  | .change _ _ => BelowApplied a ∧ ¬ FlatView a ∧ SingleParent a.s.t
  | c => FewerFair a c

/-- Every action of the history meets one of the two conditions in the state where it is made. -/
def BelowFairRun (diff : List Id → List Id → List Id) : List (FAct V) → FApp V → Prop
  | [], _ => True
  | c :: cs, a => (BelowFair a c ∨ FewerFair a c) ∧ BelowFairRun diff cs (a.act diff c).state

end Spec
end Larch
