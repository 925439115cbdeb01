import Verif.Spec.FilteredTree

/-!
# Filters that look at the children of a node (C64)

The tests of liblarch use such filters: `is_leaf` accepts the nodes without children, and `tests/test_liblarch.py` applies it
to views that are edited afterwards.
-/

namespace Larch
namespace Spec

variable {V : Type}

/-- What the application keeps to: as in `ViewFair`, and when the tree or the data change, the applied filters look only at a
node's data and children as in `FewerIsMore`, and nodes arrive and leave plainly. -/
def FewerFair (a : FApp V) : FAct V → Prop
  | .edit op => EditFair a op ∧ FewerApplied a ∧ PlainArrival a op ∧ PlainRemoval a op
  | .change _ _ => FewerApplied a
  | c => ViewFair a c

/-- Every action of the history meets the condition in the state where it is made. -/
def FewerFairRun (diff : List Id → List Id → List Id) : List (FAct V) → FApp V → Prop
  | [], _ => True
  | c :: cs, a => FewerFair a c ∧ FewerFairRun diff cs (a.act diff c).state

end Spec
end Larch
