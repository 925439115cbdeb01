import Verif.Spec.ForestSuite

/-!
# What is claimed about an application that uses the tree as a plain hierarchy
-/

namespace Larch
namespace Spec

variable {V : Type}

/-- The edits of a user who thinks of the tree as a hierarchy, in which a node has one place:
* new nodes are added at the top level or below a node of the tree, which is named when the object is made or when it is added (or both
  times), under names other than `''`, `None` and those of the virtual roots;
* nodes without a parent are related to one in any way, also to themselves or to their own descendants (which is refused);
* nodes are moved to another node of the tree or to the top level, again also below their own descendants, taken away from their parent,
  removed with or without everything below them, and announced as modified. -/
def HierarchyEdit (t : Tree) : Op → Prop
  | .addNode nd p => ∃ x q, nd = Node.new x q ∧ x.falsy = false ∧ x ≠ rootId ∧ (∀ name, x ≠ rootOf name) ∧
      (q = .none ∨ t.has q = true) ∧ (p = .none ∨ t.has p = true) ∧ (q = .none ∨ p = .none ∨ p = q)
  | .delNode _ _ => True
  | .refreshNode _ => True
  | .moveNode _ p => p = .none ∨ t.has p = true
  | .setParent _ p => p = .none ∨ t.has p = true
  | .addParent x p => t.getParents x = [] ∧ t.has p = true
  | .addChild _ c => t.getParents c = [] ∧ t.has c = true
  | .newRelationship p c => t.getParents c = [] ∧ t.has p = true ∧ t.has c = true
  | .removeParent _ _ => True
  | .breakRelationship _ _ => True
  | .setParentsEnabled _ _ => False
  | .setChildrenEnabled _ _ => False

/-- What the application keeps to: as in `SuiteFair`, but nothing is asked of the views and their filters, and the edits are those of a
hierarchy. The counters can follow with the filters they use. -/
def HierarchyFair (a : Suite V) : SuiteAct V → Prop
  | .edit op => HierarchyEdit a.s.t op ∧ ∀ k c, countAt a k = some c → CountFollows (aloneCount a c) op
  | .change _ _ => CountersFollow a
  | .onView k .currentState => k = 0 ∧ CountersFollow a
  | c => SuiteFair (fun _ => false) a c

/-- Every action of the history meets the condition in the state where it is made. -/
def HierarchyFairRun (diff : List Id → List Id → List Id) : List (SuiteAct V) → Suite V → Prop
  | [], _ => True
  | c :: cs, a => HierarchyFair a c ∧ HierarchyFairRun diff cs (a.act diff c).state

end Spec
end Larch
