import Verif.Spec.HierarchyEdits

/-!
# What is claimed about undoing the edits of a hierarchy
-/

namespace Larch
namespace Spec

/-- The trees have the same nodes with the same parents and, up to the order, the same children and the same top level. -/
structure SameHierarchy (t t' : Tree) : Prop where
  nodes : ∀ y, t'.has y = t.has y
  parents : ∀ y, t'.getParents y = t.getParents y
  children : ∀ y c, c ∈ t'.getChildren y ↔ c ∈ t.getChildren y
  top : ∀ c, c ∈ t'.rootChildren ↔ c ∈ t.rootChildren

end Spec
end Larch
