import Verif.Spec.HierarchyEdits

/-!
# What is claimed about loading a hierarchy
-/

namespace Larch
namespace Spec

/-- From `t` to `t'` the node `x` comes last among the children of `p`, or last at the top level. -/
structure ComesLast (t t' : Tree) (x p : Id) : Prop where
  children : ∀ y, t'.getChildren y = if p ≠ .none ∧ y = p then t.getChildren y ++ [x] else t.getChildren y
  top : t'.rootChildren = if p = .none then t.rootChildren ++ [x] else t.rootChildren

/-- A list of nodes, each with its parent or none: the names are proper and differ, and parents come first. -/
def Listed (l : List (Id × Id)) : Prop :=
  ∀ l1 x p l2, l = l1 ++ (x, p) :: l2 → x.falsy = false ∧ x ≠ rootId ∧ (∀ name, x ≠ rootOf name) ∧ x ∉ l1.map Prod.fst ∧
    (p = .none ∨ p ∈ l1.map Prod.fst)

/-- The program that adds the nodes one after the other. -/
def loadOps (l : List (Id × Id)) : List Op := l.map fun r => .addNode (Node.new r.1 .none) r.2

/-- The nodes whose parent is `p`, in the order of the list. -/
def listedBelow (l : List (Id × Id)) (p : Id) : List Id := (l.filter fun r => decide (r.2 = p)).map Prod.fst

/-- The tree has exactly the nodes of the list, each below its parent, siblings in the order of the list. -/
structure Loaded (t : Tree) (l : List (Id × Id)) : Prop where
  nodes : ∀ y, t.has y = true ↔ y ∈ l.map Prod.fst
  parents : ∀ r ∈ l, t.getParents r.1 = if r.2 = .none then [] else [r.2]
  children : ∀ p, p ≠ .none → t.getChildren p = listedBelow l p
  top : t.rootChildren = listedBelow l .none

end Spec
end Larch
