import Verif.Spec.Tree

/-!
# What is claimed about trees that only grow
-/

namespace Larch
namespace Spec

/-- The calls that add nodes and relations. -/
inductive Grow where
  | add (nd : Node) (parent : Id)   -- Tree.add_node
  | parent (x p : Id)               -- Tree.add_parent / TreeNode.add_parent
  | child (x c : Id)                -- TreeNode.add_child
  | relation (p c : Id)             -- MainTree.new_relationship

def Grow.op : Grow → Op
  | .add nd q => .addNode nd q
  | .parent x p => .addParent x p
  | .child x c => .addChild x c
  | .relation p c => .newRelationship p c

/-- The relations that a call asks for. A pair is (parent, child). -/
def Grow.says : Grow → List (Id × Id)
  | .add nd q => nd.pending ++ (if q = .none then [] else [(q, nd.id)])
  | .parent x p => [(p, x)]
  | .child x c => [(x, c)]
  | .relation p c => [(p, c)]

/-- The nodes that a call adds. -/
def Grow.brings : Grow → List Id
  | .add nd _ => [nd.id]
  | _ => []

/-- The nodes in `known` are there already: new nodes are made and named properly, and methods are called on nodes that are
there. The other end of a relation may be anything. -/
def GrowOK (known : List Id) : List Grow → Prop
  | [] => True
  | .add nd _ :: gs => (Made nd ∧ nd.parentsEnabled = true ∧ nd.childrenEnabled = true) ∧ (nd.id.falsy = false ∧ nd.id ≠ rootId) ∧
      nd.id ∉ known ∧ GrowOK (nd.id :: known) gs
  | .parent x _ :: gs => x ∈ known ∧ GrowOK known gs
  | .child x _ :: gs => x ∈ known ∧ GrowOK known gs
  | .relation p c :: gs => (p.falsy = false ∧ c.falsy = false) ∧ GrowOK known gs

end Spec
end Larch
