import Verif.Model.Tree
import Mathlib.Logic.Relation

/-!
# What is claimed about the main tree

Everything here is said in terms of the public read access: `has_node`, `get_parents`,
`get_children` of a node and of the root.
-/

namespace Larch
namespace Spec

/-- `p` is listed among the parents of `c`. -/
def IsParent (t : Tree) (p c : Id) : Prop := p ∈ t.getParents c

/-- `c` is listed among the children of `p`. -/
def IsChild (t : Tree) (p c : Id) : Prop := c ∈ t.getChildren p

instance (t : Tree) (p c : Id) : Decidable (IsParent t p c) := inferInstanceAs (Decidable (_ ∈ _))
instance (t : Tree) (p c : Id) : Decidable (IsChild t p c) := inferInstanceAs (Decidable (_ ∈ _))

/-- C01: parents and children lists agree. -/
structure Agree (t : Tree) : Prop where
  mirror : ∀ p c, IsChild t p c ↔ IsParent t p c
  exists_both : ∀ p c, IsParent t p c → t.has p = true ∧ t.has c = true
  parents_once : ∀ c, (t.getParents c).Nodup
  children_once : ∀ p, (t.getChildren p).Nodup

/-- `a` is a proper ancestor of `x` (following `get_parents`). -/
def Ancestor (t : Tree) (a x : Id) : Prop := Relation.TransGen (fun y p => IsParent t p y) x a

/-- `d` is a proper descendant of `x` (following `get_children`). -/
def Descendant (t : Tree) (d x : Id) : Prop := Relation.TransGen (fun y c => IsChild t y c) x d

/-- C02: nobody is its own ancestor. -/
def NoCycle (t : Tree) : Prop := ∀ x, ¬ Ancestor t x x

/-- C05: the top level consists of the parentless nodes, once each. -/
structure TopLevel (t : Tree) : Prop where
  exact : ∀ x, x ∈ t.rootChildren ↔ t.has x = true ∧ ∀ p, ¬ IsParent t p x
  once : t.rootChildren.Nodup

/-- Reachable from the virtual root through children lists. -/
inductive FromRoot (t : Tree) : Id → Prop
  | top {x : Id} : x ∈ t.rootChildren → FromRoot t x
  | child {p c : Id} : FromRoot t p → IsChild t p c → FromRoot t c

/-- A node object made by the constructor and touched only through its public methods before it is
handed to `add_node` (`treenode.py:23-161`). -/
inductive Made : Node → Prop
  | new (x parent : Id) : Made (Node.new x parent)
  | addParent {nd : Node} (p : Id) : Made nd → Made (nd.detachedAddParent p)
  | setParent {nd : Node} (p : Id) : Made nd → Made (nd.detachedSetParent p)
  | addChild {nd : Node} (c : Id) : Made nd → Made (nd.detachedAddChild c)
  | setParentsEnabled {nd : Node} (b : Bool) : Made nd → Made { nd with parentsEnabled := b }
  | setChildrenEnabled {nd : Node} (b : Bool) : Made nd → Made { nd with childrenEnabled := b }

/-- Every node added in the history is newly made. -/
def NewNodes (ops : List Op) : Prop := ∀ nd p, Op.addNode nd p ∈ ops → Made nd

/-- `p` accepts children and `c` accepts parents, if they exist. -/
def Accept (t : Tree) (p c : Id) : Prop :=
  (∀ nd, t.node? p = some nd → nd.childrenEnabled = true) ∧
  (∀ nd, t.node? c = some nd → nd.parentsEnabled = true)

/-- The new node, its declared relations and the relations waiting for it respect the flags. -/
def AcceptNew (t : Tree) (nd : Node) (parent : Id) : Prop :=
  (∀ p c, ((p, c) ∈ t.pending ∨ (p, c) ∈ nd.pending) → p = nd.id ∨ c = nd.id →
    Accept (insertNode t nd) p c) ∧ (parent ≠ .none → Accept (insertNode t nd) parent nd.id)

/-- The edits of a careful user:
* nodes are added as new objects, under non-empty names other than `'root'`, without breaking the
  `parents_enabled`/`children_enabled` flags, and without a circular parent argument;
* a node is removed only when it has at most one parent, and removed recursively only when no
  descendant has a parent outside;
* `new_relationship` respects the flags (the methods of the nodes do so by themselves).
All other edits are free. -/
def Careful (s : St) : Op → Prop
  | .addNode nd parent => Made nd ∧ (s.t.has nd.id = true ∨
      (nd.id.falsy = false ∧ nd.id ≠ rootId ∧ AcceptNew s.t nd parent ∧
        (addNode s nd parent).isOk = true))
  | .delNode x false => (s.t.getParents x).length ≤ 1
  | .delNode x true => (s.t.getParents x).length ≤ 1 ∧
      ∀ y, Descendant s.t y x → ∀ p, IsParent s.t p y → p = x ∨ Descendant s.t p x
  | .newRelationship p c => Accept s.t p c
  | _ => True

/-- A history of edits in which every edit meets the condition `ok` in the state where it is made. -/
def Along (ok : St → Op → Prop) : St → List Op → Prop
  | _, [] => True
  | s, op :: ops => ok s op ∧ Along ok (step s op).state ops

/-- C11: from `t` to `t'` exactly the relation `p`–`c` is added, and `c` leaves the top level. -/
structure AddsExactly (t t' : Tree) (p c : Id) : Prop where
  nodes : ∀ y, t'.has y = t.has y
  parents : ∀ q y, IsParent t' q y ↔ IsParent t q y ∨ (q = p ∧ y = c)
  children : ∀ q y, IsChild t' q y ↔ IsChild t q y ∨ (q = p ∧ y = c)
  other_parents : ∀ y, y ≠ c → t'.getParents y = t.getParents y
  other_children : ∀ y, y ≠ p → t'.getChildren y = t.getChildren y
  top : ∀ x, x ∈ t'.rootChildren ↔ x ∈ t.rootChildren ∧ x ≠ c
  pending : t'.pending = t.pending

/-- C11: from `t` to `t'` exactly the relation `p`–`c` is removed, and `c` joins the top level exactly if
`p` was its only parent. The pending relations change at most by the pair of the virtual root and `c`. -/
structure RemovesExactly (t t' : Tree) (p c : Id) : Prop where
  nodes : ∀ y, t'.has y = t.has y
  parents : ∀ q y, IsParent t' q y ↔ IsParent t q y ∧ ¬ (q = p ∧ y = c)
  children : ∀ q y, IsChild t' q y ↔ IsChild t q y ∧ ¬ (q = p ∧ y = c)
  other_parents : ∀ y, y ≠ c → t'.getParents y = t.getParents y
  other_children : ∀ y, y ≠ p → t'.getChildren y = t.getChildren y
  top : ∀ x, x ∈ t'.rootChildren ↔ x ∈ t.rootChildren ∨ (x = c ∧ t.getParents c = [p])
  pending : ∀ r, r ≠ (rootId, c) → (r ∈ t'.pending ↔ r ∈ t.pending)

/-- C06: the relations that a sequence of additions declares: those attached to the node objects and the parent
arguments. A pair is (parent, child). -/
def declared : List (Node × Id) → List (Id × Id)
  | [] => []
  | (nd, parent) :: l => nd.pending ++ (if parent = .none then [] else [(parent, nd.id)]) ++ declared l

/-- No call of the history raises. -/
def NoRaise (s : St) (ops : List Op) : Prop := Along (fun s op => (step s op).isOk = true) s ops

instance instDecidableNoRaise : (ops : List Op) → (s : St) → Decidable (NoRaise s ops)
  | [], _ => isTrue trivial
  | op :: ops, s =>
    have := instDecidableNoRaise ops (step s op).state
    inferInstanceAs (Decidable ((step s op).isOk = true ∧ NoRaise (step s op).state ops))

end Spec
end Larch

namespace Larch
namespace Spec

/-- C08: no trace of `x` in the tree. -/
structure Gone (t : Tree) (x : Id) : Prop where
  node : t.has x = false
  parents : ∀ y, x ∉ t.rawParents y
  children : ∀ y, x ∉ t.rawChildren y
  top : x ∉ t.root.children
  pending : ∀ r ∈ t.pending, r.1 ≠ x ∧ r.2 ≠ x

/-- C08: the second, the fourth, ... element of a list. -/
def everySecond : List Id → List Id
  | _ :: b :: l => b :: everySecond l
  | _ => []

/-- C09: `x` is taken out, its children stay. -/
structure TakenOut (t t' : Tree) (x : Id) : Prop where
  nodes : ∀ y, t'.has y = true ↔ t.has y = true ∧ y ≠ x
  parents : ∀ y, y ≠ x → t'.getParents y = (t.getParents y).erase x
  children : ∀ y c, y ≠ x → c ≠ x → (IsChild t' y c ↔ IsChild t y c)
  top : ∀ z, z ∈ t'.rootChildren ↔ (z ∈ t.rootChildren ∧ z ≠ x) ∨ (IsChild t x z ∧ t.getParents z = [x])
  pending : ∀ r, r ∈ t'.pending ↔ r ∈ t.pending ∧ r.1 ≠ x ∧ r.2 ≠ x

/-- C10: `x` and its descendants are taken out, everything else stays. -/
structure TakenOutAll (t t' : Tree) (x : Id) : Prop where
  nodes : ∀ y, t'.has y = true ↔ t.has y = true ∧ y ≠ x ∧ ¬ Descendant t y x
  parents : ∀ y, t'.has y = true → t'.getParents y = t.getParents y
  children : ∀ y c, t'.has y = true → t'.has c = true → (IsChild t' y c ↔ IsChild t y c)
  top : ∀ z, z ∈ t'.rootChildren ↔ z ∈ t.rootChildren ∧ z ≠ x

/-- C44: the relations that are waiting or asked for when `nd` arrives: those that wait in the tree, those attached to
the node and the parent argument. -/
def Waits (t : Tree) (nd : Node) (parent p c : Id) : Prop :=
  (p, c) ∈ t.pending ∨ (p, c) ∈ nd.pending ∨ (parent ≠ .none ∧ p = parent ∧ c = nd.id)

instance (t : Tree) (nd : Node) (parent p c : Id) : Decidable (Waits t nd parent p c) :=
  inferInstanceAs (Decidable (_ ∨ _ ∨ _))

/-- C44: from `t` to `t'` the node arrives, together with exactly the relations that now have both ends; the other ones
wait. -/
structure AddsNode (t t' : Tree) (nd : Node) (parent : Id) : Prop where
  nodes : ∀ y, t'.has y = true ↔ t.has y = true ∨ y = nd.id
  parents : ∀ p c, IsParent t' p c ↔ IsParent t p c ∨ (Waits t nd parent p c ∧ t'.has p = true ∧ t'.has c = true)
  children : ∀ p c, IsChild t' p c ↔ IsParent t' p c
  pending : ∀ p c, (p, c) ∈ t'.pending ↔ Waits t nd parent p c ∧ ¬ (t'.has p = true ∧ t'.has c = true)
  top : TopLevel t'

end Spec
end Larch
