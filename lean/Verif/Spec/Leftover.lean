import Verif.Spec.FilteredTree
import Verif.Spec.Tree

/-!
# Removing nodes with several parents

`_remove_node` (`/repo/liblarch/tree.py:238-240`) walks over the list of parents while shortening it, and so steps over every
second parent. A parent that is stepped over keeps the removed id in its `children` attribute. `get_children`
(`/repo/liblarch/treenode.py:188-196`) hides such ids, because it asks the tree for every child. The conditions here say what
a user has to keep to so that nobody notices. They are weaker than `Careful`, as nodes with any number of parents can be removed.
-/

namespace Larch

namespace Spec

/-- Some node has `x` in its `children` attribute, whether there is a node `x` or not. -/
def Mentioned (t : Tree) (x : Id) : Prop := ∃ p nd, t.node? p = some nd ∧ x ∈ nd.children

/-- The edits of a user who removes nodes with several parents, too:
* nodes are added as new objects, under non-empty names other than `'root'`, without breaking the
  `parents_enabled`/`children_enabled` flags, and without a circular parent argument;
* a node is removed without its descendants only if all nodes in its `children` attribute exist;
* `new_relationship` respects the flags. -/
def Decent (s : St) : Op → Prop
  | .addNode nd parent => Made nd ∧ (s.t.has nd.id = true ∨
      (nd.id.falsy = false ∧ nd.id ≠ rootId ∧ AcceptNew s.t nd parent ∧ (addNode s nd parent).isOk = true))
  | .delNode x false => ∀ nd, s.t.node? x = some nd → ∀ c ∈ nd.children, s.t.has c = true
  | .newRelationship p c => Accept s.t p c
  | _ => True

/-- Besides, a new node does not get an id that is left over in somebody's `children` attribute. -/
def Considerate (s : St) (op : Op) : Prop :=
  Decent s op ∧ ∀ nd p, op = .addNode nd p → s.t.has nd.id = true ∨ ¬ Mentioned s.t nd.id

/-- The id of the node that the edit adds. -/
def addedId : Op → List Id
  | .addNode nd _ => [nd.id]
  | _ => []

/-- The ids given to `add_node` in the history, in order. -/
def addedIds (ops : List Op) : List Id := ops.flatMap addedId

/-- The tree shows no contradictions: parents and children agree, nobody is its own ancestor, the top level consists of the
parentless nodes, and every node hangs from the root. -/
structure Sound (t : Tree) : Prop where
  agree : Agree t
  noCycle : NoCycle t
  top : TopLevel t
  fromRoot : ∀ x, t.has x = true → FromRoot t x

variable {V : Type}

/-- The conditions for one view, when nodes with several parents are removed: the edits are considerate, no node gets the id of
the view's virtual root, the applied filters look only at a node's own data, and a node is removed recursively only if all its
descendants have at most three parents (the node itself can have any number). Actions other than edits and changes of the data are as in
`ViewFair`. -/
def LeftFair (a : FApp V) : FAct V → Prop
  | .edit op => Considerate a.s op ∧ OwnApplied a ∧ (∀ nd p, op = .addNode nd p → nd.id ≠ a.ft.root) ∧
      ∀ x, op = .delNode x true → ∀ y, Descendant a.s.t y x → (a.s.t.getParents y).length ≤ 3
  | .change _ _ => OwnApplied a
  | c => ViewFair a c

/-- Every action of the history meets the condition in the state where it is made. -/
def LeftFairRun (diff : List Id → List Id → List Id) : List (FAct V) → FApp V → Prop
  | [], _ => True
  | c :: cs, a => LeftFair a c ∧ LeftFairRun diff cs (a.act diff c).state

/-- The edits among the actions. -/
def editsOf : List (FAct V) → List Op
  | [] => []
  | .edit op :: cs => op :: editsOf cs
  | _ :: cs => editsOf cs

/-- `LeftFair` for an application that never uses an id twice: here nothing has to be known about left-over ids. -/
def NewIdFair (a : FApp V) : FAct V → Prop
  | .edit op => Decent a.s op ∧ OwnApplied a ∧ (∀ nd p, op = .addNode nd p → nd.id ≠ a.ft.root) ∧
      ∀ x, op = .delNode x true → ∀ y, Descendant a.s.t y x → (a.s.t.getParents y).length ≤ 3
  | .change _ _ => OwnApplied a
  | c => ViewFair a c

/-- Every action of the history meets this condition in the state where it is made. -/
def NewIdFairRun (diff : List Id → List Id → List Id) : List (FAct V) → FApp V → Prop
  | [], _ => True
  | c :: cs, a => NewIdFair a c ∧ NewIdFairRun diff cs (a.act diff c).state

end Spec

end Larch
