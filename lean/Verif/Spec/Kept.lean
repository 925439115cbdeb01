import Verif.Model.Kept
import Verif.Spec.Tree

/-!
# What is claimed about node objects that have left the tree (C63)
-/

namespace Larch
namespace Spec

/-- The deeds of a careful user:
* edits as in `Careful`; a node is removed only when neither it nor, for a recursive removal, any descendant has two parents;
* a removed object is added again without breaking the flags and without a circular parent argument;
* a relation is asked for through a removed object only while no node of the same name is in the tree, and `add_child` only for a
  child that is not in the tree either.
All other deeds are free. -/
def CarefulDeed (h : Home) : Deed → Prop
  | .edit (.delNode x false) => (h.s.t.getParents x).length ≤ 1
  | .edit (.delNode x true) => (h.s.t.getParents x).length ≤ 1 ∧
      ∀ y, Descendant h.s.t y x → (h.s.t.getParents y).length ≤ 1
  | .edit op => Careful h.s op
  | .again k parent => ∀ nd, h.kept[k]? = some nd → h.s.t.has nd.id = true ∨
      (AcceptNew h.s.t nd parent ∧ (addNode h.s nd parent).isOk = true)
  | .call k (.addParent _) => ∀ nd, h.kept[k]? = some nd → h.s.t.has nd.id = false
  | .call k (.setParent _) => ∀ nd, h.kept[k]? = some nd → h.s.t.has nd.id = false
  | .call k (.addChild c) => ∀ nd, h.kept[k]? = some nd → h.s.t.has nd.id = false ∧ h.s.t.has c = false
  | .call _ _ => True

/-- A sequence of deeds in which every deed meets the condition `ok` in the state where it is done. -/
def AlongHome (ok : Home → Deed → Prop) : Home → List Deed → Prop
  | _, [] => True
  | h, d :: ds => ok h d ∧ AlongHome ok (h.step d).state ds

/-- Every node added by an edit is newly made. -/
def NewHome (ds : List Deed) : Prop := ∀ nd p, Deed.edit (.addNode nd p) ∈ ds → Made nd

/-- No call of the sequence raises. -/
def HomeQuiet (h : Home) (ds : List Deed) : Prop := AlongHome (fun h d => (h.step d).isOk = true) h ds

instance instDecidableHomeQuiet : (ds : List Deed) → (h : Home) → Decidable (HomeQuiet h ds)
  | [], _ => isTrue trivial
  | d :: ds, h =>
    have := instDecidableHomeQuiet ds (h.step d).state
    inferInstanceAs (Decidable ((h.step d).isOk = true ∧ HomeQuiet (h.step d).state ds))

/-- The objects `objs` are what left the tree between `t` and `t'`: one object for each node that is gone, with the flags of that
node, and without any relation. -/
structure LeftBare (t t' : Tree) (objs : List Node) : Prop where
  once : (objs.map Node.id).Nodup
  who : ∀ y, y ∈ objs.map Node.id ↔ t.has y = true ∧ t'.has y = false
  flags : ∀ nd ∈ objs, ∃ old, t.node? nd.id = some old ∧ nd.parentsEnabled = old.parentsEnabled ∧
    nd.childrenEnabled = old.childrenEnabled
  bare : ∀ nd ∈ objs, nd.parents = [] ∧ nd.children = [] ∧ nd.pending = []

/-- Which relation the call asks for, as (parent, child). -/
def Call.asks (x : Id) : Call → Option (Id × Id)
  | .addParent p => some (p, x)
  | .setParent p => some (p, x)
  | .addChild c => some (x, c)
  | _ => none

/-- The object after the call: the two setters set their flag, and nothing else happens to it. -/
def Call.after (nd : Node) : Call → Node
  | .setParentsEnabled b => { nd with parentsEnabled := b }
  | .setChildrenEnabled b => { nd with childrenEnabled := b }
  | _ => nd

/-- What a call of a removed object does while its name is not in use: nothing happens to the nodes, the top level and the
observers; at most the relation asked for is written down. -/
structure OnlyAsks (s s' : St) (ask : Option (Id × Id)) : Prop where
  nodes : s'.t.nodes = s.t.nodes
  root : s'.t.root = s.t.root
  silent : s'.log = s.log
  pending : ∀ r, r ∈ s'.t.pending → r ∈ s.t.pending ∨ ask = some r
  remembered : ∀ r, r ∈ s.t.pending → r ∈ s'.t.pending

/-- The tree `t'` is `t` again, except that `x` has become the last child of `parent`, and that relations with `x` that were waiting
for their other end are forgotten. -/
structure PutBack (t t' : Tree) (x parent : Id) : Prop where
  nodes : ∀ y, t'.has y = t.has y
  parents : ∀ y, t'.getParents y = t.getParents y
  children : ∀ q c, IsChild t' q c ↔ IsChild t q c
  last : parent ≠ .none → ∃ l, t'.getChildren parent = l ++ [x] ∧ l.Sublist (t.getChildren parent)
  top : ∀ z, z ∈ t'.rootChildren ↔ z ∈ t.rootChildren
  flags : ∀ y nd, t.node? y = some nd → ∃ nd', t'.node? y = some nd' ∧ nd'.parentsEnabled = nd.parentsEnabled ∧
    nd'.childrenEnabled = nd.childrenEnabled
  pending : ∀ r, r ∈ t'.pending ↔ r ∈ t.pending ∧ r.1 ≠ x ∧ r.2 ≠ x

/-- A careful deed through which no relation is asked for twice, and none with an empty name. -/
def CarefulOnce (h : Home) (d : Deed) : Prop :=
  CarefulDeed h d ∧ ∀ k c nd r, d = .call k c → h.kept[k]? = some nd → Call.asks nd.id c = some r →
    r ∉ h.s.t.pending ∧ r.1.falsy = false ∧ r.2.falsy = false

end Spec
end Larch
