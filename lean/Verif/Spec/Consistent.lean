import Verif.Model.Tree
import Verif.Lib.Graph

/-!
# Consistent trees

The states between two edits for which the effect of a single edit is specified, in terms of the
attributes of the tree object and its node objects. `Props/Consistency.lean` shows that every careful
history stays within the consistent trees.
-/

namespace Larch

open Graph

/-- Consistency of nodes and relations. A children list may still mention a removed node
(`tree.py:238-240` skips parents); such an id must not be in use. -/
structure WF (t : Tree) : Prop where
  keys : t.nodes.keys.Nodup
  self : ∀ x nd, t.node? x = some nd → nd.id = x ∧ nd.hasTree = true
  ids : ∀ x, t.has x = true → x.falsy = false ∧ x ≠ rootId
  rootIs : t.root.id = rootId
  rootTree : t.root.hasTree = true
  rootKids : t.root.childrenEnabled = true
  up : ∀ p c, p ∈ t.rawParents c → c ∈ t.rawChildren p
  down : ∀ p c, c ∈ t.rawChildren p → t.has c = true → p ∈ t.rawParents c
  ndP : ∀ x, (t.rawParents x).Nodup
  ndC : ∀ x, (t.rawChildren x).Nodup
  acyclic : Acyclic t.rawParents
  flagP : ∀ x nd, t.node? x = some nd → nd.parentsEnabled = false → nd.parents = []
  flagC : ∀ x nd, t.node? x = some nd → nd.childrenEnabled = false → ∀ c ∈ nd.children, t.has c = false

/-- The root list holds exactly the parentless nodes outside `E`, once each. -/
structure RootOK (t : Tree) (E : Id → Prop) : Prop where
  nodup : t.root.children.Nodup
  mem : ∀ x, x ∈ t.root.children ↔ t.has x = true ∧ t.rawParents x = [] ∧ ¬ E x

/-- No exception to the root list. -/
abbrev noneOf : Id → Prop := fun _ => False

/-- No relation is still waiting although both ends exist. -/
def PendOK (t : Tree) : Prop := ∀ p c, (p, c) ∈ t.pending → ¬ (t.has p = true ∧ t.has c = true)

/-- A consistent tree. -/
structure Good (t : Tree) : Prop where
  wf : WF t
  root : RootOK t noneOf
  pend : PendOK t

end Larch
