import Verif.Model.Nested
import Verif.Spec.Tree
import Verif.Spec.Consistent

/-!
# What is claimed about observers that edit the tree from their callbacks
-/

namespace Larch
namespace Spec

variable {σ : Type}

/-- The tree is consistent, and nobody has a child that is not there. -/
def Sane (s : St) : Prop := Good s.t ∧ ∀ p c, c ∈ s.t.rawChildren p → s.t.has c = true

/-- Every edit that the callback makes meets `ok` in the state where it is made. The callback goes on whatever the edits before
have left, as long as `inv` holds then. -/
def Polite (inv : St → Prop) (ok : St → Op → Prop) : Prog σ → Now σ → Prop
  | .done _, _ => True
  | .raise _ _, _ => True
  | .edit _ op next, w => ok w.s op ∧ ∀ r, inv r.state.s → Polite inv ok (next r) r.state

/-- The observer is polite, whatever it is told of, in every state with `inv`. -/
def PoliteWatcher (inv : St → Prop) (ok : St → Op → Prop) (ob : Watcher σ) : Prop :=
  ∀ ev x w, inv w.s → Polite inv ok (ob ev x w) w

/-- Nodes are added as new objects. -/
def NewNode (_ : St) : Op → Prop
  | .addNode nd _ => Made nd
  | _ => True

/-- An edit that no observer can spoil by making gentle edits in the middle of it:
* nothing is removed;
* a node gets a new only parent that exists, or `None`, or it has no parents so far;
* parents and children are disabled only where there are none;
* otherwise the edit is one of a careful user (`Careful`). -/
def Gentle (s : St) : Op → Prop
  | .delNode _ _ => False
  | .moveNode x p => s.t.has p = true ∨ p.falsy = true ∨ s.t.getParents x = []
  | .setParent x p => s.t.has p = true ∨ p.falsy = true ∨ s.t.getParents x = []
  | .setParentsEnabled x b => b = true ∨ s.t.getParents x = []
  | .setChildrenEnabled x b => b = true ∨ s.t.getChildren x = []
  | .addNode nd p => Careful s (.addNode nd p)
  | .newRelationship p c => Careful s (.newRelationship p c)
  | .refreshNode _ | .addParent _ _ | .removeParent _ _ | .addChild _ _ | .breakRelationship _ _ => True

/-- The application may also remove nodes that have neither parents nor children. -/
def GentleOuter (s : St) : Op → Prop
  | .delNode x _ => s.t.getParents x = [] ∧ s.t.getChildren x = []
  | op => Gentle s op

/-- A history of edits, with observers that edit: every edit of the application meets `ok` where it is made. -/
def AlongNested (obs : List (Watcher σ)) (more n : Nat) (ok : St → Op → Prop) : Now σ → List Op → Prop
  | _, [] => True
  | w, op :: ops => ok w.s op ∧ AlongNested obs more n ok (Now.nested obs more n w op).state ops

/-- What a tree should be after any edit: parents and children agree (C01), there is no cycle (C02), the top level is right (C05), and
no relation is still waiting although both ends are there (C06). -/
structure Orderly (t : Tree) : Prop where
  agree : Agree t
  noCycle : NoCycle t
  topLevel : TopLevel t
  waiting : ∀ p c, (p, c) ∈ t.pending → ¬ (t.has p = true ∧ t.has c = true)

end Spec
end Larch
