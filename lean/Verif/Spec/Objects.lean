import Verif.Model.Objects
import Verif.Spec.Kept

/-!
# What is claimed about several trees (C78)
-/

namespace Larch
namespace Spec

/-- The edit that the call of a method of the node `x` of the tree is. -/
def Call.op (x : Id) : Call → Op
  | .addParent p => .addParent x p
  | .setParent p => .setParent x p
  | .removeParent p => .removeParent x p
  | .addChild c => .addChild x c
  | .setParentsEnabled b => .setParentsEnabled x b
  | .setChildrenEnabled b => .setChildrenEnabled x b
  | .modified => .refreshNode x

/-- The tree that a deed is about: the one it is done to, or the one that the object refers to. -/
def about (w : World) : WorldAct → Option Nat
  | .newTree => none
  | .make _ _ => none
  | .addNode i _ _ => some i
  | .delNode i _ _ => some i
  | .refreshNode i _ => some i
  | .moveNode i _ _ => some i
  | .addParent i _ _ => some i
  | .newRelationship i _ _ => some i
  | .breakRelationship i _ _ => some i
  | .call a _ => w.treeOf a

/-- No object is handed to a tree while it is in another. -/
def OneTree (w : World) : WorldAct → Prop
  | .addNode i a _ => ∀ j x, w.at? j x = some a → j = i
  | _ => True

/-- The deed adds an object that has left a tree, or calls a method of it. -/
def UsesRemoved (w : World) : WorldAct → Prop
  | .addNode _ a _ => ∃ j, w.treeOf a = some j ∧ ∀ x, w.at? j x ≠ some a
  | .call a _ => ∃ j, w.treeOf a = some j ∧ ∀ x, w.at? j x ≠ some a
  | _ => False

/-- The deed adds an object that refers to another tree. -/
def Moves (w : World) : WorldAct → Prop
  | .addNode i a _ => ∃ j, w.treeOf a = some j ∧ j ≠ i
  | _ => False

/-- A sequence in which every deed meets the condition `ok` in the state where it is done. -/
def AlongWorld (ok : World → WorldAct → Prop) : World → List WorldAct → Prop
  | _, [] => True
  | w, d :: ds => ok w d ∧ AlongWorld ok (w.step d).state ds

/-- What the program may do with an object that is in no tree but refers to the tree `i`: it has left that tree, and has not been
added to another since. -/
structure Removed (w : World) (i a : Nat) : Prop where
  ex : a < w.objs.length
  refers : w.treeOf a = some i
  out : ∀ x, w.at? i x ≠ some a

/-- The edit of `Model/Tree.lean` that a deed is, and the tree it is done to, if it is one. To add an object to the tree it is in
already is none. -/
def editAbout (w : World) (d : WorldAct) : Option (Nat × Op) :=
  let on (i : Nat) (op : Op) : Option (Nat × Op) := if i < w.trees.length then some (i, op) else none
  match d with
  | .newTree => none
  | .make _ _ => none
  | .addNode i a p => if a < w.objs.length ∧ w.treeOf a ≠ some i then on i (.addNode (w.obj a) p) else none
  | .delNode i x r => on i (.delNode x r)
  | .refreshNode i x => on i (.refreshNode x)
  | .moveNode i x p => on i (.moveNode x p)
  | .addParent i x p => on i (.addParent x p)
  | .newRelationship i p c => on i (.newRelationship p c)
  | .breakRelationship i p c => on i (.breakRelationship p c)
  | .call a c => (w.treeOf a).bind fun i => on i (Call.op (w.obj a).id c)

/-- The edits that a sequence of deeds is for the tree `i`. -/
def editsAbout (i : Nat) : World → List WorldAct → List Op
  | _, [] => []
  | w, d :: ds =>
    let rest := editsAbout i (w.step d).state ds
    match editAbout w d with
    | some (j, op) => if j = i then op :: rest else rest
    | none => rest

/-- No object is in two trees, and objects that have left a tree are not used any more. -/
def PlainDeed (w : World) (d : WorldAct) : Prop := OneTree w d ∧ ¬ UsesRemoved w d

/-- PlainDeed deeds, each of them careful as an edit of its tree (`Careful`). -/
def CarefulWorld (w : World) (d : WorldAct) : Prop := PlainDeed w d ∧ ∀ i op, editAbout w d = some (i, op) → Careful (w.st i) op

end Spec
end Larch
