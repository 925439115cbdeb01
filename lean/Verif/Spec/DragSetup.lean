import Verif.Model.DragSetup
import Verif.Spec.Emit

/-!
# What is claimed about setting up drag and drop
-/

namespace Larch
namespace Spec

variable {S F : Type}

/-- The name that was given last; none if it was the empty string or if there is none. -/
def lastName (cs : List (DndCall S F)) : Option S :=
  ((cs.filterMap fun c => match c with
    | .name s => some s
    | .external _ _ => none).getLast?).join

/-- The other sources that were registered, with their functions. -/
def registered (cs : List (DndCall S F)) : List (S × F) :=
  cs.filterMap fun c => match c with
    | .name _ => none
    | .external s f => some (s, f)

/-- How often a name was given. -/
def namings (cs : List (DndCall S F)) : Nat :=
  (cs.filter fun c => match c with
    | .name s => s.isSome
    | .external _ _ => false).length

/-- The strings of the selected rows: their positions. Without a selection there is one empty string. -/
def SentAs (O : GtkOrder) (rows : List GRow) (selected : List Nat) (text : List (List Nat)) : Prop :=
  (selected = [] ∧ text = [[]]) ∨ (selected ≠ [] ∧ List.Forall₂ (fun a p => Leads O rows p a) selected text)

end Spec
end Larch
