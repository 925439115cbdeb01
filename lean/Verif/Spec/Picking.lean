import Verif.Model.Picking
import Verif.Spec.DragDrop
import Verif.Spec.Emit

/-!
# What is claimed about selected rows
-/

namespace Larch
namespace Spec

variable {V : Type}

/-- Every action of the application is fair, and paths are looked up only if the row above them is there. -/
def PickFair (diff : List Id → List Id → List Id) (O : GtkOrder) (alloc : Nat → Nat) : List (PAct V) → Picker V → Prop
  | [], _ => True
  | c :: cs, w =>
    (match c with
      | .app c => ViewFair w.scr.app c
      | .look path => ParentThere w.scr.tm (.lookup path)
      | _ => True) ∧ PickFair diff O alloc cs (w.step diff O alloc c)

/-- The situations that come about: a widget with nothing selected, and then anything fair happens. -/
def PickReached (diff : List Id → List Id → List Id) (O : GtkOrder) (alloc : Nat → Nat) (w : Picker V) : Prop :=
  ∃ scr cs, Reached diff O alloc scr ∧ PickFair diff O alloc cs { scr := scr } ∧ w = Picker.run diff O alloc cs { scr := scr }

/-- The paths of the selected rows, in any order. -/
def PathsOf (O : GtkOrder) (rows : List GRow) (picked : List Nat) (paths : List (List Nat)) : Prop :=
  ∃ order : List Nat, order.Perm picked ∧ List.Forall₂ (fun a p => Leads O rows p a) order paths

/-- The selected rows. -/
def PickedRows (w : Picker V) (sel : List GRow) : Prop := sel.map GRow.addr = w.picked ∧ ∀ r ∈ sel, r ∈ w.scr.tm.rows

end Spec
end Larch
