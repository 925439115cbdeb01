import Verif.Model.Emit
import Verif.Spec.ByHand
import Verif.Spec.Print

/-!
# What is claimed about the signals for opened and closed rows
-/

namespace Larch
namespace Spec

/-- A `Gtk.TreePath` leads to the row at an address: at each level the position of the row above among its siblings. -/
inductive Leads (O : GtkOrder) (rows : List GRow) : List Nat → Nat → Prop
  | top {i a : Nat} : O.nth rows none i = some a → Leads O rows [i] a
  | under {path : List Nat} {p i a : Nat} : Leads O rows path p → O.nth rows (some p) i = some a → Leads O rows (path ++ [i]) a

/-- The signal for a row says where it is: it is the path of the row, which ends with its node, whatever way GTK says it. -/
def SaysWhere (O : GtkOrder) (m : TM) (a : Nat) : Prop :=
  ∃ l, RowPath m.rows a l ∧ ∀ path, Leads O m.rows path a → Widget.emit O m path = .ok l

end Spec
end Larch
