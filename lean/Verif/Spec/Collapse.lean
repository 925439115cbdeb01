import Verif.Model.Collapse
import Verif.Spec.DragDrop

/-!
# What is claimed about open and closed rows
-/

namespace Larch
namespace Spec

open Widget

variable {V : Type}

/-- The row at an address has rows below it. -/
def ChildRow (rows : List GRow) (a : Nat) : Prop := ∃ r ∈ rows, r.parent = some a

/-- `collapse_node` was called for a node. -/
def Asked (cs : List (WAct V)) (x : Id) : Prop := x ≠ .none ∧ x ≠ .empty ∧ .fold .collapse x ∈ cs

/-- Every action of the application is fair, paths are looked up only if the row above them is there, and rows are closed only
through `collapse_node` and opened only by the widget. The user may drop anything anywhere, as long
as the applied filters look only at the nodes and their children (`FewerApplied`). -/
def WidgetFair (diff : List Id → List Id → List Id) (O : GtkOrder) (alloc : Nat → Nat) : List (WAct V) → Widget V → Prop
  | [], _ => True
  | c :: cs, w =>
    (match c with
      | .app c => ViewFair w.scr.app c
      | .look path => ParentThere w.scr.tm (.lookup path)
      | .fold f _ => f = .collapse
      | .idle => True
      | .click _ _ => False
      | .drop _ _ => FewerApplied w.scr.app) ∧ WidgetFair diff O alloc cs (w.step diff O alloc c)

/-- The beginning: a tree is built, a view of it is made that shows no rows below other rows, and the widget is made. -/
def WidgetStart (diff : List Id → List Id → List Id) (O : GtkOrder) (alloc : Nat → Nat) (w : Widget V) : Prop :=
  ∃ ops bcs root d ft, Along Careful St.init ops ∧ (runOps St.init ops).t.has root = false ∧ FT.new diff (Bank.run {} bcs) (runOps St.init ops).t d root true = .ok ft ∧
    (∀ l, IsRow ft l → l.length = 1) ∧ w = start O alloc ⟨runOps St.init ops, d, Bank.run {} bcs, ft⟩

end Spec
end Larch
