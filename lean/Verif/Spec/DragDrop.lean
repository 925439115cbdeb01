import Verif.Model.DragDrop
import Verif.Spec.FilteredTree
import Verif.Spec.TreeModel

/-!
# What is claimed about drag and drop
-/

namespace Larch
namespace Spec

open Screen

variable {V : Type}

/-- Every action of the application is fair, and paths are looked up only if the row above them is there. The user may drop
anything anywhere, as long as the applied filters look only at the nodes and their children (`FewerApplied`). -/
def ScreenFair (diff : List Id → List Id → List Id) (O : GtkOrder) (alloc : Nat → Nat) : List (SAct V) → Screen V → Prop
  | [], _ => True
  | c :: cs, w =>
    (match c with
      | .app c => ViewFair w.app c
      | .look path => ParentThere w.tm (.lookup path)
      | .drop _ _ => FewerApplied w.app) ∧ ScreenFair diff O alloc cs (w.step diff O alloc c)

/-- The situations that come about: a tree is built, a view of it is made, the GTK model connects, and then anything fair
happens. -/
def Reached (diff : List Id → List Id → List Id) (O : GtkOrder) (alloc : Nat → Nat) (w : Screen V) : Prop :=
  ∃ ops bcs root d ft cs, Along Careful St.init ops ∧ (runOps St.init ops).t.has root = false ∧ FT.new diff (Bank.run {} bcs) (runOps St.init ops).t d root true = .ok ft ∧
    ScreenFair diff O alloc cs (start O alloc ⟨runOps St.init ops, d, Bank.run {} bcs, ft⟩) ∧
    w = run diff O alloc cs (start O alloc ⟨runOps St.init ops, d, Bank.run {} bcs, ft⟩)

/-- The rows on the screen are the rows of the view, once each. -/
def ScreenRight (w : Screen V) : Prop :=
  (w.tm.rows.map GRow.addr).Nodup ∧ (∀ r ∈ w.tm.rows, ∃ l, IsRow w.app.ft l ∧ RowPath w.tm.rows r.addr l) ∧
    ∀ l, IsRow w.app.ft l → ∃ r ∈ w.tm.rows, RowPath w.tm.rows r.addr l ∧ ∀ q ∈ w.tm.rows, RowPath w.tm.rows q.addr l → q = r

/-- The row that gets the dragged rows: the one dropped on, or the one above the row dropped beside. -/
inductive Target (rows : List GRow) : Option (Nat × DropPos) → GRow → Prop
  | into {q : GRow} : q ∈ rows → Target rows (some (q.addr, .into)) q
  | beside {q p : GRow} {pos : DropPos} : q ∈ rows → p ∈ rows → q.parent = some p.addr → pos ≠ .into →
    Target rows (some (q.addr, pos)) p

/-- Something is dropped beside a row of the top, or beside no row at all. -/
inductive TargetTop (rows : List GRow) : Option (Nat × DropPos) → Prop
  | nowhere : TargetTop rows none
  | beside {q : GRow} {pos : DropPos} : q ∈ rows → q.parent = none → pos ≠ .into → TargetTop rows (some (q.addr, pos))

/-- No selected row is below a row of another selected node. -/
def Apart (rows sel : List GRow) : Prop :=
  ∀ r ∈ sel, ∀ l, RowPath rows r.addr l → ∀ q ∈ sel, q.nid ∈ l → q.nid = r.nid

/-- Nothing but the parents of `x` is different. -/
def OnlyMoves (t t' : Tree) (x : Id) : Prop :=
  (∀ y, t'.has y = t.has y) ∧ ∀ y, y ≠ x → t'.getParents y = t.getParents y

/-- The rows of `x` are exactly below the rows of `p`, one below each. -/
def RowsBelow (rows : List GRow) (x p : Id) : Prop :=
  (∀ r ∈ rows, r.nid = x → ∃ q ∈ rows, r.parent = some q.addr ∧ q.nid = p) ∧
  ∀ q ∈ rows, q.nid = p → ∃ r ∈ rows, r.nid = x ∧ r.parent = some q.addr ∧
    ∀ r' ∈ rows, r'.nid = x → r'.parent = some q.addr → r' = r

end Spec
end Larch
