import Verif.Spec.Collapse

/-!
# What is claimed about rows that are opened and closed by hand
-/

namespace Larch
namespace Spec

open Widget

variable {V : Type}

/-- Every action of the application is fair, paths are looked up only if the row above them is there, and the user clicks on rows
that are there and drops rows only if the applied filters look only at the nodes and their children (`FewerApplied`). Otherwise anything may happen. -/
def UserFair (diff : List Id → List Id → List Id) (O : GtkOrder) (alloc : Nat → Nat) : List (WAct V) → Widget V → Prop
  | [], _ => True
  | c :: cs, w =>
    (match c with
      | .app c => ViewFair w.scr.app c
      | .look path => ParentThere w.scr.tm (.lookup path)
      | .click _ a => ∃ r ∈ w.scr.tm.rows, r.addr = a
      | .fold _ _ => True
      | .idle => True
      | .drop _ _ => FewerApplied w.scr.app) ∧ UserFair diff O alloc cs (w.step diff O alloc c)

/-- A tree is built, a view of it is made, the widget is made, and then anything fair happens. -/
def InUse (diff : List Id → List Id → List Id) (O : GtkOrder) (alloc : Nat → Nat) (w : Widget V) : Prop :=
  ∃ ops bcs root d ft cs, Along Careful St.init ops ∧ (runOps St.init ops).t.has root = false ∧ FT.new diff (Bank.run {} bcs) (runOps St.init ops).t d root true = .ok ft ∧
    UserFair diff O alloc cs (start O alloc ⟨runOps St.init ops, d, Bank.run {} bcs, ft⟩) ∧
    w = run diff O alloc cs (start O alloc ⟨runOps St.init ops, d, Bank.run {} bcs, ft⟩)

/-- Actions of the application, lookups and drops; nobody opens or closes a row. -/
def Quiet : WAct V → Prop
  | .app _ => True
  | .look _ => True
  | .drop _ _ => True
  | .fold _ _ => False
  | .idle => False
  | .click _ _ => False

/-- A row and one of its child rows have been there all the time. -/
def KeptChild (before after : List GRow) (r : GRow) : Prop :=
  r ∈ before ∧ ∃ c ∈ before, c ∈ after ∧ c.parent = some r.addr

/-- Nothing is closed above the row. -/
def UnderOpen (opened : List Nat) (r : GRow) : Prop := ∀ p, r.parent = some p → p ∈ opened

/-- The widget remembers the node as collapsed. -/
def Named (memory : List (List Id)) (x : Id) : Prop := ∃ path ∈ memory, path.getLast? = some x

end Spec
end Larch
