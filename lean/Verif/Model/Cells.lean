import Verif.Model.TreeModel

/-!
# The columns of the GTK tree model

`TreeModel` (`liblarch_gtk/treemodel.py`) with the columns behind the first one. A column is computed from the node's own
data by its access method; an access method may return `None`, written `none` here. The rows and the caches are those of
`Model/TreeModel.lean`; the values of a row are kept under its address.

Simplifications: the conversion of a value to the type of its column by GTK is left out, as is the first column (it is
`GRow.nid`). Access methods look at the data of their node only and do not raise.
-/

namespace Larch

/-- The model with the values of the rows; what is stored under an address where no row lives is never looked at. -/
structure CModel (W : Type) where
  tm : TM := {}
  cells : Nat → List (Option W) := fun _ => []

namespace CModel

variable {V W : Type}

/-- The values of a new row (`treemodel.py:135-139`). -/
def build (types : List (V → Option W)) (d : V) : List (Option W) := types.map fun f => f d

/-- The loop over the columns of an existing row (`treemodel.py:178-182`), from column `k` on: `set_value` unless the value
is `None`. -/
def setValues (d : V) : Nat → List (V → Option W) → List (Option W) → List (Option W)
  | _, [], row => row
  | k, f :: types, row =>
    setValues d (k + 1) types (match f d with
      | none => row
      | some w => row.set k (some w))

/-- `cells[a] = row`. -/
def store (cells : Nat → List (Option W)) (a : Nat) (row : List (Option W)) : Nat → List (Option W) :=
  fun b => if b = a then row else cells b

/-- Put the outcome of an operation on the rows back. -/
def withTM (cells : Nat → List (Option W)) : Res TM → Res (CModel W)
  | .ok m => .ok ⟨m, cells⟩
  | .err e m => .err e ⟨m, cells⟩

/-- `add_task` (`treemodel.py:127-146`). -/
def addTask (O : GtkOrder) (types : List (V → Option W)) (d : Id → V) (m : CModel W) (nid : Id) (path : List Id)
    (a : Nat) : Res (CModel W) :=
  withTM (store m.cells a (build types (d nid))) (m.tm.addTask O nid path a)

/-- `update_task` (`treemodel.py:163-182`). -/
def updateTask (O : GtkOrder) (types : List (V → Option W)) (d : Id → V) (m : CModel W) (nid : Id) (path : List Id)
    (shown : Bool) : Res (CModel W) :=
  if shown then
    let (it, tm) := m.tm.getIter O path
    match it with
    | none => .ok ⟨tm, m.cells⟩
    | some a => .ok ⟨tm, store m.cells a (setValues (d nid) 0 types (m.cells a))⟩
  else .ok m

/-- One step, as `TM.act`; `d` is the data of the nodes at that moment. -/
def act (O : GtkOrder) (types : List (V → Option W)) (m : CModel W) (d : Id → V) : TM.Act → Res (CModel W)
  | .sig s a shown =>
    match s.ev with
    | .added => m.addTask O types d s.nid s.path a
    | .modified => m.updateTask O types d s.nid s.path shown
    | .deleted => withTM m.cells (m.tm.removeTask O s.nid s.path)
  | .lookup path => .ok ⟨(m.tm.getIter O path).2, m.cells⟩

/-- A history; each step comes with the data of the nodes at that moment. -/
def run (O : GtkOrder) (types : List (V → Option W)) : List (TM.Act × (Id → V)) → CModel W → Res (CModel W)
  | [], m => .ok m
  | c :: cs, m => (m.act O types c.2 c.1).andThen (run O types cs)

end CModel
end Larch
