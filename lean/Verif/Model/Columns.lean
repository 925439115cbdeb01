import Verif.Model.Base
import Verif.Model.KV
import Mathlib.Data.List.Sort
import Mathlib.Data.Prod.Lex

/-!
# The columns of the GTK tree view

The loop of `TreeView.__init__` that makes the columns (`liblarch_gtk/__init__.py:109-172`) and the methods that find a
column by its name.

A column of the *model* has a number (column 0 of the model is the id of the node). A column *on the screen*
(`Gtk.TreeViewColumn`) is an object; objects are numbered in the order in which they are made, and may hold several columns
of the model.

Simplifications: titles, renderers, widths and visibility are left out. The keys of `desc` that are read are fields here;
`desc['value']`, which every column must have, is a field that is always there. Orders are integers.
-/

namespace Larch

/-- The description of a column, with its name (`__init__.py:75-90`). -/
structure ColDesc (N F : Type) where
  name : N
  /-- the access method, `desc['value'][1]` -/
  value : F
  order : Option Int := none
  newColumn : Bool := true
  sorting : Option N := none
  sortingFunc : Bool := false

/-- What the loop has made so far. -/
structure Columns (N F : Type) where
  /-- `types` -/
  types : List F := []
  /-- `self.columns`: name ↦ (number in the model, column on the screen) -/
  columns : KV N (Nat × Nat) := []
  /-- how many `Gtk.TreeViewColumn` have been made; the first one is made before the loop (121) -/
  made : Nat := 1
  /-- the columns given to `append_column` -/
  shown : List Nat := []
  /-- `self.sort_col` -/
  sortCol : Option N := none
  /-- calls of `set_sort_column_id`: (column on the screen, number in the model) -/
  sortIds : List (Nat × Nat) := []
  /-- `sorting_func`: (number in the model, column on the screen) -/
  sortFuncs : List (Nat × Nat) := []

namespace Columns

variable {N F : Type} [LinearOrder N]

/-- `self.order_of_column` (`__init__.py:110-116`): the counter moves on for every column. -/
def orders : Int → List (ColDesc N F) → List (Int × N)
  | _, [] => []
  | last, c :: cs => (c.order.getD last, c.name) :: orders (last + 1) cs

/-- `sorted` compares pairs: first the order, then the name. -/
def pairLE (a b : Int × N) : Bool := decide (a.1 < b.1 ∨ a.1 = b.1 ∧ a.2 ≤ b.2)

/-- `description[col_name]`. -/
def find (descs : List (ColDesc N F)) (n : N) : Option (ColDesc N F) := descs.find? fun c => c.name = n

/-- One round of the loop (`__init__.py:124-172`) for the column with number `k` in the model. -/
def addColumn (k : Nat) (c : ColDesc N F) (w : Columns N F) : Res (Columns N F) :=
  let made := if c.newColumn then w.made + 1 else w.made
  -- the column in `col`: the last one that was made
  let col := made - 1
  let w := { w with
    types := w.types ++ [c.value]
    made := made
    shown := if c.newColumn then w.shown ++ [col] else w.shown
    columns := w.columns.set c.name (k, col) }
  let r : Res (Columns N F) :=
    match c.sorting with
    | none => .ok w
    | some target =>
      let w := { w with sortCol := some target }
      match w.columns.get? target with
      | none => .err .keyError w
      | some (num, _) => .ok { w with sortIds := w.sortIds ++ [(col, num)] }
  r.andThen fun w => .ok (if c.sortingFunc then { w with sortFuncs := w.sortFuncs ++ [(k, col)] } else w)

/-- The loop, from number `k` on. A name that is not described cannot occur: the names come from the description. -/
def loop (descs : List (ColDesc N F)) : Nat → List (Int × N) → Columns N F → Res (Columns N F)
  | _, [], w => .ok w
  | k, (_, n) :: l, w =>
    match find descs n with
    | none => .err .keyError w
    | some c => (addColumn k c w).andThen (loop descs (k + 1) l)

/-- Making the columns (`__init__.py:109-172`), and the comparing functions (186-189). -/
def make (descs : List (ColDesc N F)) : Res (Columns N F) :=
  (loop descs 1 ((orders 9999 descs).insertionSort fun a b => pairLE a b = true) {}).andThen fun w =>
    .ok { w with sortIds := w.sortIds ++ w.sortFuncs.map Prod.swap }

/-- `set_column_function` of the model (`treemodel.py:41-52`) for a column other than the first; `types` does not hold the
first one. -/
def setFunction (w : Columns N F) (num : Nat) (f : F) : Columns N F × Bool :=
  if num < w.types.length + 1 then ({ w with types := w.types.set (num - 1) f }, true) else (w, false)

/-- `set_bg_color` (`__init__.py:326-348`): the function of the named column is replaced. -/
def setBgColor (w : Columns N F) (n : N) (f : F) : Res (Columns N F) :=
  match w.columns.get? n with
  | some (num, _) => .ok (w.setFunction num f).1
  | none => .err .valueError w

end Columns
end Larch
