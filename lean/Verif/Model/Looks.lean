import Verif.Model.Columns

/-!
# How the columns of the GTK tree view look, and what the rows are sorted by

The parts of `TreeView.__init__` (`liblarch_gtk/__init__.py:124-172`) that `Model/Columns.lean` leaves out, and the methods that
change a column found by its name (289-324).

What GTK does, and is taken from its documentation and not from `/repo`: a new `Gtk.TreeViewColumn` is visible, not
resizable, does not expand and has no title; a click on the head of a column sorts the store by the column given to
`set_sort_column_id`, in an order chosen by GTK.

Simplifications: renderers are left out. `ENABLE_SORTING` is `True` (30).
-/

namespace Larch

/-- The description of a column with what it says about the looks (`__init__.py:128-130, 150-151`); a key that is missing has the
default value of the code. -/
structure LookDesc (N F T : Type) where
  col : ColDesc N F
  visible : Bool := true
  resizable : Bool := true
  expand : Bool := false
  title : Option T := none

/-- What a `Gtk.TreeViewColumn` looks like. -/
structure GCol (T : Type) where
  visible : Bool := true
  resizable : Bool := false
  expand : Bool := false
  title : Option T := none
deriving DecidableEq

inductive SortDir where
  | ascending
  | descending
deriving DecidableEq, Repr

/-- The columns with their looks, and what the widget is told about them later. -/
structure Face (N F T : Type) where
  cols : Columns N F := {}
  /-- the columns on the screen, by their numbers -/
  looks : Nat → GCol T := fun _ => {}
  /-- the column for searching, by its number in the model -/
  search : Option Nat := none
  /-- the column with the expanders, by its number on the screen -/
  expander : Option Nat := none
  /-- `self.sort_order` (101); `self.sort_col` is in `cols` -/
  order : SortDir := .ascending
  /-- what the store is sorted by: number in the model and direction -/
  sorted : Option (Nat × SortDir) := none

namespace Face

variable {N F T : Type} [LinearOrder N]

/-- Something happens to the column `g` on the screen. -/
def onCol (w : Face N F T) (g : Nat) (f : GCol T → GCol T) : Face N F T :=
  { w with looks := fun h => if h = g then f (w.looks h) else w.looks h }

/-- One round of the loop (`__init__.py:124-172`): the looks are set (147-155) before the column is appended and its sorting is
looked at. -/
def addColumn (k : Nat) (c : LookDesc N F T) (w : Face N F T) : Res (Face N F T) :=
  let col := (if c.col.newColumn then w.cols.made + 1 else w.cols.made) - 1
  let w := w.onCol col fun l =>
    { visible := c.visible, title := c.title.or l.title, resizable := c.resizable, expand := c.expand }
  match w.cols.addColumn k c.col with
  | .ok cols => .ok { w with cols := cols }
  | .err e cols => .err e { w with cols := cols }

/-- `description[col_name]`. -/
def find (descs : List (LookDesc N F T)) (n : N) : Option (LookDesc N F T) := descs.find? fun c => c.col.name = n

/-- The loop, from number `k` on. -/
def loop (descs : List (LookDesc N F T)) : Nat → List (Int × N) → Face N F T → Res (Face N F T)
  | _, [], w => .ok w
  | k, (_, n) :: l, w =>
    match find descs n with
    | none => .err .keyError w
    | some c => (w.addColumn k c).andThen (loop descs (k + 1) l)

/-- Making the columns (`__init__.py:109-172, 186-189`). -/
def make (descs : List (LookDesc N F T)) : Res (Face N F T) :=
  (loop descs 1 ((Columns.orders 9999 (descs.map (·.col))).insertionSort fun a b => Columns.pairLE a b = true) {}).andThen fun w =>
    .ok { w with cols := { w.cols with sortIds := w.cols.sortIds ++ w.cols.sortFuncs.map Prod.swap } }

/-- What is done with the columns later. -/
inductive Call (N : Type) where
  /-- `set_col_visible` -/
  | visible (n : N) (b : Bool)
  /-- `set_col_resizable` -/
  | resizable (n : N) (b : Bool)
  /-- `set_main_search_column` -/
  | search (n : N)
  /-- `set_expander_column` -/
  | expander (n : N)
  /-- `set_sort_column` -/
  | sort (n : N) (o : SortDir)
  /-- the user clicks on the head of a column on the screen -/
  | click (g : Nat) (o : SortDir)

/-- The column that the last call of `set_sort_column_id` gave to the head of `g`. -/
def headSorts (w : Face N F T) (g : Nat) : Option Nat := (w.cols.sortIds.reverse.find? fun p => decide (p.1 = g)).map (·.2)

/-- One call (`__init__.py:289-324`). `set_sort_column` remembers the name before it looks for the column (304-306). -/
def call (w : Face N F T) : Call N → Res (Face N F T)
  | .visible n b =>
    match w.cols.columns.get? n with
    | none => .err .keyError w
    | some (_, g) => .ok (w.onCol g fun l => { l with visible := b })
  | .resizable n b =>
    match w.cols.columns.get? n with
    | none => .err .keyError w
    | some (_, g) => .ok (w.onCol g fun l => { l with resizable := b })
  | .search n =>
    match w.cols.columns.get? n with
    | none => .err .keyError w
    | some (k, _) => .ok { w with search := some k }
  | .expander n =>
    match w.cols.columns.get? n with
    | none => .err .keyError w
    | some (_, g) => .ok { w with expander := some g }
  | .sort n o =>
    let w := { w with cols := { w.cols with sortCol := some n }, order := o }
    match w.cols.columns.get? n with
    | none => .err .keyError w
    | some (k, _) => .ok { w with sorted := some (k, o) }
  | .click g o =>
    match w.headSorts g with
    | none => .ok w
    | some k => .ok { w with sorted := some (k, o) }

/-- A series of calls; exceptions are caught by the application. -/
def run (cs : List (Call N)) (w : Face N F T) : Face N F T := cs.foldl (fun w c => (w.call c).state) w

/-- `get_sort_column` (`__init__.py:309-312`). -/
def sortColumn (w : Face N F T) : Option N × SortDir := (w.cols.sortCol, w.order)

/-- `get_columns` (`__init__.py:285-287`). -/
def names (w : Face N F T) : List N := w.cols.columns.keys

end Face
end Larch
