import Verif.Model.FilteredTree
import Verif.Model.TreeModel

/-!
# Drag and drop in the GTK tree view

`TreeView` (`liblarch_gtk/__init__.py`) on top of its model: what the user drops where, and what the tree, the view and the
rows of the model are afterwards.

Simplifications: the view tells the model about an edit when the edit is done, as in `Model/FilteredTree.lean`. The strings
that GTK makes from iterators and reads back (455, 520) are the iterators themselves: nothing happens between the two. What is printed for a refused move
(544) is left out. `INTO_OR_BEFORE` and `INTO_OR_AFTER` are one position.
-/

namespace Larch

/-- The application with its view and the GTK model that hears the view. The address of the row added by the `n`-th signal
is chosen by GTK (`alloc n`); `clock` counts the signals. -/
structure Screen (V : Type) where
  app : FApp V
  tm : TM := {}
  clock : Nat := 0

/-- Where GTK says something was dropped: `BEFORE`, `AFTER`, or one of the two `INTO` positions. -/
inductive DropPos where
  | before
  | after
  | into
deriving DecidableEq, Repr

/-- What happens: the application acts, somebody looks up a path in the model (`my_get_iter`), or the user drops the rows
that are selected. -/
inductive SAct (V : Type) where
  | app (c : FAct V)
  | look (path : List Id)
  | drop (selected : List Nat) (at_ : Option (Nat × DropPos))

namespace Screen

variable {V : Type}

/-- Signals on their way to the model. `is_displayed` answers yes when a row is updated (`filteredtree.py:221-223`). -/
def heard (alloc : Nat → Nat) : Nat → List Sig → List TM.Act
  | _, [] => []
  | k, s :: l => .sig s (alloc k) true :: heard alloc (k + 1) l

/-- The application acts, and the model hears the signals of the view. What is raised is not handed on: a drop catches it
(`__init__.py:543`), and the theorems show that the view and the model raise nothing. -/
def act (diff : List Id → List Id → List Id) (O : GtkOrder) (alloc : Nat → Nat) (c : FAct V) (w : Screen V) : Screen V :=
  let a := (w.app.act diff c).state
  let sigs := a.ft.view.out.drop w.app.ft.view.out.length
  ⟨a, (TM.run O (heard alloc w.clock sigs) w.tm).state, w.clock + sigs.length⟩

/-- The id of the node that gets the dragged nodes as children (`__init__.py:480-505`): the node of the row dropped on, or
the node above the row dropped beside; otherwise `None`. -/
def destination (m : TM) : Option (Nat × DropPos) → Id
  | none => .none
  | some (a, .into) => (m.value a).getD .none
  | some (a, _) =>
    match m.rows.find? (fun r => r.addr = a) with
    | none => .none
    | some r =>
      match r.parent with
      | none => .none
      | some p => (m.value p).getD .none

/-- The second loop for an internal drop (`__init__.py:536-544`). -/
def dropRows (diff : List Id → List Id → List Id) (O : GtkOrder) (alloc : Nat → Nat) (dest : Id) : List Nat → Screen V → Screen V
  | [], w => w
  | a :: l, w =>
    match w.tm.value a with
    | none => dropRows diff O alloc dest l w
    | some x => dropRows diff O alloc dest l (w.act diff O alloc (.edit (.moveNode x dest)))

/-- The data of a drag (`on_drag_data_get`, `__init__.py:446-456`) as they are read at the other end (512-516): the string
is split at the commas, and splitting the empty string gives the empty string. The check for an empty selection (513)
compares bytes with a string and never succeeds. -/
def wire (selected : List Nat) : List (Option Nat) :=
  if selected = [] then [none] else selected.map some

/-- `on_drag_data_received` (`__init__.py:458-544`) for a drop within the widget (`info = 0`). An iterator that cannot be read
is passed over (521-528). -/
def drop (diff : List Id → List Id → List Id) (O : GtkOrder) (alloc : Nat → Nat) (selected : List Nat)
    (at_ : Option (Nat × DropPos)) (w : Screen V) : Screen V :=
  dropRows diff O alloc (destination w.tm at_) ((wire selected).filterMap id) w

def step (diff : List Id → List Id → List Id) (O : GtkOrder) (alloc : Nat → Nat) (w : Screen V) : SAct V → Screen V
  | .app c => w.act diff O alloc c
  | .look path => { w with tm := (w.tm.getIter O path).2 }
  | .drop selected at_ => w.drop diff O alloc selected at_

def run (diff : List Id → List Id → List Id) (O : GtkOrder) (alloc : Nat → Nat) : List (SAct V) → Screen V → Screen V
  | [], w => w
  | c :: cs, w => run diff O alloc cs (w.step diff O alloc c)

/-- The view is made and the model connects (`connect_model`, `treemodel.py:54-64`): it hears the signals of the view from
the beginning. -/
def start (O : GtkOrder) (alloc : Nat → Nat) (a : FApp V) : Screen V :=
  ⟨a, (TM.run O (heard alloc 0 a.ft.view.out) {}).state, a.ft.view.out.length⟩

end Screen

/-! ### Other widgets -/

/-- `dnd_external_targets` (`__init__.py:107`): from numbers to names and functions. -/
abbrev Targets (F : Type) := List (Nat × F)

namespace Targets

variable {F : Type}

/-- The smallest number from `i` on that is not used (`__init__.py:404-406`); one of the numbers up to the count of the
targets is free. -/
def free (ts : Targets F) : Nat → Nat → Nat
  | 0, i => i
  | n + 1, i => if ts.any (fun t => t.1 = i) then free ts n (i + 1) else i

/-- `set_dnd_external` (`__init__.py:402-408`). -/
def add (ts : Targets F) (f : F) : Targets F := ts ++ [(free ts ts.length 1, f)]

/-- `on_drag_data_received` for a drop from another widget (`info > 0`): the calls of the function, in order. A destination
that is `None` or empty is passed over (531, 547); an iterator that cannot be read raises here (534). The function is taken
to leave the rows of the source as they are. -/
def drop (ts : Targets F) (info : Nat) (src : TM) (data : List (Option Nat)) (dest : Id) : Res (List (F × Id × Id)) :=
  match ts.find? (fun t => t.1 = info) with
  | none => .ok []
  | some t =>
    if dest.falsy then .ok []
    else if data.any (fun a => a.isNone) then .err .valueError []
    else .ok ((data.filterMap id).map fun a => (t.2, (src.value a).getD .none, dest))

end Targets
end Larch
