import Verif.Model.Emit

/-!
# What may be dragged and dropped, and how the dragged rows travel

`set_dnd_name`, `set_dnd_external` and `__init_dnd` (`liblarch_gtk/__init__.py:393-444`), and the strings made by
`on_drag_data_get` (446-456) and read by `on_drag_data_received` (510-528), which `Model/DragDrop.lean` takes for the rows themselves.

What GTK does, and is taken from its documentation and source and not from `/repo`:

* `enable_model_drag_source` and `enable_model_drag_dest` replace the list of targets;
* the number of a drop (`info`) is that of the first target in the list that has the name (`gtk_target_list_find`);
* a function that is connected twice is called twice;
* `get_string_from_iter` gives the positions of the row and of the rows above it, and `get_iter_from_string` goes down along them, and
  raises `ValueError` if there is no such row.
-/

namespace Larch

/-- The part of the widget for drag and drop. -/
structure Dnd (S F : Type) where
  /-- `dnd_internal_target` (106); the empty string is `none` -/
  name : Option S := none
  /-- `dnd_external_targets` (107) -/
  externals : Targets (S × F) := []
  /-- the list that GTK has: name, whether for this widget only, number -/
  offered : List (S × Bool × Nat) := []
  /-- how often the two handlers are connected -/
  handlers : Nat := 0

/-- What the application calls. -/
inductive DndCall (S F : Type) where
  | name (s : Option S)
  | external (s : S) (f : F)

namespace Dnd

variable {S F : Type}

/-- `__init_dnd` (`__init__.py:410-444`). -/
def init (d : Dnd S F) : Res (Dnd S F) :=
  match d.name with
  | none => .err .inconsistent d
  | some s => .ok { d with offered := (s, true, 0) :: d.externals.map fun t => (t.2.1, false, t.1) }

/-- `set_dnd_name` (`__init__.py:393-400`) and `set_dnd_external` (402-408). -/
def call (d : Dnd S F) : DndCall S F → Res (Dnd S F)
  | .name s => (init { d with name := s }).andThen fun d => .ok { d with handlers := d.handlers + 1 }
  | .external s f => init { d with externals := d.externals.add (s, f) }

/-- Calls in a row; exceptions are caught by the application. -/
def run (cs : List (DndCall S F)) (d : Dnd S F) : Dnd S F := cs.foldl (fun d c => (d.call c).state) d

/-- The number with which GTK reports a drop under the name `s`. -/
def info [DecidableEq S] (d : Dnd S F) (s : S) : Option Nat := (d.offered.find? fun t => decide (t.1 = s)).map (·.2.2)

/-- The function for a drop with number `k` (`self.dnd_external_targets[info][1]`, 532). -/
def function (d : Dnd S F) (k : Nat) : Option F := (d.externals.find? fun t => decide (t.1 = k)).map (·.2.2)

end Dnd

namespace Screen

variable {V : Type}

/-- One call of `on_drag_data_received` (`__init__.py:458-544`) with `info = 0`: the strings are read with the rows of this moment; those that
cannot be read are passed over (519-528). -/
def dropText (diff : List Id → List Id → List Id) (O : GtkOrder) (alloc : Nat → Nat) (text : List (List Nat))
    (at_ : Option (Nat × DropPos)) (w : Screen V) : Screen V :=
  dropRows diff O alloc (destination w.tm at_) (text.filterMap fun p => Widget.descend O w.tm.rows none p) w

/-- What GTK does with a drop within the widget: each connected handler is called. -/
def received (diff : List Id → List Id → List Id) (O : GtkOrder) (alloc : Nat → Nat) (text : List (List Nat))
    (at_ : Option (Nat × DropPos)) : Nat → Screen V → Screen V
  | 0, w => w
  | n + 1, w => received diff O alloc text at_ n (w.dropText diff O alloc text at_)

end Screen
end Larch
