import Verif.Model.DragDrop

/-!
# Open and closed rows in the GTK tree view

`TreeView` (`liblarch_gtk/__init__.py`): which rows show their children, and how the widget remembers the nodes that were
collapsed.

What GTK does, and is taken from its documentation and source and not from `/repo`:

* a `Gtk.TreeView` keeps a tree of its own with the rows that can be seen: those at the top, and those below an expanded row
  (`gtk_tree_view_row_inserted`); a row outside that tree is not expanded;
* `expand_row` does nothing for a row without children or outside that tree; with `open_all` it expands everything below too;
* `collapse_row` throws the part of that tree below the row away, so nothing below is expanded afterwards;
* a row that loses its last child is no longer expanded (`gtk_tree_view_row_deleted`);
* the store emits `row-has-child-toggled` for the parent when its first child has been inserted and when its last child has
  been removed;
* sorting and changing values leave the rows expanded as they are.

Simplifications: those of `Model/DragDrop.lean`. Ids do not begin or end with `'` (248). A node that is to be collapsed when it
appears: the function runs inside the view, before the store has the row; it finds no row and asks again, and this time it is
left to the main loop (`filteredtree.py:89-91`). Here it is handed to the main loop at once; for a node that appears below two
displayed parents the function raises instead (`C52_refuted_two_parents`), and that is left out. The signals that the widget
emits itself (`__emit`, 200-214) are in `Model/Emit.lean`.
-/

namespace Larch

/-- `collapse_node` with its default, and `expand_node`. -/
inductive Fold where
  | collapse
  | expand
deriving DecidableEq, Repr

/-- The widget: the screen, the addresses of the expanded rows, `collapsed_paths` (`__init__.py:195`), what waits for a node
to appear (`queue_action`), and what waits for the main loop (`idle_add`). -/
structure Widget (V : Type) where
  scr : Screen V
  opened : List Nat := []
  memory : List (List Id) := []
  pending : List (Id × Fold) := []
  idle : List (Id × Fold) := []

/-- What happens: the application acts, somebody looks up a path in the model, `collapse_node` or `expand_node` is called, the
main loop runs the next waiting function, the user clicks on the expander of a row, or the user drops the selected rows. -/
inductive WAct (V : Type) where
  | app (c : FAct V)
  | look (path : List Id)
  | fold (f : Fold) (x : Id)
  | idle
  | click (f : Fold) (a : Nat)
  | drop (selected : List Nat) (at_ : Option (Nat × DropPos))

namespace Widget

open TM

variable {V : Type}

/-- `iter_has_child`. -/
def hasKids (rows : List GRow) (a : Nat) : Bool := rows.any (fun r => r.parent = some a)

/-- `iter_parent`; `none` for rows at the top. -/
def parentOf (rows : List GRow) (a : Nat) : Option Nat := (rows.find? (fun r => r.addr = a)).bind GRow.parent

/-- Is the row in the tree of rows that can be seen? -/
def inSight (rows : List GRow) (opened : List Nat) (a : Nat) : Bool :=
  rows.any (fun r => r.addr = a) && (parentOf rows a).all (opened.contains ·)

/-- `Gtk.TreeView.expand_row(path, open_all)`. -/
def expandRow (rows : List GRow) (all : Bool) (opened : List Nat) (a : Nat) : List Nat :=
  if hasKids rows a && inSight rows opened a then
    opened ++ (if all then (subtree rows a rows.length).filter (hasKids rows) else [a])
  else opened

/-- `Gtk.TreeView.collapse_row(path)`. -/
def collapseRow (rows : List GRow) (opened : List Nat) (a : Nat) : List Nat :=
  opened.filter (fun b => !(subtree rows a rows.length).contains b)

/-- `on_child_toggled` (`__init__.py:216-228`). The loop looks at the row and the rows above it, but `nid` is that of the row
itself all the time (220). -/
def toggled (memory : List (List Id)) (m : TM) (opened : List Nat) (a : Nat) : List Nat :=
  let collapsed := memory.any (fun c => c.getLast? = m.value a)
  if !opened.contains a && !collapsed then expandRow m.rows true opened a else opened

/-- The model hears something, and GTK tells the widget. -/
def hear (O : GtkOrder) (memory : List (List Id)) (c : TM.Act) (m : TM) (opened : List Nat) : List Nat :=
  let m' := (m.act O c).state
  match c with
  | .lookup _ => opened
  | .sig s a _ =>
    match s.ev with
    | .modified => opened
    | .added =>
      match parentOf m'.rows a with
      | none => opened
      | some p => if (m'.rows.filter (fun r => r.parent = some p)).length = 1 then toggled memory m' opened p else opened
    | .deleted =>
      match (m.getIter O s.path).1 with
      | none => opened
      | some b =>
        let opened := opened.filter (fun c => m'.rows.any (fun r => r.addr = c))
        match parentOf m.rows b with
        | none => opened
        | some p => if hasKids m'.rows p then opened else toggled memory m' (opened.filter (· ≠ p)) p

/-- A series of signals, ended by the first exception. -/
def hearAll (O : GtkOrder) (memory : List (List Id)) : List TM.Act → TM → List Nat → List Nat
  | [], _, opened => opened
  | c :: cs, m, opened =>
    match m.act O c with
    | .ok m' => hearAll O memory cs m' (hear O memory c m opened)
    | .err _ _ => opened

/-- The application acts. What waits for a node runs when the node is announced (`filteredtree.py:114-118`). -/
def act (diff : List Id → List Id → List Id) (O : GtkOrder) (alloc : Nat → Nat) (c : FAct V) (w : Widget V) : Widget V :=
  let scr := w.scr.act diff O alloc c
  let sigs := scr.app.ft.view.out.drop w.scr.app.ft.view.out.length
  let announced := fun p : Id × Fold => sigs.any (fun s => decide (s.ev = .added) && decide (s.nid = p.1))
  { w with
    scr := scr
    opened := hearAll O w.memory (Screen.heard alloc w.scr.clock sigs) w.scr.tm w.opened
    pending := w.pending.filter (fun p => !announced p)
    idle := w.idle ++ w.pending.filter announced }

/-- `collapsing_method` (`__init__.py:245-246`, 230-236). -/
def method (rows : List GRow) : Fold → List Nat → Nat → List Nat
  | .collapse => collapseRow rows
  | .expand => expandRow rows false

/-- The loop over the paths (`__init__.py:252-262`); the answer says whether `schedule_next` is false now. -/
def foldPaths (O : GtkOrder) (f : Fold) (x : Id) : List (List Id) → Widget V → Widget V × Bool
  | [], w => (w, false)
  | path :: ps, w =>
    let (it, m) := w.scr.tm.getIter O path
    let w := { w with scr := { w.scr with tm := m } }
    match it with
    | none => foldPaths O f x ps w
    | some a =>
      if m.value a = some x then
        ((foldPaths O f x ps { w with opened := method m.rows f w.opened a, memory := w.memory ++ [path] }).1, true)
      else foldPaths O f x ps w

/-- `collapse_node` (`__init__.py:238-267`) and `expand_node` (230-232): the paths are remembered for both. An empty id raises
(249), and then nothing happens. -/
def fold (O : GtkOrder) (f : Fold) (x : Id) (w : Widget V) : Widget V :=
  if x.falsy then w
  else
    match w.scr.app.ft.pathsFor x with
    | .error _ => w
    | .ok ps =>
      let (w, found) := foldPaths O f x ps w
      if found then w
      else if w.scr.app.ft.view.has x then { w with idle := w.idle ++ [(x, f)] }
      else { w with pending := w.pending ++ [(x, f)] }

/-- The loop of a drop (`__init__.py:536-544`), as in `Screen.dropRows`. -/
def dropRows (diff : List Id → List Id → List Id) (O : GtkOrder) (alloc : Nat → Nat) (dest : Id) : List Nat → Widget V → Widget V
  | [], w => w
  | a :: l, w =>
    match w.scr.tm.value a with
    | none => dropRows diff O alloc dest l w
    | some x => dropRows diff O alloc dest l (w.act diff O alloc (.edit (.moveNode x dest)))

/-- `on_drag_data_received` (`__init__.py:458-544`), as in `Screen.drop`. -/
def drop (diff : List Id → List Id → List Id) (O : GtkOrder) (alloc : Nat → Nat) (selected : List Nat)
    (at_ : Option (Nat × DropPos)) (w : Widget V) : Widget V :=
  dropRows diff O alloc (Screen.destination w.scr.tm at_) ((Screen.wire selected).filterMap id) w

def step (diff : List Id → List Id → List Id) (O : GtkOrder) (alloc : Nat → Nat) (w : Widget V) : WAct V → Widget V
  | .app c => w.act diff O alloc c
  | .look path => { w with scr := w.scr.step diff O alloc (.look path) }
  | .fold f x => w.fold O f x
  | .idle =>
    match w.idle with
    | [] => w
    | (x, f) :: l => ({ w with idle := l }).fold O f x
  | .click f a => { w with opened := method w.scr.tm.rows f w.opened a }
  | .drop selected at_ => w.drop diff O alloc selected at_

def run (diff : List Id → List Id → List Id) (O : GtkOrder) (alloc : Nat → Nat) : List (WAct V) → Widget V → Widget V
  | [], w => w
  | c :: cs, w => run diff O alloc cs (w.step diff O alloc c)

/-- The widget is made (`__init__.py:190-198`): `expand_all` while the model is empty, then the model hears what the view shows,
and `row-has-child-toggled` is connected last. -/
def start (O : GtkOrder) (alloc : Nat → Nat) (a : FApp V) : Widget V := { scr := Screen.start O alloc a }

end Widget
end Larch
