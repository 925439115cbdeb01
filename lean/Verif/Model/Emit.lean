import Verif.Model.Collapse

/-!
# The signals `node-expanded` and `node-collapsed`

`TreeView.__emit` (`liblarch_gtk/__init__.py:200-214`), connected to `row-expanded` and `row-collapsed` (196-197).

What GTK does, and is taken from its documentation and source and not from `/repo`:

* a `Gtk.TreePath` is a list of positions; `get_iter` goes down from the top, and raises if there is no such row;
* `expand_row` emits `row-expanded` for every row that it expands, and `collapse_row` emits `row-collapsed` for the row itself,
  if it was expanded; nothing is emitted when rows are removed or when a row loses its last child.

Simplifications: those of `Model/Collapse.lean`; `__emit` gets a path and works on the store as it is at that moment. With
`open_all`, the order of the signals is not modelled.
-/

namespace Larch
namespace Widget

open TM

variable {V : Type}

/-- `get_iter(path)`, as long as the path leads somewhere. -/
def descend (O : GtkOrder) (rows : List GRow) : Option Nat → List Nat → Option Nat
  | p, [] => p
  | p, i :: l =>
    match O.nth rows p i with
    | none => none
    | some a => descend O rows (some a) l

/-- The loop of `__emit` (`__init__.py:205-210`): the ids of the rows at the beginnings of the path, from `path[:i]` on. -/
def llPath (O : GtkOrder) (m : TM) (path : List Nat) : List Nat → List Id → Except Err (List Id)
  | [], ll => .ok ll
  | i :: is, ll =>
    match descend O m.rows none (path.take i) with
    | none => .error .valueError
    | some a => llPath O m path is (ll ++ [(m.value a).getD .none])

/-- `__emit` (`__init__.py:200-214`): the path that is sent with the signal. -/
def emit (O : GtkOrder) (m : TM) (path : List Nat) : Except Err (List Id) := llPath O m path (List.range' 1 path.length) []

/-- What GTK reports when a row is folded by hand or by `collapsing_method`. -/
def reports (rows : List GRow) (opened : List Nat) (f : Fold) (a : Nat) : List (Fold × Nat) :=
  match f with
  | .collapse => if opened.contains a then [(.collapse, a)] else []
  | .expand => if hasKids rows a && inSight rows opened a && !opened.contains a then [(.expand, a)] else []

/-- What is reported when the user clicks. -/
def clickReports (w : Widget V) (f : Fold) (a : Nat) : List (Fold × Nat) := reports w.scr.tm.rows w.opened f a

/-- What is reported while `collapse_node` or `expand_node` goes through the paths (`__init__.py:252-262`). -/
def pathReports (O : GtkOrder) (f : Fold) (x : Id) : List (List Id) → Widget V → List (Fold × Nat)
  | [], _ => []
  | path :: ps, w =>
    let (it, m) := w.scr.tm.getIter O path
    let w := { w with scr := { w.scr with tm := m } }
    match it with
    | none => pathReports O f x ps w
    | some a =>
      if m.value a = some x then
        reports m.rows w.opened f a ++
          pathReports O f x ps { w with opened := method m.rows f w.opened a, memory := w.memory ++ [path] }
      else pathReports O f x ps w

/-- What is reported by `collapse_node` and `expand_node`. -/
def foldReports (O : GtkOrder) (f : Fold) (x : Id) (w : Widget V) : List (Fold × Nat) :=
  if x.falsy then []
  else
    match w.scr.app.ft.pathsFor x with
    | .error _ => []
    | .ok ps => pathReports O f x ps w

/-- What `on_child_toggled` (216-228) makes GTK report: the rows it expands. -/
def toggleReports (memory : List (List Id)) (m : TM) (opened : List Nat) (a : Nat) : List Nat :=
  (toggled memory m opened a).drop opened.length

/-- What is reported while the model hears something, with the store as it is then. -/
def hearReports (O : GtkOrder) (memory : List (List Id)) (c : TM.Act) (m : TM) (opened : List Nat) : List (TM × Nat) :=
  let m' := (m.act O c).state
  match c with
  | .lookup _ => []
  | .sig s a _ =>
    match s.ev with
    | .modified => []
    | .added =>
      match parentOf m'.rows a with
      | none => []
      | some p => if (m'.rows.filter (fun r => r.parent = some p)).length = 1 then (toggleReports memory m' opened p).map (m', ·) else []
    | .deleted =>
      match (m.getIter O s.path).1 with
      | none => []
      | some b =>
        let opened := opened.filter (fun c => m'.rows.any (fun r => r.addr = c))
        match parentOf m.rows b with
        | none => []
        | some p => if hasKids m'.rows p then [] else (toggleReports memory m' (opened.filter (· ≠ p)) p).map (m', ·)

/-- A series of signals, ended by the first exception. -/
def hearAllReports (O : GtkOrder) (memory : List (List Id)) : List TM.Act → TM → List Nat → List (TM × Nat)
  | [], _, _ => []
  | c :: cs, m, opened =>
    match m.act O c with
    | .ok m' => hearReports O memory c m opened ++ hearAllReports O memory cs m' (hear O memory c m opened)
    | .err _ _ => []

/-- What is reported while the application acts; all of it is `row-expanded`. -/
def actReports (diff : List Id → List Id → List Id) (O : GtkOrder) (alloc : Nat → Nat) (c : FAct V) (w : Widget V) : List (TM × Nat) :=
  let scr := w.scr.act diff O alloc c
  hearAllReports O w.memory (Screen.heard alloc w.scr.clock (scr.app.ft.view.out.drop w.scr.app.ft.view.out.length)) w.scr.tm w.opened

end Widget
end Larch
