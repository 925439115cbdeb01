import Verif.Model.Emit

/-!
# Selected rows and separators

`get_selected_nodes`, `set_multiple_selection` (`liblarch_gtk/__init__.py:574-603`), `set_row_separator_func` and `_separator_func` (552-571).

What GTK does, and is taken from its documentation and source and not from `/repo`:

* rows are selected, not positions: a selected row stays selected while others come and go, and is not selected any more when it is removed;
* with the mode `SINGLE` at most one row is selected; when this mode is set, at most one of the selected rows stays selected;
* rows that disappear because a row above them is closed are not selected any more;
* `get_selected_rows` gives the paths of the selected rows, and `count_selected_rows` their number.

Simplifications: a drop is taken as its moves (`Screen.dropRows`), each an action of the application. When GTK takes rows out of the selection for reasons of its own,
this is an action of its own.
-/

namespace Larch

/-- The screen with the selected rows. -/
structure Picker (V : Type) where
  scr : Screen V
  picked : List Nat := []
  /-- whether the mode is `MULTIPLE` -/
  many : Bool := false

inductive PAct (V : Type) where
  | app (c : FAct V)
  | look (path : List Id)
  /-- the row at an address is selected, with the others in the mode `MULTIPLE` -/
  | pick (a : Nat)
  /-- rows are taken out of the selection -/
  | lose (l : List Nat)
  /-- `set_multiple_selection`, with the row that may stay selected -/
  | mode (many : Bool) (stays : Nat)

namespace Picker

variable {V : Type}

/-- What is left of the selection. -/
def stillThere (rows : List GRow) (l : List Nat) : List Nat := l.filter fun a => rows.any fun r => decide (r.addr = a)

/-- The selection while the model hears something. -/
def hear (O : GtkOrder) : List TM.Act → TM → List Nat → List Nat
  | [], _, l => l
  | c :: cs, m, l =>
    match m.act O c with
    | .ok m' => hear O cs m' (stillThere m'.rows l)
    | .err _ m' => stillThere m'.rows l

def act (diff : List Id → List Id → List Id) (O : GtkOrder) (alloc : Nat → Nat) (c : FAct V) (w : Picker V) : Picker V :=
  let scr := w.scr.act diff O alloc c
  { w with
    scr := scr
    picked := hear O (Screen.heard alloc w.scr.clock (scr.app.ft.view.out.drop w.scr.app.ft.view.out.length)) w.scr.tm w.picked }

/-- One thing happens; `set_multiple_selection` is at 590-603. -/
def step (diff : List Id → List Id → List Id) (O : GtkOrder) (alloc : Nat → Nat) (w : Picker V) : PAct V → Picker V
  | .app c => w.act diff O alloc c
  | .look path => { w with scr := w.scr.step diff O alloc (.look path) }
  | .pick a =>
    if w.scr.tm.rows.any fun r => decide (r.addr = a) then
      { w with picked := if w.many then (if w.picked.contains a then w.picked else w.picked ++ [a]) else [a] }
    else w
  | .lose l => { w with picked := w.picked.filter fun a => !l.contains a }
  | .mode b stays => { w with many := b, picked := if b then w.picked else w.picked.filter fun a => decide (a = stays) }

def run (diff : List Id → List Id → List Id) (O : GtkOrder) (alloc : Nat → Nat) (cs : List (PAct V)) (w : Picker V) : Picker V :=
  cs.foldl (fun w c => w.step diff O alloc c) w

/-- The loop of `get_selected_nodes` (584-587). -/
def nodesAt (O : GtkOrder) (m : TM) : List (List Nat) → Except Err (List Id)
  | [] => .ok []
  | p :: l =>
    match Widget.descend O m.rows none p with
    | none => .error .valueError
    | some a =>
      match nodesAt O m l with
      | .error e => .error e
      | .ok ids => .ok ((m.value a).getD .none :: ids)

/-- `get_selected_nodes` (`__init__.py:574-588`), with the paths that GTK gives. -/
def selectedNodes (O : GtkOrder) (w : Picker V) (paths : List (List Nat)) : Except Err (List Id) :=
  if w.picked.length = 0 then .ok [] else nodesAt O w.scr.tm paths

end Picker

/-- `_separator_func` (`__init__.py:552-562`) while the main tree is `t` and `f` is the function of the application. -/
def TM.separator (t : Tree) (m : TM) (f : Option (Node → Bool)) (a : Nat) : Except Err Bool :=
  match m.value a with
  | none => .ok false
  | some x =>
    match t.getNode x with
    | .error e => .error e
    | .ok n =>
      match f with
      | some f => .ok (f n)
      | none => .ok false

end Larch
