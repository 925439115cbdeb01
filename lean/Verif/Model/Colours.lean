import Verif.Model.Cells
import Verif.Model.Columns

/-!
# The colours of the rows

`brightness`, `set_bg_color` and `_celldatafunction` (`liblarch_gtk/__init__.py:37-49,326-348,366-390`), and
`set_column_function` (`liblarch_gtk/treemodel.py:41-52`).

GTK draws all rows with the same few cell renderers. To draw a row it sets the properties of the renderer from the model and then
calls `_celldatafunction`, which sets the colours. What the function raises is printed and forgotten, and the cell is drawn with
the properties as they are.

Simplifications: the brightness is computed exactly and not with floating-point numbers; it is kept multiplied by
10000 · 65535. `Gdk.color_parse` answers `None` for what is not a colour, so that reading a channel raises. The values of all
columns are of one type `W`; those of the colour column are texts. The lists `desc['value']` of two columns, or of two widgets,
are not the same object. The default colour that `set_bg_color` hands to the function is part of the function here.
-/

namespace Larch

/-- The channels of a colour, from 0 to 65535. -/
structure Rgb where
  red : Nat
  green : Nat
  blue : Nat

/-- A cell renderer; `foreground` is `none` if `foreground-set` is false, `background` likewise. -/
structure Renderer (W : Type) where
  text : Bool
  foreground : Option W := none
  background : Option W := none

/-- The widget, as far as colours go. -/
structure Canvas (N V W : Type) where
  model : CModel W := {}
  cols : Columns N (V → Option W)
  /-- `bg_color_column` -/
  bg : Option Nat := none
  /-- `BRITGHTNESS_CACHE` -/
  cache : KV W Nat := []
  cells : Nat → Renderer W

/-- What happens: the model hears a signal or somebody looks up a path, `set_bg_color` is called, or a row is drawn with a
renderer. -/
inductive Canvas.Act (N V W : Type) where
  | tell (c : TM.Act) (d : Id → V)
  | colour (n : N) (f : V → Option W)
  | draw (cell : Nat) (row : Option Nat)

namespace Canvas

variable {N V W : Type} [LinearOrder N] [DecidableEq W]

/-- `brightness` (`__init__.py:37-49`). -/
def brightness (parse : W → Option Rgb) (cache : KV W Nat) (w : W) : Except Err (Nat × KV W Nat) :=
  match cache.get? w with
  | some b => .ok (b, cache)
  | none =>
    match parse w with
    | none => .error .attributeError
    | some c =>
      let b := 2126 * c.red + 7152 * c.green + 722 * c.blue
      .ok (b, cache.set w b)

/-- The colour of the row at an address, `model.get_value(myiter, self.bg_color_column)`. -/
def colourAt (m : CModel W) (num : Nat) (a : Nat) : Option W := ((m.cells a)[num - 1]?).getD none

/-- The colour for a cell (`__init__.py:377-380`): none if the iterator is not valid. -/
def lookedUp (c : Canvas N V W) (num : Nat) (row : Option Nat) : Option W :=
  match row with
  | some a => if c.model.tm.rows.any (fun r => r.addr = a) then colourAt c.model num a else none
  | none => none

/-- `_celldatafunction` (`__init__.py:366-390`); `white` is `'#FFFFFF'`. -/
def cellData (parse : W → Option Rgb) (white : W) (i : Nat) (row : Option Nat) (c : Canvas N V W) : Res (Canvas N V W) :=
  match c.bg with
  | none => .ok c
  | some num =>
    let color := c.lookedUp num row
    let put := fun (c : Canvas N V W) (r : Renderer W) => { c with cells := fun j => if j = i then r else c.cells j }
    let r := c.cells i
    -- 382-390
    if r.text then
      match color with
      | none => .ok (put c { r with foreground := none, background := color })
      | some w =>
        match brightness parse c.cache w with
        | .error e => .err e c
        | .ok (b, cache) =>
          .ok (put { c with cache := cache } { r with foreground := if 2 * b < 10000 * 65535 then some white else none, background := color })
    else .ok (put c { r with background := color })

/-- `set_bg_color` (`__init__.py:326-348`). A column that is not on the screen has no tree view (338). -/
def setBgColor (n : N) (f : V → Option W) (c : Canvas N V W) : Res (Canvas N V W) :=
  match c.cols.columns.get? n with
  | none => .err .valueError c
  | some (num, g) =>
    let c := { c with bg := some num }
    if g ∈ c.cols.shown then .ok { c with cols := (c.cols.setFunction num f).1 } else .err .attributeError c

def act (O : GtkOrder) (parse : W → Option Rgb) (white : W) (c : Canvas N V W) : Act N V W → Res (Canvas N V W)
  | .tell s d =>
    match c.model.act O c.cols.types d s with
    | .ok m => .ok { c with model := m }
    | .err e m => .err e { c with model := m }
  | .colour n f => c.setBgColor n f
  | .draw i row => .ok (c.cellData parse white i row).state

def run (O : GtkOrder) (parse : W → Option Rgb) (white : W) : List (Act N V W) → Canvas N V W → Res (Canvas N V W)
  | [], c => .ok c
  | x :: h, c => (c.act O parse white x).andThen (run O parse white h)

end Canvas
end Larch
