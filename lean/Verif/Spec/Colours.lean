import Verif.Model.Colours
import Verif.Spec.Cells

/-!
# What is claimed about the colours of the rows
-/

namespace Larch
namespace Spec

variable {N V W : Type}

/-- The brightness of a dark colour is less than one half. -/
def Dark (c : Rgb) : Prop := 2 * (2126 * c.red + 7152 * c.green + 722 * c.blue) < 10000 * 65535

instance (c : Rgb) : Decidable (Dark c) := inferInstanceAs (Decidable (_ < _))

/-- What the model hears and what is looked up in it. -/
def toModel : List (Canvas.Act N V W) → List (TM.Act × (Id → V))
  | [] => []
  | .tell c d :: h => (c, d) :: toModel h
  | .colour _ _ :: h => toModel h
  | .draw _ _ :: h => toModel h

/-- `set_bg_color` is called for columns on the screen. -/
def ColoursKnown [LinearOrder N] (w : Columns N (V → Option W)) (h : List (Canvas.Act N V W)) : Prop :=
  ∀ n f, Canvas.Act.colour n f ∈ h → ∃ k g, w.columns.get? n = some (k + 1, g) ∧ k < w.types.length ∧ g ∈ w.shown

/-- The values computed for the column with number `k + 1` of the row at the path `l` since the row appeared, with the function
that the column has at that moment. -/
def computed [LinearOrder N] (w : Columns N (V → Option W)) (k : Nat) (l : List Id) :
    List (Canvas.Act N V W) → (V → Option W) → List (Option W) → List (Option W)
  | [], _, vs => vs
  | .tell (.sig s _ _) d :: h, f, vs =>
    computed w k l h f (if s.path = l then
      match s.ev with
      | .added => [f (d s.nid)]
      | .modified => vs ++ [f (d s.nid)]
      | .deleted => vs
    else vs)
  | .tell (.lookup _) _ :: h, f, vs => computed w k l h f vs
  | .colour n g :: h, f, vs => computed w k l h (if (w.columns.get? n).map Prod.fst = some (k + 1) then g else f) vs
  | .draw _ _ :: h, f, vs => computed w k l h f vs

/-- A renderer that shows a row of the colour `w`: the background is that colour, and in a dark colour the text is white. -/
structure Shows (parse : W → Option Rgb) (white : W) (r : Renderer W) (w : Option W) : Prop where
  background : r.background = w
  light : r.text = true → (∀ c rgb, w = some c → parse c = some rgb → ¬ Dark rgb) → r.foreground = none
  dark : r.text = true → ∀ c rgb, w = some c → parse c = some rgb → Dark rgb → r.foreground = some white

end Spec
end Larch
