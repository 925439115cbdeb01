import Verif.Model.Base

/-!
# `is_compatible`

`liblarch/__init__.py:26-38`. Strings are lists of characters. Simplification: `int()` is modelled for ASCII input
(white space around, an optional sign, decimal digits with single underscores between them); Python also accepts
other Unicode digits and white space.
-/

namespace Larch
namespace Version

/-- `str.split(".")`. -/
def splitDot : List Char → List (List Char)
  | [] => [[]]
  | c :: cs =>
    match splitDot cs with
    | [] => [[c]]
    | l :: ls => if c = '.' then [] :: l :: ls else (c :: l) :: ls

/-- White space accepted around a number by `int()`. -/
def isSpace (c : Char) : Bool := c = ' ' || c = '\t' || c = '\n' || c = '\r' || c = '\x0b' || c = '\x0c'

/-- The value of a decimal digit. -/
def digit? (c : Char) : Option Nat := if '0' ≤ c ∧ c ≤ '9' then some (c.toNat - 48) else none

/-- Digits after the first; `v` is the value so far. An underscore must be followed by a digit. -/
def digits : Nat → List Char → Option Nat
  | v, [] => some v
  | v, '_' :: c :: cs => (digit? c).bind fun k => digits (10 * v + k) cs
  | v, c :: cs => (digit? c).bind fun k => digits (10 * v + k) cs

/-- An unsigned number: at least one digit. -/
def natOf : List Char → Option Nat
  | [] => none
  | c :: cs => (digit? c).bind fun k => digits k cs

/-- Remove white space on both sides. -/
def strip (l : List Char) : List Char := ((l.dropWhile isSpace).reverse.dropWhile isSpace).reverse

/-- `int(s)`; `none` is `ValueError`. -/
def intOf (l : List Char) : Option Int :=
  match strip l with
  | '-' :: cs => (natOf cs).map fun (n : Nat) => -(n : Int)
  | '+' :: cs => (natOf cs).map fun (n : Nat) => (n : Int)
  | cs => (natOf cs).map fun (n : Nat) => (n : Int)

/-- `[int(i) for i in s.split(".")]`. -/
def numbers (s : List Char) : Option (List Int) := (splitDot s).mapM intOf

/-- `API` (`__init__.py:32`). -/
def API : List Char := ['3', '.', '0']

/-- `is_compatible` (`__init__.py:35-38`); `none` is `ValueError`, raised by `int` or by unpacking a list that does not
have two elements. -/
def isCompatible (request : List Char) : Option Bool :=
  match numbers request with
  | some [major, minor] =>
    match numbers API with
    | some [ma, mi] => some (major = ma && minor ≤ mi)
    | _ => none
  | _ => none

end Version
end Larch
