import Verif.Model.Base

/-! # What is claimed about children by number -/

namespace Larch
namespace Spec

/-- `c` is number `i` in the list: counted from the front, beginning with 0, or from the back, beginning with -1. -/
def NumberIn (l : List Id) (i : Int) (c : Id) : Prop :=
  ∃ before after, l = before ++ c :: after ∧ (i = before.length ∨ i = -(after.length + 1 : Int))

/-- The answer is the element with this number. If there is none, because the number is too high or too low, it is an error. -/
structure Picks (l : List Id) (i : Int) (low : Err) (r : Except Err Id) : Prop where
  found : ∀ c, r = .ok c ↔ NumberIn l i c
  tooHigh : (l.length : Int) ≤ i → r = .error .valueError
  tooLow : i < -(l.length : Int) → r = .error low

end Spec
end Larch
