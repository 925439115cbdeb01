import Verif.Spec.Tree
import Mathlib.Data.List.Chain

/-! # What is claimed about reading the main tree -/

namespace Larch
namespace Spec

/-- `l` leads from a parentless node to `x`, each element being a child of the previous one. -/
structure IsPathTo (t : Tree) (l : List Id) (x : Id) : Prop where
  chain : l.IsChain (IsChild t)
  ends : l.getLast? = some x
  starts : ∀ y, l.head? = some y → t.has y = true ∧ ∀ p, ¬ IsParent t p y

/-- Calling `next_node(_, parent)` again and again from `x` until it returns `None` passes through this list. -/
inductive Visits (t : Tree) (parent : Id) : Id → List Id → Prop
  | last {x : Id} : t.nextNode x parent = .ok none → Visits t parent x [x]
  | more {x y : Id} {l : List Id} : t.nextNode x parent = .ok (some y) → Visits t parent y l →
      Visits t parent x (x :: l)

end Spec
end Larch
