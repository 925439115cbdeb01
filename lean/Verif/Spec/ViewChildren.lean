import Verif.Model.ViewTree
import Verif.Spec.View

/-! # What is claimed about walking through the children of a displayed node -/

namespace Larch
namespace Spec

/-- Calling `next_node(_, parent)` of a view again and again from `x` until it returns `None` passes through this list. -/
inductive ViewVisits (t : Tree) (v : VT) (parent : Id) : Id → List Id → Prop
  | last {x : Id} : v.nextNode t x parent = .ok none → ViewVisits t v parent x [x]
  | more {x y : Id} {l : List Id} : v.nextNode t x parent = .ok (some y) → ViewVisits t v parent y l →
      ViewVisits t v parent x (x :: l)

/-- All the ways to get at the children of `x` agree. -/
structure SameChildren (diff : List Id → List Id → List Id) {D : Type} (b : Bank D) (t : Tree) (d : D) (v : VT) (x : Id) (l : List Id) :
    Prop where
  all : v.allChildren t x = .ok l
  once : l.Nodup
  number : (v.nChildren diff b t d x false).1 = .ok l.length
  any : v.hasChild t x = .ok (decide (l ≠ []))
  nth : ∀ n, v.nthChild t x n = match l[n]? with | some c => .ok c | none => .error .valueError
  walk : ∀ c cs, l = c :: cs → ViewVisits t v x c l

end Spec
end Larch
