import Verif.Spec.View
import Verif.Spec.TreeModel

/-!
# In which order siblings are announced
-/

namespace Larch
namespace Spec

/-- What an observer that puts every new row below its siblings sees directly below the row `r` (`[]` for the top), from
the top down. The newest row is the first of `rows`. -/
def seenBelow (rows : List (List Id)) (r : List Id) : List Id :=
  rows.reverse.filterMap fun l => if l.dropLast = r then l.getLast? else none

/-- The observer sees the children of every node in the order in which the view lists them. -/
structure SameOrder (ft : FT) (rows : List (List Id)) : Prop where
  top : ft.allChildren .none = .ok (seenBelow rows [])
  children : ∀ r x, r ++ [x] ∈ rows → x ≠ .none → ft.allChildren x = .ok (seenBelow rows (r ++ [x]))
  nthTop : ∀ n c, ft.nthChild ft.root n = .ok c ↔ (seenBelow rows [])[n]? = some c
  nth : ∀ r x n c, r ++ [x] ∈ rows → (ft.nthChild x n = .ok c ↔ (seenBelow rows (r ++ [x]))[n]? = some c)

/-- C77: the signals sent so far make sense, and an observer that appends new rows below their siblings has the rows of
the view, in the order of the view. -/
def OrderedObserver {V : Type} (a : FApp V) : Prop :=
  ∃ rows, replay a.ft.view.out [] = some rows ∧ (∀ l, l ∈ rows ↔ IsRow a.ft l) ∧ SameOrder a.ft rows

/-- The rows of the store that are directly below a row (`none` for the top), in the order of the store, which is the order on
the screen as long as no sort column is set (C60 is about sorting). -/
def storeBelow (store : List GRow) (p : Option Nat) : List Id :=
  (store.filter fun r => r.parent = p).map GRow.nid

/-- The store lists the children of every node in the order in which the view lists them, below each of its rows. -/
structure StoreOrder (ft : FT) (store : List GRow) : Prop where
  top : ft.allChildren .none = .ok (storeBelow store none)
  children : ∀ r ∈ store, r.nid ≠ .none → ft.allChildren r.nid = .ok (storeBelow store (some r.addr))

end Spec
end Larch
