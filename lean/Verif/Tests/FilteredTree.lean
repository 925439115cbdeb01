import Verif.Tests.Harness

/-!
# `tests/test_filteredtree.py`
-/

namespace Larch.Tests

/-- `search_filter` (`tests/test_filteredtree.py:40-41`): the parameter 5 is the number of the node looked for. -/
def search : Func := fun _ _ x p => match p with
  | some d => d.other.any fun e => e.1 == 5 && decide (x = .str e.2)
  | none => false

/-- The numbers of deletions and additions since the signal number `start`. -/
def counters (w : World) (start : Nat) : Option (Nat × Nat) :=
  (ft? w 1).map fun ft => (((ft.view.out.drop start).filter fun s => s.ev == .deleted).length,
    ((ft.view.out.drop start).filter fun s => s.ev == .added).length)

/-- A call, after which the view has sent so many deletions and additions. -/
def sent (c : SuiteAct Paint) (d a : Nat) (w : World) : Bool :=
  match w.act order c with
  | .ok w' => decide (counters w' (((ft? w 1).map fun ft => ft.view.out.length).getD 0) = some (d, a))
  | .err _ _ => false

/-- `setUp` (`tests/test_filteredtree.py:28-38`): 1 is `apple`, 2 is `google`. -/
def start : List Line := [newView false, add (.str 1), add (.str 2)]

/-- `test_refresh_every_time_with_parameters` (`tests/test_filteredtree.py:46-69`). -/
example : play (Suite.init fun _ => []) (start ++ [filter (.plain 1) search, shown 1 (.str 1), shown 1 (.str 2),
    .ok (sent (.onView 1 (.apply (.plain 1) (some { other := [(5, 1)] }) false true)) 2 1),
    .act (.onView 1 (.apply (.plain 1) (some { other := [(5, 1)] }) false true)), shown 1 (.str 1), shown 1 (.str 2) false,
    .ok (sent (.onView 1 (.apply (.plain 1) (some { other := [(5, 2)] }) false true)) 1 1),
    .act (.onView 1 (.apply (.plain 1) (some { other := [(5, 2)] }) false true)), shown 1 (.str 1) false, shown 1 (.str 2)]) = true := by
  decide +kernel

/-- `test_refresh_only_with_new_filter` (`tests/test_filteredtree.py:71-86`). -/
example : play (Suite.init fun _ => []) (start ++ [filter (.plain 1) (fun _ _ _ _ => true),
    .ok (sent (.onView 1 (.apply (.plain 1) none false true)) 2 2), apply 1 (.plain 1),
    .ok (sent (.onView 1 (.apply (.plain 1) none false true)) 0 0)]) = true := by decide +kernel

end Larch.Tests
