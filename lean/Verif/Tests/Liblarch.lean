import Verif.Tests.Nodes

/-!
# `tests/test_liblarch.py`, first half

Left out: `test_assertSignal` (about GObject), `test_view_signals` (asserts nothing), `test_speed` and
`test_performance_of_filter_counting` (about time), `test_crash_when_collapsing_future_nodes` and
`test_crash_when_expanding_future_nodes` (about the types of arguments of GTK).
-/

namespace Larch.Tests

/-- `test_get_node` (`tests/test_liblarch.py:252-263`). -/
example : passes [newView, atPath 2 [] none, .ok fun w => w.s.t.has (n 14), .ok fun w => !w.s.t.has (n 15)] = true := by decide +kernel

/-- `test_add_remove_node` (`tests/test_liblarch.py:265-299`). -/
example : passes [newView, paint temp [.blue],
    .sends 1 .added [n 0, temp] (.edit (.addNode (.new temp .none) (n 0))),
    count 2 16, count 2 6 [blue], count 1 16, count 1 6 [blue],
    del temp, count 2 15, count 2 5 [blue], count 1 15, count 1 5 [blue], valid 1] = true := by decide +kernel

/-- The second signal of the same call. -/
example : passes [newView, paint temp [.blue], .sends 1 .modified [n 0] (.edit (.addNode (.new temp .none) (n 0)))] = true := by decide +kernel

/-- `test_modifying_node` (`tests/test_liblarch.py:301-328`). -/
example : passes [newView false, apply 2 blue, newView false, apply 3 red, paint temp [.blue],
    .sends 1 .modified [n 0] (.edit (.addNode (.new temp .none) (n 0))),
    shown 2 temp, shown 3 temp false, paint temp [.blue, .red], shown 2 temp, shown 3 temp,
    paint temp [.red], shown 2 temp false, shown 3 temp, valid 2, valid 3] = true := by decide +kernel

/-- `test_removing_parent` (`tests/test_liblarch.py:330-347`). -/
example : passes [newView, paint temp [.blue], add temp (n 0), inAll 1 (n 0), inAll 1 temp,
    .sendsMany 1 .deleted 1 (.edit (.delNode (n 0) false)), inAll 1 (n 0) false, inAll 1 temp] = true := by decide +kernel

/-- `test_adding_to_late_parent` (`tests/test_liblarch.py:349-365`). -/
example : passes [newView, add kid futur, inAll 2 kid, inAll 2 futur false, parents 2 kid [], add futur, inAll 2 kid, inAll 2 futur,
    parent 2 kid futur] = true := by decide +kernel

/-- `test_adding_to_late_parent2` (`tests/test_liblarch.py:368-381`). -/
example : passes [newView, add kid, parents 2 kid [], addParent kid futur, refresh kid, parents 2 kid [], paths 2 kid [[kid]],
    add futur, parent 2 kid futur] = true := by decide +kernel

/-- `test_adding_to_late_parent3` (`tests/test_liblarch.py:383-398`). -/
example : passes [newView, apply 2 red, paint kid [.red], add kid, paint (n 0) [], addParent kid (n 0), refresh kid, parents 2 kid [],
    paths 2 kid [[kid]], paint (n 0) [.red], parent 2 kid (n 0)] = true := by decide +kernel

/-- `test_adding_self_parent` (`tests/test_liblarch.py:400-412`). -/
example : passes [newView, addParent (n 0) (n 0), treeParents (n 0) [], treeChildren (n 0) [],
    setParent (n 0) (n 0), treeParents (n 0) [], treeChildren (n 0) [], addChild (n 0) (n 0), treeParents (n 0) [], treeChildren (n 0) []]
    = true := by decide +kernel

/-- `test_multiple_children` (`tests/test_liblarch.py:414-435`). -/
example : passes [newView, add kid (n 0), add kid2 (n 0), nKids 2 (n 0) 2, next 2 kid (some kid2), paths 2 (n 0) [[n 0]],
    paths 2 kid [[n 0, kid]], paths 2 kid2 [[n 0, kid2]]] = true := by decide +kernel

/-- `test_counting_children` (`tests/test_liblarch.py:437-478`). -/
example : passes [newView, paint (n 0) [.red, .blue], paint kid [.blue], nKids 2 (n 0) 0, add kid (n 0), nKids 2 (n 0) 1,
    add kid2 (n 0), nKids 2 (n 0) 2, nKids 2 (n 0) 2 true, paint kid3 [.blue], add kid3 kid, nKids 2 (n 0) 2, nKids 2 (n 0) 3 true,
    add kid4 kid3, nKids 2 (n 0) 2, nKids 2 (n 0) 4 true, nKids 2 kid 1, nKids 2 kid 2 true,
    apply 2 blue, nKids 2 (n 0) 1, nKids 2 (n 0) 2 true, nKids 2 kid 1, nKids 2 kid 1 true,
    add kid5 kid2, del kid4, nKids 2 (n 0) 1, paint kid2 [.blue], nKids 2 (n 0) 3 true,
    unapply 2 blue, nKids 2 (n 0) 2, nKids 2 (n 0) 4 true, del kid3, nKids 2 (n 0) 2, nKids 2 (n 0) 3 true] = true := by decide +kernel

/-- `test_clean_multiple_parents` (`tests/test_liblarch.py:480-489`). -/
example : passes [newView, add kid (n 0), add kid2 kid, addParent kid (n 1), addParent kid2 (n 1), parents 2 kid [n 0, n 1],
    apply 2 blue] = true := by decide +kernel

/-- `test_adding_to_late_parent_with_leaf_filter` (`tests/test_liblarch.py:491-511`). -/
example : passes [newView, add kid futur, inAll 2 kid, inAll 2 futur false, parents 2 kid [], apply 2 leaves, add futur,
    inAll 2 kid, inAll 2 futur false, parent 2 kid futur false, reset 2, shown 2 futur, parent 2 kid futur] = true := by decide +kernel

/-- `test_updating_parent` (`tests/test_liblarch.py:513-534`). -/
example : passes [paint kid [.red], add kid (n 0), newView false, apply 2 red, parents 2 kid [n 0], paths 2 (n 0) [[n 0]],
    paths 2 kid [[n 0, kid]], paint (n 0) [.red, .blue], parents 2 kid [n 0], paths 2 kid [[n 0, kid]],
    paint (n 0) [.blue], parents 2 kid [], paths 2 kid [[kid]], paint (n 0) [.blue, .red], paths 2 (n 0) [[n 0]],
    parents 2 kid [n 0], paths 2 kid [[n 0, kid]]] = true := by decide +kernel

/-- `test_addchild_with_late_parent` (`tests/test_liblarch.py:536-579`) without the callbacks. -/
example : passes [newView, add kid, add kid2, inAll 2 kid, inAll 2 kid2, inAll 2 futur false, parents 2 kid [], parents 2 kid2 [],
    apply 2 leaves, addNode (withChildren futur [kid, kid2]), inAll 2 kid, inAll 2 kid2, inAll 2 futur false,
    parent 2 kid futur false, parent 2 kid2 futur false, reset 2, shown 2 futur, parent 2 kid futur, parent 2 kid2 futur]
    = true := by decide +kernel

/-- `test_addparent_with_late_child` (`tests/test_liblarch.py:581-601`). -/
example : passes [newView, addNode (withChildren par [futur]), inAll 2 par, inAll 2 futur false, nKids 2 par 0,
    apply 2 leaves, add futur, inAll 2 futur, inAll 2 par false, parent 2 futur par false, reset 2, shown 2 par, child 2 par futur]
    = true := by decide +kernel

/-- `test_more_late_child` (`tests/test_liblarch.py:603-624`). -/
example : passes [newView, addNode (withChildren par [.str 31, .str 32, .str 33, .str 34]), add (.str 31), add (.str 33), add (.str 34),
    nKids 2 par 3, add (.str 32), nKids 2 par 4] = true := by decide +kernel

/-- `test_late_first_child` (`tests/test_liblarch.py:626-648`). -/
example : passes [newView, addNode (withChildren par [.str 31, .str 32]), addNode (withChildren (.str 32) [.str 31]), nKids 2 par 1,
    nKids 2 (.str 32) 0, shown 2 (.str 31) false, add (.str 31), nKids 2 par 2, nKids 2 (.str 32) 1, shown 2 (.str 31)]
    = true := by decide +kernel

/-- `test_move_node_to_a_multiple_parent` (`tests/test_liblarch.py:650-662`). -/
example : passes [newView, addParent (n 13) (n 9), addParent (n 13) (n 10), del (n 3), .ok fun w => !w.s.t.has (n 3), add (n 3) (n 13),
    nPaths 2 (n 3) 3, del (n 3), move (n 4) (n 13), nPaths 2 (n 4) 3] = true := by decide +kernel

/-- `test_recursive_removing_parent` (`tests/test_liblarch.py:664-684`). -/
example : passes [newView, paint temp [.blue], add temp (n 0), inAll 1 (n 0), inAll 1 temp,
    .sends 1 .deleted [n 0, temp] (.edit (.delNode (n 0) true)), inAll 1 (n 0) false, inAll 1 temp false] = true := by decide +kernel

/-- `test_move_node` (`tests/test_liblarch.py:686-716`). -/
example : passes [newView, paint temp [.blue], add temp (n 0), hasKid 2 (n 0), child 2 (n 0) temp, child 2 (n 1) temp false,
    .sendsMany 1 .modified 2 (.edit (.moveNode temp (n 1))), hasKid 2 (n 1), child 2 (n 1) temp, child 2 (n 0) temp false,
    move temp, child 2 (n 1) temp false, child 2 (n 0) temp false, inAll 0 temp, parents 0 temp []] = true := by decide +kernel

/-- The signal for the new parent. -/
example : passes [newView, add temp (n 0), .sends 1 .modified [n 1] (.edit (.moveNode temp (n 1)))] = true := by decide +kernel

/-- `test_add_parent` (`tests/test_liblarch.py:718-744`). -/
example : passes [newView, paint temp [.blue], .sends 1 .modified [n 0] (.edit (.addNode (.new temp .none) (n 0))), hasKid 2 (n 0),
    child 2 (n 0) temp, child 2 (n 1) temp false, .sends 1 .modified [n 1] (.edit (.addParent temp (n 1))), hasKid 2 (n 1),
    child 2 (n 1) temp, child 2 (n 0) temp] = true := by decide +kernel

/-- `test_cyclic_paradox` (`tests/test_liblarch.py:749-763`). -/
example : passes [paint temp [.blue], add temp (n 0), addParent (n 0) (n 1), parent 0 (n 0) (n 1), parent 0 temp (n 0),
    raises (.addParent (n 0) temp), addParent (n 0) temp, raises (.addParent (n 1) temp), addParent (n 1) temp,
    parents 0 (n 0) [n 1], parents 0 (n 1) []] = true := by decide +kernel

/-- `test_mainview` (`tests/test_liblarch.py:765-771`). -/
example : passes [.fails (.onView 0 (.apply blue none false true))] = true := by decide +kernel

/-- `test_viewtree_get_n_nodes` (`tests/test_liblarch.py:774-784`). -/
example : passes [count 1 15, count 1 5 [green], count 0 15] = true := by decide +kernel

/-- `test_viewtree_get_n_nodes_with_cache` (`tests/test_liblarch.py:786-796`). The first question makes the main view keep a
`FilteredTree` of its own. -/
example : passes [count 0 5 [green], .act (.onView 0 (.nNodes [green])), paint (n 0) [.red, .green], count 0 6 [green], paint (n 0) [.red], count 0 5 [green]]
    = true := by decide +kernel

/-- `test_viewtree_get_all_nodes` (`tests/test_liblarch.py:798-831`). -/
example : passes [inAll 1 (n 0), inAll 1 temp false, nAll 1 15, inAll 0 (n 0), inAll 0 temp false, nAll 0 15, paint temp [.blue],
    add temp (n 0), inAll 1 (n 0), inAll 1 temp, nAll 1 16, inAll 0 (n 0), inAll 0 temp, nAll 0 16,
    del (n 1), inAll 1 (n 1) false, inAll 1 temp, nAll 1 15, inAll 0 (n 1) false, inAll 0 temp, nAll 0 15] = true := by decide +kernel

/-- `test_viewtree_get_node_for_path` (`tests/test_liblarch.py:833-874`). -/
example : passes [newView, atPath 2 [n 0] (some (n 0)), atPath 0 [n 0] (some (n 0)), next 2 (n 0) (some (n 1)), paths 2 (n 1) [[n 1]],
    next 0 (n 0) (some (n 1)), paths 0 (n 1) [[n 1]], paint temp [.blue], add temp (n 0), addParent temp (n 0),
    atPath 0 [n 0, temp] (some temp), atPath 2 [n 0, temp] (some temp), paint temp2 [.blue], add temp2 (n 0), paint tempKid [.blue],
    add tempKid temp2, atPath 2 [n 0, temp2, tempKid] (some tempKid), addParent temp2 (n 0), atPath 0 [n 0, temp2, tempKid] (some tempKid),
    apply 2 blue, paths 2 temp2 [[temp2]], atPath 2 [temp2, tempKid] (some tempKid)] = true := by decide +kernel

/-- `test_viewtree_get_paths_for_node` (`tests/test_liblarch.py:876-901`). -/
example : passes [newView, paths 2 .none [[]], paths 0 .none [[]], paths 2 (n 9) [[n 9]], paths 2 (n 10) [[n 9, n 10]],
    paths 2 (n 11) [[n 9, n 10, n 11]], paths 2 (n 12) [[n 9, n 10, n 11, n 12]], paths 2 (n 13) [[n 9, n 10, n 11, n 12, n 13]],
    apply 2 green, paths 2 (n 10) [[n 10]], paths 2 (n 11) [[n 10, n 11]], paths 2 (n 12) [[n 10, n 11, n 12]],
    paths 2 (n 13) [[n 10, n 11, n 12, n 13]]] = true := by decide +kernel

/-- `test_viewtree_next_node` (`tests/test_liblarch.py:903-930`). -/
example : passes [newView, paint temp [.blue, .green], add temp (n 0), newView, paint temp2 [.red], add temp2 (n 0),
    next 3 temp (some temp2) (n 0), next 0 temp (some temp2) (n 0), next 3 temp (some temp2), next 0 temp (some temp2), next 3 temp2 none,
    next 0 temp2 none, apply 3 blue false, apply 3 green, next 3 temp none] = true := by decide +kernel

/-- `test_viewtree_node_has_child` (`tests/test_liblarch.py:932-946`). -/
example : passes [newView, hasKid 2 (n 0) false, hasKid 0 (n 0) false, add temp (n 0), hasKid 2 (n 0), hasKid 0 (n 0)] = true := by
  decide +kernel

/-- `test_moving_to_future_parent` (`tests/test_liblarch.py:948-959`). -/
example : passes [newView, add kid (n 0), child 2 (n 0) kid, setParent kid futur, child 2 (n 0) kid false, treeParents kid [],
    add futur, child 2 futur kid, treeParents kid [futur]] = true := by decide +kernel

end Larch.Tests
