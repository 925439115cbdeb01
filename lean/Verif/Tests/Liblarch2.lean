import Verif.Tests.Nodes
import Verif.Model.Print
import Verif.Model.RunOnce

/-!
# `tests/test_liblarch.py`, second half
-/

namespace Larch.Tests

/-- `test_viewtree_node_all_children` (`tests/test_liblarch.py:961-1007`). -/
example : passes [newView, children 2 (n 0) [], child 2 .none (n 0), child 2 .none (n 1), child 0 .none (n 0), child 0 .none (n 1),
    paint temp [.blue], add temp (n 0), nKids 2 (n 0) 1, child 2 (n 0) temp, nKids 0 (n 0) 1, child 0 (n 0) temp,
    apply 2 red, child 2 (n 0) temp false, unapply 2 red, move (n 1) (n 0), nKids 2 (n 0) 2, child 2 (n 0) (n 1), child 2 .none (n 1) false,
    nKids 0 (n 0) 2, child 0 (n 0) (n 1), child 0 .none (n 1) false, del temp, nKids 2 (n 0) 1, child 2 (n 0) temp false,
    nKids 0 (n 0) 1, child 0 (n 0) temp false, move (n 1), nKids 2 (n 0) 0, child 2 (n 0) (n 1) false, nKids 0 (n 0) 0,
    child 0 (n 0) (n 1) false, child 2 .none (n 1), child 0 .none (n 1)] = true := by decide +kernel

/-- The same when the main view has kept a `FilteredTree` from the first question on, as it does. -/
example : passes [add temp (n 0), .act (.onView 0 (.nChildren (n 0) false)), nKids 0 (n 0) 1, move (n 1) (n 0), nKids 0 (n 0) 2, del temp,
    nKids 0 (n 0) 1, move (n 1), nKids 0 (n 0) 0] = true := by decide +kernel

/-- `test_viewtree_node_nth_child` (`tests/test_liblarch.py:1009-1028`). -/
example : passes [newView, nthFails 2 (n 0) 0, nthFails 0 (n 0) 0, paint temp [.blue], add temp (n 0), nth 2 (n 0) 0 temp,
    nth 0 (n 0) 0 temp, apply 2 red, nthFails 2 (n 0) 0] = true := by decide +kernel

/-- `test_viewtree_node_parents` (`tests/test_liblarch.py:1030-1057`). -/
example : passes [newView, parents 2 (n 0) [], parents 0 (n 0) [], paint temp [.blue], add temp (n 0), parents 2 temp [n 0],
    parents 0 temp [n 0], addParent temp (n 1), parents 2 temp [n 0, n 1], parents 0 temp [n 0, n 1], apply 2 blue, parents 2 temp [],
    unapply 2 blue, apply 2 red, .ok (askFails 2 (fun w v => v.nodeParents w.s.t temp) .indexError)] = true := by decide +kernel

/-- `test_viewtree_is_displayed` (`tests/test_liblarch.py:1059-1077`). -/
example : passes [newView, paint temp [.blue], shown 2 temp false, shown 0 temp false, add temp (n 0), shown 2 temp, shown 0 temp,
    apply 2 blue, shown 2 temp, apply 2 red, shown 2 temp false] = true := by decide +kernel

/-- `test_simple_filter` (`tests/test_liblarch.py:1080-1145`). -/
example : passes [newView false, apply 2 red, valid 2, count 2 5, count 2 5 [red], count 2 0 [blue], nKids 2 .none 5, apply 2 green, valid 2,
    count 2 0, unapply 2 red, valid 2, count 2 5, count 2 5 [green], count 2 0 [red], nKids 2 .none 1, shown 2 (n 0) false,
    paint (n 0) [.red, .green], shown 2 (n 0), count 2 1 [red], nKids 2 .none 2, paint temp [.green], add temp, valid 2, shown 2 temp,
    nKids 2 .none 3, del temp, valid 2, shown 2 temp false, nKids 2 .none 2, add temp (n 1), valid 2, shown 2 temp, nKids 2 .none 3,
    parents 2 temp []] = true := by decide +kernel

/-- `test_leaf_filter` (`tests/test_liblarch.py:1147-1176`). -/
example : passes [newView false, apply 2 leaves, count 2 10, apply 2 green, count 2 1, atPath 2 [n 14] (some (n 14)), paint temp [.green],
    add temp (n 14), count 2 1, atPath 2 [temp] (some temp), shown 2 (n 14) false, del temp, count 2 1, shown 2 (n 14), valid 2]
    = true := by decide +kernel

/-- `green_leaf` (`tests/test_liblarch.py:1181-1187`): the node is green and no child is. -/
def greenLeaf : Func := fun t d x _ => (t.getChildren x).all (fun c => decide (.green ∉ d c)) && decide (.green ∈ d x)

/-- `test_green_leaf` (`tests/test_liblarch.py:1178-1210`). -/
example : passes [filter (.plain 20) greenLeaf, newView false, apply 2 (.plain 20), count 2 1, atPath 2 [n 14] (some (n 14)), paint temp [.green],
    add temp (n 14), count 2 1, atPath 2 [temp] (some temp), shown 2 (n 14) false, paint temp [], count 2 1, shown 2 (n 14), valid 2]
    = true := by decide +kernel

/-- `test_flatleaves_filters` (`tests/test_liblarch.py:1213-1232`). -/
example : passes [newView false, apply 2 flatleaves, count 2 10, apply 2 green, count 2 1, atPath 2 [n 14] (some (n 14)), paint temp [.green],
    add temp (n 14), count 2 1, atPath 2 [temp] (some temp), valid 2] = true := by decide +kernel

/-- `test_flat_filters` (`tests/test_liblarch.py:1236-1266`), for all green nodes. -/
example : passes ([newView false, apply 2 flatgreen, count 2 5] ++
    (List.range 5).flatMap (fun k => [atPath 2 [n (k + 10)] (some (n (k + 10))), parents 2 (n (k + 10)) [], hasKid 2 (n (k + 10)) false]) ++
    [valid 2]) = true := by decide +kernel

/-- `test_update_callback` (`tests/test_liblarch.py:1271-1284`); the callbacks are asked at the end of each call. -/
example : passes [newView false, .act (.onView 2 (.apply leaves none false true)),
    .each 2 (fun ft s => s.ev == .deleted || decide (s.path ∈ ((ft.pathsFor s.nid).toOption.getD []))) (.onView 2 (.unapply leaves true)), valid 2]
    = true := by decide +kernel

/-- `test_torture` (`tests/test_liblarch.py:1286-1313`). -/
example : passes [newView false, reset 2, shown 2 par false, addNode (withChildren par [n 1, n 3, n 5, n 7, n 9, n 11]), valid 2,
    nKids 2 par 6, apply 2 blue, valid 2, shown 2 par false, paint par [.blue], valid 2, shown 2 par, nKids 2 par 3] = true := by decide +kernel

/-- `test_copypasting_child` (`tests/test_liblarch.py:1315-1330`). -/
example : passes [newView false, apply 2 green, paint kid [.green], paint kid2 [.green], paint par [.green], add par, add kid (n 10),
    add kid2 (n 10), addChild par kid, valid 2] = true := by decide +kernel

/-- `test_remove_grand_grand_parent` (`tests/test_liblarch.py:1360-1426`). -/
example : passes ([del (n 9)] ++ (List.range 9).map (fun k => treeParents (n k) []) ++
    [treeParents (n 10) [], treeParents (n 11) [n 10], treeParents (n 12) [n 11], treeParents (n 13) [n 12], treeParents (n 14) [n 13]])
    = true := by decide +kernel

/-- `test_put_orphan_to_root` (`tests/test_liblarch.py:1428-1470`). -/
example : passes [del (n 13), treeParents (n 14) []] = true := by decide +kernel

/-- `test_delete_task_randomly` (`tests/test_liblarch.py:1472-1505`), with 8 nodes instead of 20 and one order of removal:
those at even places, then those at odd places backwards. -/
example : passes ([newView, count 2 15, addNode (.new (.str 100) .none)] ++
    (List.range 7).map (fun i => addNode (.new (.str (i + 101)) (.str (i + 100)))) ++ [count 2 23] ++
    (List.range 4).map (fun i => del (.str (2 * i + 100))) ++ (List.range 8).map (fun k => del (n (2 * k))) ++
    (List.range 4).map (fun i => del (.str (107 - 2 * i))) ++ (List.range 7).map (fun k => del (n (13 - 2 * k))) ++ [count 2 0, valid 2])
    = true := by decide +kernel

/-- `test_add_existing_relationship` (`tests/test_liblarch.py:1507-1536`), three of the twenty rounds. -/
example : passes ([newView, count 2 15, addNode (withParents par [n 12, n 0]), count 2 16, add kid] ++
    (List.range 3).flatMap (fun _ => [addParent kid par, count 2 17, parents 2 kid [par], children 2 par [kid], parents 2 par [n 12, n 0]]))
    = true := by decide +kernel

/-- `test_remove_parent_of_multiple_parent_task_child` (`tests/test_liblarch.py:1538-1575`); `t1` to `t6` are 41 to 46. -/
example : passes [newView, add (.str 41), add (.str 42), addNode (withParents (.str 43) [.str 41]), addNode (withParents (.str 44) [.str 43, .str 42]),
    addNode (withParents (.str 45) [.str 44]), addNode (withParents (.str 46) [.str 41]), children 2 (.str 41) [.str 43, .str 46],
    children 2 (.str 42) [.str 44], parents 2 (.str 44) [.str 43, .str 42], parents 2 (.str 45) [.str 44], del (.str 43),
    children 2 (.str 41) [.str 46], children 2 (.str 42) [.str 44], parents 2 (.str 44) [.str 42], parents 2 (.str 45) [.str 44]]
    = true := by decide +kernel

/-- `test_remove_parent_of_multiple_children` (`tests/test_liblarch.py:1577-1585`). -/
example : passes [add (.str 41), add (.str 42) (.str 41), add (.str 43) (.str 41), del (.str 41)] = true := by decide +kernel

/-- `test_add_children_first` (`tests/test_liblarch.py:1587-1630`): 50 is the master, 51 to 56 are its children. -/
example : passes ((List.range 15).map (fun k => del (n k)) ++ [nAll 0 0, .ok fun w => decide (w.s.t.rootChildren = []),
    addNode (withChildren (.str 50) ((List.range 6).map fun i => .str (i + 51)))] ++ (List.range 6).map (fun i => add (.str (i + 51))) ++
    [.ok fun w => decide (w.s.t.allNodes = (List.range 7).map fun i => .str (i + 50)), parents 0 (.str 50) [],
      children 0 (.str 50) ((List.range 6).map fun i => .str (i + 51))] ++
    (List.range 6).flatMap (fun i => [parents 0 (.str (i + 51)) [.str 50], children 0 (.str (i + 51)) []]) ++
    [.ok fun w => decide (w.s.t.rootChildren = [.str 50])]) = true := by decide +kernel

/-- `test_almost_circular_dependencies` (`tests/test_liblarch.py:1718-1736`). -/
example : passes [addNode (withChildren (.str 41) [.str 42, .str 43]), add (.str 42), addNode (withChildren (.str 43) [.str 42]),
    treeParents (.str 42) [.str 41, .str 43], treeParents (.str 43) [.str 41]] = true := by decide +kernel

/-- `test_remove_tasks` (`tests/test_liblarch.py:1738-1755`). -/
example : passes [addNode (withChildren (.str 41) [.str 42, .str 43]), add (.str 42), add (.str 43), del (.str 41) true,
    .ok fun w => !w.s.t.has (.str 41) && !w.s.t.has (.str 42) && !w.s.t.has (.str 43)] = true := by decide +kernel

/-- `test_remove_recursively_clean` (`tests/test_liblarch.py:1757-1777`), with 8 children instead of 50. -/
example : passes ([add par] ++ (List.range 8).flatMap (fun i => [add (.str (i + 41)), addChild par (.str (i + 41))]) ++ [del par true, inAll 0 par false] ++
    (List.range 8).map (fun i => inAll 0 (.str (i + 41)) false)) = true := by decide +kernel

/-- `test_recursive_count` (`tests/test_liblarch.py:1829-1857`): what the callback reads after the last announcement is what can be
read after the call. -/
example : passes [newView, paint (n 0) [.red, .blue], .sends 2 .modified [n 0] (.edit (.addNode (.new (.str 41) .none) (n 0))),
    nKids 2 (n 0) 1 true, .sends 2 .modified [n 0] (.edit (.addNode (.new (.str 42) .none) (.str 41))), nKids 2 (n 0) 2 true,
    .sends 2 .modified [n 0] (.edit (.addNode (.new (.str 43) .none) (.str 42))), nKids 2 (n 0) 3 true, paint (.str 44) [.blue],
    .sends 2 .modified [n 0] (.edit (.addNode (.new (.str 44) .none) (n 0))), nKids 2 (n 0) 4 true,
    .sends 2 .modified [n 0] (.edit (.delNode (.str 42) false)), nKids 2 (n 0) 2 true,
    .sends 2 .modified [n 0] (.onView 2 (.apply blue none false true)), nKids 2 (n 0) 1 true] = true := by decide +kernel

/-- `is_there_purple_somewhere` (`tests/test_liblarch.py:1927-1936`) and `has_something_pink` (`tests/test_liblarch.py:1967-1976`),
for trees of at most the given depth. -/
def somewhere (c : Colour) : Nat → Tree → (Id → Paint) → Id → Bool
  | 0, _, d, x => decide (c ∈ d x)
  | k + 1, t, d, x => decide (c ∈ d x) || (t.getChildren x).any (somewhere c k t d)

/-- `test_modifying_child_of_removed_node` (`tests/test_liblarch.py:1924-1953`). -/
example : passes [filter (.plain 20) (fun t d x _ => somewhere .purple 9 t d x), apply 1 (.plain 20), add par, paint kid [.purple], add kid par,
    refresh kid, children 1 par [kid], paint kid [], children 1 .none []] = true := by decide +kernel

/-- `test_late_add_recursive_filter` (`tests/test_liblarch.py:1955-1990`). -/
example : passes [add (.str 41), add (.str 42) (.str 41), filter (.plain 20) (fun t d x _ => somewhere .pink 9 t d x), .act (.getView (some 7) true),
    apply 2 (.plain 20), paint (.str 42) [.pink], inAll 2 (.str 41), inAll 2 (.str 42), nAll 2 2, children 2 .none [.str 41],
    children 2 (.str 41) [.str 42]] = true := by decide +kernel

/-- `test_deleted_callback_has_correct_nodes_count` (`tests/test_liblarch.py:1992-2003`): each removal of a leaf sends one
deletion, with one node less. The nodes without children at the start are `'0'` to `'8'` and `'14'`; when `'14'` goes, `'13'`
has already been passed. -/
example : passes ([count 1 15] ++ (List.range 9).flatMap (fun k => [.sends 1 .deleted [n k] (.edit (.delNode (n k) false)), count 1 (14 - k)]) ++
    [.sendsMany 1 .deleted 1 (.edit (.delNode (n 14) false)), count 1 5]) = true := by decide +kernel

/-- The counter number `k` counts `m` nodes, and somebody has been told of it. -/
def counted (k m : Nat) : Line := .ok fun w =>
  match w.objs[k]? with
  | some (.count c) => c.nNodes == m && c.heard.any (fun h => h == (k, m))
  | _ => false

/-- The counter number `k` counts `m` nodes, and nobody has been told of anything. -/
def quiet (k m : Nat) : Line := .ok fun w =>
  match w.objs[k]? with
  | some (.count c) => c.nNodes == m && c.heard.isEmpty
  | _ => false

/-- `test_node_count_update` (`tests/test_liblarch.py:1632-1667`), the part in `self.tree`: three counters, of which the tags of the
other tree are told. A tag is displayed if its counter is not at zero. -/
example : passes [.act (.getCount (some 1) true), .act (.onCount 2 (.apply blue true)), .act (.onCount 2 (.register 2)),
    .act (.getCount (some 2) true), .act (.onCount 3 (.apply green true)), .act (.onCount 3 (.register 3)),
    .act (.getCount (some 3) true), .act (.onCount 4 (.apply red true)), .act (.onCount 4 (.register 4)),
    del (n 14), del (n 13), del (n 12), del (n 11), del (n 10), del (n 9), del (n 8), counted 2 3, counted 3 0,
    quiet 4 5] = true := by decide +kernel

/-- The main tree as printed. -/
def printed (l : List (Nat × Id)) : Line := .ok fun w => decide (w.s.t.printTree.toOption = some l)

/-- `test_maintree_print_tree` (`tests/test_liblarch.py:1675-1716`): the depth and the name of each line. -/
example : passes [
    printed ([(0, rootId)] ++ (List.range 10).map (fun k => (1, n k)) ++ (List.range 5).map (fun k => (k + 2, n (k + 10)))),
    add temp (n 0), children 0 (n 0) [temp],
    printed ([(0, rootId), (1, n 0), (2, temp)] ++ (List.range 9).map (fun k => (1, n (k + 1))) ++
      (List.range 5).map (fun k => (k + 2, n (k + 10))))] = true := by decide +kernel

/-- The actions that were run: `acts` are queued for nodes that are not displayed, then the view sends its signals. -/
def actionsRun (acts : List (Id × Nat)) (w : World) : Option (List Nat) :=
  (ft? w 1).bind fun ft =>
    match RunOnce.run (fun _ => false) (acts.map (fun a => .queue (fun _ => false) a.1 a.2) ++
      ft.view.out.map fun s => .signal (fun _ => true) s.ev s.nid) RunOnce.start with
    | .ok r => some r.ran
    | .err _ _ => none

/-- `test_queue_action_one_action` (`tests/test_liblarch.py:1779-1800`): 41 is `bl`, 42 is `gr`. -/
example : play (Suite.init fun _ => []) [newView, filter blue (has .blue), filter green (has .green), apply 1 green, paint (.str 41) [.blue],
    paint (.str 42) [.green], add (.str 41), .ok fun w => actionsRun [(.str 41, 1), (.str 42, 2)] w == some [],
    add (.str 42), .ok fun w => actionsRun [(.str 41, 1), (.str 42, 2)] w == some [2]] = true := by decide +kernel

/-- `test_queue_action_multiples_actions` (`tests/test_liblarch.py:1802-1827`). -/
example : play (Suite.init fun _ => []) [newView, filter blue (has .blue), filter green (has .green), apply 1 green, paint (.str 41) [.blue],
    paint (.str 42) [.green], add (.str 41), .ok fun w => actionsRun [(.str 41, 1), (.str 41, 3), (.str 42, 2)] w == some [],
    add (.str 42), .ok fun w => actionsRun [(.str 41, 1), (.str 41, 3), (.str 42, 2)] w == some [2],
    unapply 1 green, .ok fun w => actionsRun [(.str 41, 1), (.str 41, 3), (.str 42, 2)] w == some [2, 1, 3]] = true := by decide +kernel

end Larch.Tests
