# A formal model of liblarch in Lean 4

## 1. What is here

* `properties.jsonl`: the properties, in terms of the API.
* `lean/Verif/Model/`: the code, function by function. Every definition cites the file and the lines it models.
* `lean/Verif/Spec/`: what is claimed, in terms of what a user of the API can read. These files are small and are
  what should be read together with the statements in `Props`.
* `lean/Verif/Props/`: one or more theorems for each property, each followed by a concrete case (`example`) that meets
  its hypotheses.
* `lean/Verif/Proofs/`, `lean/Verif/Lib/`: invariants and lemmas. Nothing in them needs to be trusted.
* `lean/Verif/Tests/`: the project's own tests (`tests/test_liblarch.py`, `tests/test_filteredtree.py`) played in the
  model. They all pass. They are no proofs of any property; they are evidence that the model reads the code correctly.
  `Tests/Liblarch.lean` says which tests are left out and why.
* `MANIFEST.json`: which theorems stand for which property.
* `seeded/LOG.jsonl`: wrong programs on which the theorems were tried.

Naming: `Cnn_...` is a theorem for property Cnn. `..._partial` is proved under a condition that the English claim does
not have; its comment says what is missing. `..._refuted...` proves that the English claim, taken literally, is false of
the code, by a concrete history; these are defects of the code or limits of its contract and are listed in section 6.
`partial` in the manifest nearly always means: refuted literally, proved under the stated condition.

## 2. Trusted base

* The kernel of Lean 4.33.0.
* The axioms `propext`, `Classical.choice` and `Quot.sound`, and no others. The table in section 7 gives the axioms of
  every theorem named in the manifest (`#print axioms`, written by `tools/axioms.py`). There is no `sorry`, no axiom of
  our own, no `native_decide` and no `bv_decide`; concrete cases are decided by the kernel.
* The reading of the Python code recorded in the comments of the model, with the simplifications of section 4.
* What is said about Python, GLib and GTK in section 4.

## 3. What is modelled and what is not

| file in `/repo` | model | left out |
|---|---|---|
| `liblarch/tree.py` | `Model/Tree.lean` (all edits, cycle test, reading, notifications), `Model/Callbacks.lean` (registration), `Model/Deferred.lean` (through the queue), `Model/Print.lean` (`print_tree`), `Model/Kept.lean` (removed node objects), `Model/Now.lean` (the edits again, with observers that are told at once), `Model/Nested.lean` (observers that edit the tree from their callbacks) | |
| `liblarch/treenode.py` | `Model/Tree.lean`, `Model/Kept.lean` (objects that have left the tree), `Model/Objects.lean` (objects in memory, several trees), `Model/Index.lean` (children by number, for every integer; also for the views) | |
| `liblarch/processqueue.py` | `Model/Queue.lean`, `Model/Desk.lean` (with the tree, all views and counters) | time, the number of seconds a step takes |
| `liblarch/filters_bank.py` | `Model/Filters.lean`, `Model/Answers.lean` (answers that are not `bool`), `Model/Dicts.lean` (dictionaries shared with the application) | parameters other than `negate` and `flat` are opaque to the bank |
| `liblarch/filteredtree.py` | `Model/View.lean` (`__update_node`, refilter, paths), `Model/FilteredTree.lean` (filters, reading, histories), `Model/Announce.lean` (changes announced later), `Model/RunOnce.lean` (`set_callback`, `callback`), `Model/Live.lean` (callbacks called while the view works), `Model/Rough.lean` (filters that raise), `Model/Print.lean` (`print_tree`, `test_validity`, `is_path_valid`) | `filter_cache`, `cache_paths` |
| `liblarch/viewtree.py` | `Model/ViewTree.lean` | |
| `liblarch/viewcount.py` | `Model/ViewCount.lean` | |
| `liblarch/__init__.py` | `Model/Views.lean` (named views), `Model/Suite.lean` (a tree with any number of views and counters), `Model/Version.lean` (`is_compatible`); the other methods forward to the tree | `TreeNode._set_tree` |
| `liblarch_gtk/treemodel.py` | `Model/TreeModel.lean` (rows and caches), `Model/Cells.lean` (columns), `Model/Print.lean` (`print_tree`) | counters, `reorder_nodes` |
| `liblarch_gtk/__init__.py` | `Model/Columns.lean` (making the columns, `set_bg_color`), `Model/Looks.lean` (looks of columns, `set_sort_column`), `Model/DragDrop.lean` and `Model/DragSetup.lean` (`set_dnd_name`, `set_dnd_external`, `__init_dnd`, `on_drag_data_get`, `on_drag_data_received`), `Model/Picking.lean` (`get_selected_nodes`, `set_multiple_selection`, `_separator_func`), `Model/Collapse.lean` (`collapse_node`, `expand_node`, `on_child_toggled`, clicks and drops), `Model/Emit.lean` (`__emit`), `Model/Sorting.lean` (`_sort_func`), `Model/Colours.lean` (`brightness`, `set_bg_color`, `set_column_function`, `_celldatafunction`) | renderers, the widgets |

Not modelled at all: memory, performance, the text of error messages, the main loop of GLib beyond the idle sources of the queue.

## 4. Conventions and simplifications

* **Ids.** `Id = none | empty | str n`: `None`, `''` and the non-empty strings, injectively numbered. `'root'` is `str 0`.
  Tests such as `not node_id` see the difference.
* **Dicts** are association lists in insertion order, with Python's behaviour of overwriting and popping.
* **Objects.** A node in the tree is a record in the dict of the tree. A node object not yet added is a value that is
  passed to `add_node`. Objects that have left the tree, which may be added again and whose methods may be called, are in
  `Model/Kept.lean` (C63); elsewhere such objects are dropped. `Model/Objects.lean` has objects in memory and any number of
  trees; C78 shows that each tree is then one of `Model/Kept.lean`, or of `Model/Tree.lean`, unless an object is in two trees.
* **Exceptions** are values: `Res.ok s` or `Res.err e s`, where `s` is the state reached when the exception was raised.
* **Loops over a list that the body changes** use an index, as Python does. Several defects are of this kind.
* **Loops and recursion without a bound** take fuel computed from the state; running out is the error `diverge`. The
  theorems show that it does not happen.
* **Differences of sets** (`filteredtree.py`, `__update_node`) are iterated in any order: the function `diff` is arbitrary
  apart from listing the difference, each element once (`SetDiff`).
* **Notifications.** An edit records its notifications together with the tree at the moment of each. Views and counters
  run on the recorded notifications after the edit. This agrees with the code as long as observers do not edit the tree
  and do not raise (C62, with `Model/Now.lean`, where they run at once); that views do not raise is part of what is proved (C27).
  Observers that edit the tree are in `Model/Nested.lean` (C66). There, the edit that is going on looks its node up by name
  after each notification, whereas Python keeps the object: an observer that removes the very node whose `set_parent` or
  removal is going on is not modelled exactly. The depth of nesting is bounded by any number, as by Python's recursion limit.
* **Threads.** Sections guarded by the lock are atomic; everything else interleaves. Queued requests are compared by
  their content; Python would tell apart two node objects of the same content.
* **Idle sources of GLib**: an installed source is run until it is removed or its function does not return `True`
  (also: raises).
* **Answers of filter functions** are `Bool`, except in `Model/Answers.lean` (C73), where they are Python values.
* **Caches of `FilteredTree`** that have no effect are left out: nothing is ever put into `filter_cache`, and nothing reads
  `cache_paths`.
* **Filters** read the tree and the data `D` of the application, and do not raise, except in `Model/Rough.lean` (C68), where any
  evaluation may raise; in the middle of an edit the exception ends the edit as well, as in `Model/Now.lean`. Parameter
  dicts are values, except in `Model/Dicts.lean` (C75), where they are objects that the application keeps and changes.
* **`int()`** is modelled for ASCII.
* **Pending relations.** `tree.py` removes a realised pair from the list while it iterates over a copy; the model erases the
  first occurrence, as `list.remove` does.
* **`current_children`** (`filteredtree.py:226`) is the list stored in the view, not a copy; the model looks it up again
  in every round.
* **Callbacks of a view and actions of `set_callback`** may look at the view in the middle of its work (`Model/Live.lean`,
  C52), but do not change it or the tree; the parameters of actions are left out.
* **Columns.** An access method is a function of the data of the node and may answer `None`; it does not raise. It is
  applied to the data at the moment of the signal: within one action the data change first and the signals follow.
* **GTK.** A row lives at an address; an iterator is valid if a row lives where it points, so a new row may make an old
  iterator valid again; the order of rows is arbitrary (`GtkOrder`). `remove` moves the iterator to the next row.
* **Expanded rows.** What GTK does with them is listed in `Model/Collapse.lean`. A request to collapse a node that is not
  displayed is handed to the main loop when the node appears; its first attempt, inside the view, finds no row.
* **Signals of the widget.** When GTK emits `row-expanded` and `row-collapsed` is listed in `Model/Emit.lean`; `__emit` works on
  the rows as they are at that moment.
* **Sorting.** GTK compares rows when a row was inserted or a value was set, and when a way of sorting is chosen; not when a row
  is removed. Which rows it compares is left open.
* **Colours.** The brightness is computed exactly, not with floating-point numbers. What `_celldatafunction` raises is printed and
  forgotten by GTK. Two columns or two widgets do not share the list `desc['value']` that `set_column_function` changes.
* **Several observers** of the tree are told in the order in which they were made; they read the tree and the bank only, so
  the order does not matter.

## 5. Property by property

| id | stated in | how it is proved |
|----|-------|-----------|
| C01, C05 | `Props/Consistency` | invariant `WF`/`Good` by induction over careful histories; refutations by evaluation |
| C02 | `Props/Consistency` | invariant `UpInv` on the parent lists only; it survives every history, also those that damage children lists |
| C03 | `Props/Relations` | invariant of the queue of the breadth-first walk; measure: number of walks upwards |
| C04, C07, C11 | `Props/Relations` | exact outcomes of the edits on consistent trees (`Proofs/Edits`, `Proofs/NodeEdits`) |
| C06 | `Props/Declared` | invariant: realised relations and waiting ones together are the declared ones |
| C08, C09, C10 | `Props/Removal` | invariants of the loops of `_remove_node`; induction over the height for recursive removal |
| C12, C13 | `Props/Move` | exact effect of the loop of `set_parent` that skips elements |
| C14, C15 | `Props/Reading` | induction over the height; positions in lists without repetition |
| C16 | `Props/Reading` | property of tree and log kept by every elementary mutation (`Proofs/Keeps`) |
| C17 | `Props/Callbacks` | induction over registrations |
| C18–C20 | `Props/Queue` | invariants over all schedules |
| C21 | `Props/Deferred` | exact order of execution of a backlog; refutations |
| C22, C23 | `Props/Filters` | refinement to a map; case analysis |
| C24–C27 | `Props/FilteredTree`, `Props/Batch` | invariant `Fit`: the view is the wanted one, and the signals replay to its rows; shown for `__update_node` by induction over the rank, for edits notification by notification. `ViewFair` lets each edit happen under filters on a node's own data, on its children (C64) or on everything below it (C65); the three kinds may alternate within one history |
| C28–C33 | `Props/ViewReading`, `Props/FilteredTree` | emptying and filling of any view that holds together; counting of walks |
| C34 | `Props/ViewCount` | invariant over the notifications (`Proofs/CountApp`) |
| C35 | `Props/RunOnce` | invariant of the dict of callbacks |
| C36 | `Props/TreeModel` | refinement to the set of announced paths |
| C37 | `Props/Version` | direct, through the decimal representation |
| C38 | `Props/Views` | invariant over the requests |
| C39 | `Props/ViewTree` | the invariant of C24–C27 for the hidden `FilteredTree`, with an empty bank because it has no filters |
| C40 | `Props/ViewChildren` | positions in lists without repetition |
| C41, C42 | `Props/Watching` | invariant of the observer's table, up to the nodes that are being removed (`Proofs/KeepsRem`) |
| C43, C44 | `Props/Refresh` | keys of the dictionary of nodes; the loop invariant of C06 from any consistent state |
| C46 | `Props/Growing` | the invariant of C06 extended to all ways of asking for a relation |
| C45 | `Props/Announce` | on forests: invariant of a view that is out of date about some nodes (`Proofs/ViewStale*`); when nodes only appear: the invariant of C24 |
| C47 | `Props/Cells` | the values painted by the signals, row by row; every action that changes data signals the rows of the node (`Proofs/Touched`) |
| C48 | `Props/Connect` | the past signals of a view are neither read nor changed; C47 from `get_current_state` on |
| C49 | `Props/Columns` | the loop over the sorted names: numbers, types and GTK columns grow together |
| C50 | `Props/DragDrop` | the rows of the model after any run are the view's rows, at addresses of past signals; so an iterator of a selected row is that row or gone; with C51, rows not below one another stay until it is their turn |
| C51 | `Props/Untouched`, `Props/Iterators` | two invariants of `__update_node` (`Proofs/Untouched`), carried through all notifications because each is sent in a tree between the first and the last (`step_between`) |
| C52 | `Props/Live` | every function of the view, with callbacks, does what it does without (`Follows`), and its callbacks are called for the recorded signals (`Proofs/Live`, `Proofs/LiveApp`); actions queued: C35 for the history of calls |
| C53 | `Props/Collapse` | invariant: a row is open exactly if it has children and no remembered node is on its path; shown signal by signal (`Proofs/Collapse`) on top of the invariant of C50 |
| C54 | `Props/Suite` | what happens to one object is what happens to it alone (`Proofs/Suite`); then the invariants of C24–C27, C34 and C39 side by side; each view and each counter may use filters of its own kind, and views that wait for a refresh may be told of edits as in C81 (`AllFollow`, `AllFollowChange`) |
| C55 | `Props/Desk` | the invariant of C54 beside that of C20; the ledger of C18 along the schedule |
| C56 | `Props/Print` | the loop prints what is on the stack with everything below it; heights bound the depth; depth-first order by blocks |
| C57 | `Props/Print` | each loop passes exactly if each test does |
| C58 | `Props/ByHand` | open rows have children and open rows above (`GInv`); a relation between an earlier moment and now (`Since`) is kept by each signal (`Proofs/ByHand`) |
| C59 | `Props/Emit` | the loop of `__emit` walks along the path of the row; what is reported for one row of a node does not depend on the others; a report is the difference that a signal makes |
| C60 | `Props/Sorting` | while the view reacts to one notification, it sends signals about nodes of the tree of that notification, or the notification is the deletion of a node without children and only deletions are sent (`Proofs/Moments`); the trees of the notifications are consistent (`Moment` in `Proofs/ViewHistory`) |
| C61 | `Props/Colours` | invariant over the history: every cell is the last value computed (`Canvas.run_values`), the cache of brightnesses is right; C47 gives the data of the last announcement |
| C62 | `Props/Now` | `Interleaves` is kept by one step after another (`Proofs/Now`); C54 and C55 then apply; the trees at the notifications are consistent by the inductions of C42 and C17 (`Following`, `GoodSince`) |
| C63 | `Props/Kept` | invariant `HomeOK`: the tree is as after a careful history and every object outside has no relations; the removal is followed object by object (`removeKeep_rec`, `removeKeep_orphan`) |
| C64 | `Props/Fewer` | as C24 to C27, with the filters asked again after each edit: a parent appears (`Watch.cutFew`), disappears (`Watch.linkFew`, `Watch.addedFew`), or appears later than its former children move (`few_orphans`) |
| C65 | `Props/Below` | as C64; each edit changes the answers for one node and its ancestors, and this chain appears or disappears as a whole (`Fit.chain`), apart from a removal, where the removed node is shown until its last child has left (`Orph.step`) |
| C66 | `Props/Nested` | no cycle: as C02, since each relation is made right after the test for a cycle (`Now.step_up`); consistency: every notification of a gentle edit is sent with a consistent tree, and the edit does not rely on what it has read before (`gentle_ends`), by induction on the depth of nesting (`told_sane`) |
| C67 | `Props/NestedView` | the state in the middle of edits: each view is right but for the nodes that are new or whose parents have changed and which it has not been told of, a set of its own for each view (`Owed`, `Right`, `AllRight`); telling it of a node takes that node out (`Right.note`). An order of the nodes that suits both the tree and the view always exists: relations taken away do no harm to it; where relations are added, the view's parents are ancestors in the tree (`Anc`), and every update keeps that (`Anc.update`, by an order that would forbid anything else) |
| C68 | `Props/Rough` | the view's work is cut short at some evaluation; up to there it is the work it would have done with filters that accept what they raise about (`lenient`), and in the middle of that work the view is right but for a set of nodes (`Ajar`). Such a view can be emptied (`Husk`), and the rest of `refilter` starts from nothing. In the middle of an edit, what is on display was accepted at an earlier notification (`reacts_shown`), and the tree is consistent at every notification (`Proofs/Midway`) |
| C69 | `Props/Looks` | invariant of the loop over the sorted names: each column on the screen looks like the last placed in it; the rest of the columns is `Model/Columns` unchanged (`make_cols`) |
| C70 | `Props/Looks` | what a call leaves alone |
| C71 | `Props/DragSetup` | what is known after any calls (`run_all`): name, numbered sources, list of targets, handlers; positions lead back to the row (`leads_descend` of C59), which makes a drop the one of C50 |
| C72 | `Props/Picking` | invariant `PInv`: selected rows are live rows of a screen that is right (C50); a row at an address that was used is the same row |
| C73 | `Props/Answers` | the application is repeated with Python values as answers (`Model/Answers`); equal to `Suite` with `bool` answers, by induction over the history; `True & n` is the last bit of `n` |
| C74 | `Props/CountChildren` | in the middle of an edit the counter is right but for a set of nodes that are still to be announced (`Tracks`); for removals this set is the subtree being removed (`Proofs/KeepsRem`) |
| C75 | `Props/Dicts` | between two changes of dictionaries the application with references does what the one with values does (`now_bankAfter`, `act_eq`); a change of a dictionary is a change of the bank that leaves other filters alone (`SState.write`); which dictionary a filter holds is kept by all actions that do not concern it (`Holds.stays`) |
| C76 | `Props/Leftover`, `Props/LeftSuite` | the consistent trees of `Spec/Consistent` allow ids of removed nodes in children lists, and every edit stays within them if the new ids are not left over (`Considerate.safe`); ids left over were added before (`Known`); a view sees each step of the loop over the parents as a lost relation followed by a notification, with the removed node owed (`watch_parentsLoop`); with many views and counters each object goes through its own story (`LState.stays`, by `C54_view_alone`'s lemma `act_view`) |
| C77 | `Props/Order` | all proofs about the rows an observer holds (`RowsSet`) also carry that no two siblings are swapped with respect to the children of the view (`InOrder`); children lists are only appended to or shortened, and `send_add_tree` and `get_current_state` walk them from the front; the rows of the GTK store are the observer's rows in the same order (`TInv.order`) |
| C78 | `Props/Objects` | objects in memory: every method is shown to do to the tree, seen as values (`World.st`), what the function of `Model/Tree` or `Model/Kept` does (`Does`, `Drops`, `DoesOut`), and to leave the objects of other trees alone (`Same`); invariant `Sep`: an object in a tree is there under its own name and refers to that tree |
| C79 | `Props/Index` | indexing of Python lists with any integer (`pyGet`), shown equivalent to counting from the front or the back (`pyGet_iff`); at natural numbers the functions are those of the other modules (`C79_natural`) |
| C80 | `Props/Subtree` | `LosesSubtree`: the shown nodes, their parents and the rows are the old ones without the removed nodes; proved with the conditions of C76 and at most three parents for each node below the removed one |
| C81 | `Props/Waiting` | `ShowsExactly`, `RightShape` and `ObserverAgrees` of C24 to C26, with `WaitFair` for `BatchFair`: edits also while the view is out of date, if every shown node is wanted (`NothingToGo`), the applied filters look at a node's own data, and removed subtrees are plain; `FollowsWaiting`: what an edit does to such a view |
| C82 | `Props/ForestWait` | `ShowsExactly`, `RightShape` and `ObserverAgrees` of C24 to C26 and `HoldsTogether`, for `ForestFair` histories: the tree stays a forest, edits are careful, nothing is asked of the filters or of what the view shows (`Proofs/ForestWait`); `upToDate`: the view was refreshed and could follow what came after |
| C83 | `Props/ForestSuite` | `SuiteRight` of C54 and `HoldsTogether` of C82 for every view, for `ForestSuiteFair` histories: as `SuiteFair`, but nothing is asked of the views and their filters; instead the tree stays a forest. `forestEnd` tells which views are up to date |
| C84 | `Props/Hierarchy` | `Forest`, `Careful` and `SuiteRight` follow from conditions on the calls (`HierarchyEdit`), not on the states they lead to; which calls raise; why new nodes may not name a parent that is still to come |
| C85 | `Props/OnePlace` | one path per node (`OnePath`), one row per node and view (`OneRow`), for the histories of C84 |
| C86 | `Props/HierarchyEdits` | the exact effect of a move or a new or broken relation (`PutAt`), an arrival (`Arrives`) and a removal (`Leave`) on a hierarchy, for the histories of C84 |
| C87 | `Props/Undo` | moves, broken relations, additions and removals of leaves can be undone (`SameHierarchy`), for the histories of C84; the order of the children is not restored (example) |
| C88 | `Props/Loading` | `_add_node` is computed for trees in which only relations to things that are no nodes wait (`Hier.last`); the lists of children are those of the list that was loaded (`Loaded`), by induction from its end |
| C89 | `Props/Siblings` | one formula for all lists of children, with the top level as one of them (`Resettles`); `set_parent` in a forest is shown to break at most one relation and to make at most one |

## 6. Defects and limits of the code found by the proofs

Each is proved as a theorem; the history is in the statement or its example.

* `_remove_node` removes from the list of parents it iterates over: every other parent keeps the removed child
  (`C01_refuted_removal`, `C08_refuted`; consequences `C04_refuted_damaged`, `C09_refuted_damaged`, `C15_refuted`).
* `set_parent` skips elements in the same way, so a node may keep other parents (`C12_refuted`); a move refused as
  circular has already lost its parents (`C13_refuted`, `C13_failed_move_iff`). A move to a parent that does not exist is
  not dismissed by a later move and comes into effect when that parent appears (`C12_refuted_later`).
* In a tree with a node called `root`, breaking the last relation of a node moves it below that node (`C11_refuted_name`).
* `parents_enabled` and `children_enabled` are not respected by `add_node` (`C01_refuted_disabled`, `C05_refuted_disabled`).
* `add_node` with a circular parent argument raises after half of the work (`C05_refuted_circular`, `C16_refuted`).
* A request that raises leaves the queue without handler (`C20_refuted`); a circular relation asked for by another thread does that (`C55_refuted_stuck`). Requests overtake each other by priority and
  equal ones are merged (`C21_refuted_priority`, `C21_refuted_coalescing`).
* `add_filter` with a name beginning with `!` raises `UnboundLocalError` (`C22_refuted`).
* Changing the parameters of a filter in use, or removing it from the bank, leaves views and counters out of date
  (`C24_refuted_parameters`, `C24_refuted_removed`, `C34_refuted_parameters`, `C34_refuted_removed`). Any view can do that to
  the others (`C54_refuted_params`, `C54_refuted_counter`).
* `apply_filter` with `reset` and parameters for an unknown filter raises after the list was emptied
  (`C24_refuted_apply`, `C29_refuted_unknown`).
* A node whose id is that of the virtual root of a view (`C24_refuted_root`).
* `get_current_state` repeats rows to observers that have them (`C26_refuted_current_state`, `C48_refuted_earlier`).
* A column of the GTK view sorted by a later column raises (`C49_refuted_sorting`); a first column that does not start a
  new one is never shown (`C49_refuted_first`).
* Colours: rows that are not announced after `set_bg_color` keep what they had (`C61_refuted_stale`); a colour that becomes `None`
  stays (`C61_refuted_none`); a text that is no colour makes the row take the colours of the row drawn before
  (`C61_refuted_unknown`); renderers lose their own text colour (`C61_refuted_own`); `set_bg_color` raises for a first column
  that does not start a new one (`C61_refuted_hidden`).
* A drop onto a row below the dragged one is refused, but takes away the parents of the dragged node
  (`C50_refuted_descendant`). In a flat view a drop beside a row takes away the parents (`C50_refuted_flat`). If GTK uses
  memory again, a node that was not selected is moved (`C50_refuted_reuse`). An empty selection from another widget raises
  (`C50_refuted_empty`). Of selected rows below one another only the upper one may be moved (`C50_refuted_nested`).
* Applying or unapplying a filter deletes every row and adds it again, even if nothing changes (`C51_refuted_filter`). When the
  subtree of a node is removed while the leaves are shown, a row appears and disappears for the node (`C51_refuted_children`).
* After a filter was applied without refresh, an edit of any node near a node that should leave the view can raise `ValueError`, and
  then observers lose track of the view for good, even over the next refresh (`C81_refuted_leaving`). While nodes are only missing,
  edits are safe (`C81_alive_partial`). In a forest edits are always safe (`C82_alive`).
* Recursive removal of a subtree makes a view raise `KeyError` if a node in it has four parents (`C27_refuted_removal`,
  `C80_refuted_four`); with up to three parents the view always recovers (`C80_removal_partial`).
  Filters that look at other nodes make it raise too (`C27_limit_structure`). The exception stops the
  removal half-way, and nodes are left without parents that are not at the top level (`C62_refuted_view`); so do exceptions of
  other observers (`C62_refuted_lost`). When the removal is tried again, the row of the node stays at last, and the next row
  that appears is compared with it, which raises (`C60_refuted_removal`).
* A node with two parents keeps the second one in its object when it is removed. Added again, it is at the top level and below that
  parent (`C63_refuted_parents`), and two such objects close a cycle (`C63_refuted_cycle`). `add_child` on a removed object leaves a
  child that does not know its parent (`C63_refuted_child`); a removed object moves another node of its name
  (`C63_refuted_namesake`).
* With a filter that looks at the children of nodes, a node that comes below two parents at once can make a view raise `ValueError`
  (`C64_refuted_parents`). With a filter that accepts nodes with many children, a child can stay at the top level when its parent
  appears (`C64_refuted_more`).
* With a filter that looks at everything below a node, a view raises `KeyError` when a node has two parents
  (`C65_refuted_parents`), and a flat view keeps nodes that are no longer accepted (`C65_refuted_flat`). With a filter that accepts
  nodes below which everything is finished, nodes that are accepted again stay hidden (`C65_refuted_bubble`).
* An observer that edits the tree from its callback can spoil the edit it was told about: if it adds the broken relation again
  during a removal or during `set_parents_enabled(False)`, parents and children disagree (`C66_refuted_removal`,
  `C66_refuted_disable`); if it adds the missing parent during `set_parent`, the relation waits for ever (`C66_refuted_move`).
* An observer that adds a relation from its callback, while a relation is being taken away, can make a view raise and lose all
  its rows: after `6.remove_parent(3)` the observer, told of 3, puts 3 below 6; the view, which still has 6 below 3, gets a circle
  (`C67_refuted_link`, `C67_refuted_flip`).
* `set_dnd_name` called twice makes every drop happen twice; the second time the positions are read again, and another node is moved
  (`C71_refuted_twice`). A source registered again keeps its old function (`C71_refuted_again`).
* A refilter in which nothing changes loses the selection (`C72_refuted_refilter`); a node with two selected rows is returned
  twice by `get_selected_nodes` (`C72_refuted_twice`).
* A hidden column followed by one that joins it (`new_column=False`) and does not say `visible` is shown (`C69_refuted_shared`).
* `get_sort_column` names a column before anything is sorted, the old one after a click, and an unknown one after a refused
  `set_sort_column` (`C70_refuted_*`).
* A filter that raises while a node is being hidden breaks the view for good: if it raises about a parent of the node, another parent
  keeps the node as a child, and every later refilter raises `KeyError` (`C68_refuted_parent`); if it raises about a child, the
  next refilter announces deletions twice (`C68_refuted_child`). If it raises while a node is removed, a child of the node is lost for the
  view (`C68_refuted_removal`). If the tree is edited before the next refilter, rows are announced below rows that nobody knows (`C68_refuted_edit`). After `apply_filter` raised, calling it again does nothing, because the
  filter is in the list already (`C68_refuted_again`).
* A counter combines the answers of filters with `&=`: a node for which a filter answers 2 is shown by views and not counted
  (`C73_refuted_even`), and an answer that is neither a `bool` nor an `int`, such as `None`, raises `TypeError` out of the edit
  (`C73_refuted_none`).
* A counter with a filter on children is wrong after a node came below a parent, where a view with the same filter is right
  (`C74_refuted_arrival`); also with filters that look further down (`C74_refuted_below`).
* **A dictionary of parameters is shared, unless it is empty.** `set_parameters` stores the object it is given, so a later change by
  the application reaches every filter that holds it, without any view or counter being told (`C75_refuted_view`,
  `C75_refuted_counter`); but an empty dictionary is not stored, and what is put into it later is never seen
  (`C75_refuted_empty`).
* **Removing a node with several parents** leaves its id in the `children` attribute of every second parent (`C08_left_behind`).
  `get_children` hides it, and nothing else goes wrong (`C76_tree_new_ids_partial`, `C76_views_new_ids_partial`, `C76_suite_new_ids_partial`), until the id is
  used again (`C76_refuted_reuse`) or such a parent is removed without its descendants (`C76_refuted_keyError`).
  A parent that is stepped over is not told either, so a filter that shows leaves does not show it (`C76_refuted_leaf`).
* **The order of a view (C77)** is not that of the tree: a node that was hidden and is shown again goes below its siblings, while
  the tree lists it where it was (`C77_refuted_tree`).
* **Sharing an object (C78).** `add_node` accepts an object that is in another tree. That tree then has a node with relations of
  the new one, and its removal raises `KeyError` (`C78_refuted_shared`). An object that left a tree with several parents brings one
  of them along into the next tree (`C78_refuted_moved`).
* `ViewCount.unregister_cllbck` misspells an attribute (`C34_unregister_raises`); a counter asked to refresh with an
  unknown filter (`C34_refuted_unknown`).
* A callback that asks for the paths of a node that appears below two parents raises inside the view and leaves it broken
  (`C52_refuted_two_parents`).
* `expand_node` makes the widget remember the node as collapsed (`C53_refuted_expand`); a widget for a view that is filled
  already shows all rows closed (`C53_refuted_start`).
* Actions for nodes called `added`, `modified`, ... collide with the callbacks of the view (`C35_refuted_shown`,
  `C35_refuted_poison`); an action that raises stays queued (`C35_refuted_raise`).
* Cached iterators of the GTK model may point to another row that now lives at the same address (`C36_refuted_reuse`,
  `C36_refuted_lookup`).
* `update_task` keeps the old value of a column whose new value is `None` (`C47_refuted_none`).
* The hidden `FilteredTree` of the main view does not count a node called `anonymous_root` (`C39_refuted_name`), and
  `node_nth_child` reads the raw list of children, with removed nodes (`C39_refuted_removed`).
* `node_nth_child` accepts negative numbers and counts from the end (`C79_refuted_negative`). A number that is too low raises
  `ValueError` in the main view and `IndexError` or `KeyError` in the others (`C79_refuted_error`).
* `node_has_child(None)` and `node_nth_child(None, n)` raise `KeyError` in filtered views although `None` stands for the top
  level in the related methods (`C40_refuted_none`); `next_node` without parent follows the first parent
  (`C40_refuted_parent`).
* Hiding several nodes at once and announcing them one by one (or with `refresh_all`) makes a view raise `KeyError` if a
  hidden node has several parents (`C45_refuted_hidden`, `C45_refuted_refresh`). A filter made flat is noticed only by a
  refilter (`C45_refuted_flat`).
* A child left behind by a removal is notified while it is neither below a parent nor at the top level
  (`C42_refuted_top`).
* `print_tree` of the main tree never ends when two nodes are among each other's children, which happens when a node with
  two parents was removed and its id is used again (`C56_refuted_endless`); an id `None` makes it raise (`C56_refuted_none`).
* `is_path_valid` rejects the paths of top-level nodes and accepts chains that do not start at the top (`C57_refuted_path`).
  Nothing calls it.
* A row that the user closed is opened when it loses its last child and gets another one (`C58_refuted_click`); no signal is
  sent for rows closed together with a row above or by losing their children (`C59_refuted_closed`).

## 7. Axioms of each theorem

<!-- axioms -->
| theorem | axioms |
|---|---|
| `Larch.C01_parents_children_agree_partial` | propext, Classical.choice, Quot.sound |
| `Larch.C01_refuted_removal` | propext |
| `Larch.C01_refuted_disabled` | propext |
| `Larch.C02_no_cycle` | propext, Classical.choice, Quot.sound |
| `Larch.C03_cycle_check_exact` | propext, Classical.choice, Quot.sound |
| `Larch.C03_cycle_check_ancestors` | propext, Classical.choice, Quot.sound |
| `Larch.C04_refused_changes_nothing` | propext, Classical.choice, Quot.sound |
| `Larch.C04_refuted_damaged` | propext |
| `Larch.C05_top_level_partial` | propext, Classical.choice, Quot.sound |
| `Larch.C05_refuted_disabled` | propext |
| `Larch.C05_refuted_circular` | propext |
| `Larch.C06_late_relations` | propext, Classical.choice, Quot.sound |
| `Larch.C06_any_order` | propext, Classical.choice, Quot.sound |
| `Larch.C07_existing_id_is_noop` | propext |
| `Larch.C08_removed_is_gone_iff` | propext, Classical.choice, Quot.sound |
| `Larch.C08_left_behind` | propext, Classical.choice, Quot.sound |
| `Larch.C08_removed_is_gone_partial` | propext, Classical.choice, Quot.sound |
| `Larch.C08_removed_is_invisible` | propext, Classical.choice, Quot.sound |
| `Larch.C08_refuted` | propext, Classical.choice, Quot.sound |
| `Larch.C09_removal_keeps_children` | propext, Classical.choice, Quot.sound |
| `Larch.C09_refuted_damaged` | propext |
| `Larch.C10_recursive_removal` | propext, Classical.choice, Quot.sound |
| `Larch.C11_new_relationship` | propext, Classical.choice, Quot.sound |
| `Larch.C11_node_methods` | propext, Classical.choice, Quot.sound |
| `Larch.C11_break_relationship` | propext, Classical.choice, Quot.sound |
| `Larch.C11_remove_parent` | propext, Classical.choice, Quot.sound |
| `Larch.C11_refuted_name` | propext |
| `Larch.C12_move_effect` | propext, Classical.choice, Quot.sound |
| `Larch.C12_move_dismisses_iff` | propext, Classical.choice, Quot.sound |
| `Larch.C12_move_dismisses_partial` | propext, Classical.choice, Quot.sound |
| `Larch.C12_move_to_top` | propext, Classical.choice, Quot.sound |
| `Larch.C12_refuted` | propext, Quot.sound |
| `Larch.C12_refuted_later` | propext, Quot.sound |
| `Larch.C13_failed_move_iff` | propext, Classical.choice, Quot.sound |
| `Larch.C13_failed_move_partial` | propext, Classical.choice, Quot.sound |
| `Larch.C13_refuted` | propext, Quot.sound |
| `Larch.C14_paths` | propext, Classical.choice, Quot.sound |
| `Larch.C14_node_for_path` | propext, Classical.choice, Quot.sound |
| `Larch.C14_empty_path` | propext |
| `Larch.C14_has_path` | propext, Classical.choice, Quot.sound |
| `Larch.C15_next_node` | propext, Classical.choice, Quot.sound |
| `Larch.C15_next_node_top` | propext, Classical.choice, Quot.sound |
| `Larch.C15_refuted` | propext |
| `Larch.C16_notifications_partial` | propext, Quot.sound |
| `Larch.C16_refuted` | propext |
| `Larch.C17_called` | propext, Classical.choice, Quot.sound |
| `Larch.C17_key_is_new` | propext, Classical.choice, Quot.sound |
| `Larch.C17_unknown_key` | propext, Quot.sound |
| `Larch.C18_no_loss_no_duplication` | propext, Quot.sound |
| `Larch.C18_waiting_distinct` | propext, Quot.sound |
| `Larch.C19_order` | propext, Quot.sound |
| `Larch.C19_push_order` | propext, Quot.sound |
| `Larch.C20_armed_partial` | propext, Quot.sound |
| `Larch.C20_drained_partial` | propext, Quot.sound |
| `Larch.C20_refuted` | propext, Quot.sound |
| `Larch.C21_deferred_effect` | propext, Quot.sound |
| `Larch.C21_deferred_equals_immediate_partial` | propext, Classical.choice, Quot.sound |
| `Larch.C21_refuted_priority` | propext, Quot.sound |
| `Larch.C21_refuted_coalescing` | propext, Quot.sound |
| `Larch.C22_bank_is_map_partial` | propext, Classical.choice, Quot.sound |
| `Larch.C22_return_values` | propext, Classical.choice, Quot.sound |
| `Larch.C22_refuted` | propext |
| `Larch.C23_absent_hidden` | none |
| `Larch.C23_verdict` | propext |
| `Larch.C23_negated` | none |
| `Larch.C24_exact_partial` | propext, Classical.choice, Quot.sound |
| `Larch.C24_batched_partial` | propext, Classical.choice, Quot.sound |
| `Larch.C24_refuted_parameters` | propext, Classical.choice, Quot.sound |
| `Larch.C24_refuted_removed` | propext, Classical.choice, Quot.sound |
| `Larch.C24_refuted_apply` | propext |
| `Larch.C24_refuted_root` | propext |
| `Larch.C25_shape_partial` | propext, Classical.choice, Quot.sound |
| `Larch.C25_batched_partial` | propext, Classical.choice, Quot.sound |
| `Larch.C26_observer_partial` | propext, Classical.choice, Quot.sound |
| `Larch.C26_batched_partial` | propext, Classical.choice, Quot.sound |
| `Larch.C26_refuted_current_state` | propext, Quot.sound |
| `Larch.C27_no_failure_partial` | propext, Classical.choice, Quot.sound |
| `Larch.C27_refuted_removal` | propext, Quot.sound |
| `Larch.C27_limit_structure` | propext |
| `Larch.C28_refilter` | propext, Classical.choice, Quot.sound |
| `Larch.C28_independent` | propext, Classical.choice, Quot.sound |
| `Larch.C28_apply` | propext, Classical.choice, Quot.sound |
| `Larch.C28_unapply` | propext, Classical.choice, Quot.sound |
| `Larch.C28_reset` | propext, Classical.choice, Quot.sound |
| `Larch.C29_apply` | propext, Classical.choice, Quot.sound |
| `Larch.C29_unapply` | propext, Classical.choice, Quot.sound |
| `Larch.C29_reset` | propext, Classical.choice, Quot.sound |
| `Larch.C29_history` | propext, Classical.choice, Quot.sound |
| `Larch.C29_refuted_unknown` | propext |
| `Larch.C30_current_state` | propext, Classical.choice, Quot.sound |
| `Larch.C30_late_observer` | propext, Classical.choice, Quot.sound |
| `Larch.C31_paths` | propext, Classical.choice, Quot.sound |
| `Larch.C31_paths_other` | propext |
| `Larch.C31_node_for_path` | propext, Classical.choice, Quot.sound |
| `Larch.C32_recursive` | propext, Classical.choice, Quot.sound |
| `Larch.C32_recursive_all` | propext, Classical.choice, Quot.sound |
| `Larch.C32_direct` | propext |
| `Larch.C33_nodes` | propext, Classical.choice, Quot.sound |
| `Larch.C34_exact_partial` | propext, Classical.choice, Quot.sound |
| `Larch.C34_observers` | propext, Classical.choice, Quot.sound |
| `Larch.C34_refuted_parameters` | propext, Quot.sound |
| `Larch.C34_refuted_removed` | propext, Quot.sound |
| `Larch.C34_refuted_unknown` | propext, Quot.sound |
| `Larch.C34_unregister_raises` | propext, Quot.sound |
| `Larch.C37_compatible` | propext, Classical.choice, Quot.sound |
| `Larch.C37_monotone` | propext, Classical.choice, Quot.sound |
| `Larch.C37_malformed` | propext, Quot.sound |
| `Larch.C38_named_once` | propext, Quot.sound |
| `Larch.C38_answered` | propext |
| `Larch.C38_main_view` | propext, Quot.sound |
| `Larch.C35_runonce_partial` | propext, Classical.choice, Quot.sound |
| `Larch.C35_refuted_shown` | propext |
| `Larch.C35_refuted_poison` | propext, Quot.sound |
| `Larch.C35_refuted_raise` | propext |
| `Larch.C36_mirror_partial` | propext, Classical.choice, Quot.sound |
| `Larch.C36_mirror_no_reuse_partial` | propext, Classical.choice, Quot.sound |
| `Larch.C36_view_partial` | propext, Classical.choice, Quot.sound |
| `Larch.C36_refuted_reuse` | propext, Quot.sound |
| `Larch.C36_refuted_lookup` | propext, Quot.sound |
| `Larch.C39_main_view_partial` | propext, Classical.choice, Quot.sound |
| `Larch.C39_refuted_name` | propext |
| `Larch.C39_refuted_removed` | propext |
| `Larch.C40_children` | propext, Classical.choice, Quot.sound |
| `Larch.C40_next_node_none` | propext, Classical.choice, Quot.sound |
| `Larch.C40_refuted_none` | propext |
| `Larch.C40_refuted_parent` | propext |
| `Larch.C41_relations_partial` | propext, Classical.choice, Quot.sound |
| `Larch.C41_refuted_removal` | propext |
| `Larch.C42_notified_in_order_partial` | propext, Classical.choice, Quot.sound |
| `Larch.C42_refuted_top` | propext, Quot.sound |
| `Larch.C43_refresh_all` | propext, Classical.choice, Quot.sound |
| `Larch.C44_add_node` | propext, Classical.choice, Quot.sound |
| `Larch.C45_announced_partial` | propext, Classical.choice, Quot.sound |
| `Larch.C45_refuted_hidden` | propext |
| `Larch.C45_refuted_refresh` | propext |
| `Larch.C45_refuted_flat` | propext, Classical.choice, Quot.sound |
| `Larch.C46_growing` | propext, Classical.choice, Quot.sound |
| `Larch.C46_any_order` | propext, Classical.choice, Quot.sound |
| `Larch.C47_cells_partial` | propext, Classical.choice, Quot.sound |
| `Larch.C47_refuted_none` | propext, Quot.sound |
| `Larch.C48_connect_partial` | propext, Classical.choice, Quot.sound |
| `Larch.C48_refuted_earlier` | propext |
| `Larch.C49_numbered_partial` | propext, Classical.choice, Quot.sound |
| `Larch.C49_shown_partial` | propext, Classical.choice, Quot.sound |
| `Larch.C49_sorting_partial` | propext, Classical.choice, Quot.sound |
| `Larch.C49_natural_order` | propext, Quot.sound |
| `Larch.C49_bg_color` | propext, Quot.sound |
| `Larch.C49_refuted_sorting` | propext |
| `Larch.C49_refuted_first` | propext, Quot.sound |
| `Larch.C50_screen_partial` | propext, Classical.choice, Quot.sound |
| `Larch.C50_only_dragged_partial` | propext, Classical.choice, Quot.sound |
| `Larch.C50_drop_partial` | propext, Classical.choice, Quot.sound |
| `Larch.C50_drop_top` | propext, Classical.choice, Quot.sound |
| `Larch.C50_drop_many_partial` | propext, Classical.choice, Quot.sound |
| `Larch.C50_drop_many_top` | propext, Classical.choice, Quot.sound |
| `Larch.C50_external_partial` | propext, Classical.choice, Quot.sound |
| `Larch.C50_refuted_empty` | none |
| `Larch.C50_refuted_descendant` | propext, Quot.sound |
| `Larch.C50_refuted_flat` | propext, Quot.sound |
| `Larch.C50_refuted_reuse` | propext, Quot.sound |
| `Larch.C50_refuted_nested` | propext, Quot.sound |
| `Larch.C51_edits_partial` | propext, Classical.choice, Quot.sound |
| `Larch.C51_iterators_partial` | propext, Classical.choice, Quot.sound |
| `Larch.C51_refuted_filter` | propext |
| `Larch.C51_refuted_children` | propext, Classical.choice, Quot.sound |
| `Larch.C52_callbacks_partial` | propext, Classical.choice, Quot.sound |
| `Larch.C52_runonce_partial` | propext, Classical.choice, Quot.sound |
| `Larch.C52_refuted_two_parents` | propext, Quot.sound |
| `Larch.C53_rows_partial` | propext, Classical.choice, Quot.sound |
| `Larch.C53_always_partial` | propext, Classical.choice, Quot.sound |
| `Larch.C53_expand_partial` | propext, Classical.choice, Quot.sound |
| `Larch.C53_refuted_start` | propext, Quot.sound |
| `Larch.C53_refuted_expand` | propext, Quot.sound |
| `Larch.C54_view_alone` | propext, Quot.sound |
| `Larch.C54_count_alone` | propext, Quot.sound |
| `Larch.C54_all_right_partial` | propext, Classical.choice, Quot.sound |
| `Larch.C54_refuted_params` | propext, Quot.sound |
| `Larch.C54_refuted_counter` | propext, Quot.sound |
| `Larch.C55_threads_partial` | propext, Classical.choice, Quot.sound |
| `Larch.C55_drained_partial` | propext, Classical.choice, Quot.sound |
| `Larch.C55_refuted_stuck` | propext, Quot.sound |
| `Larch.C56_tree_partial` | propext, Classical.choice, Quot.sound |
| `Larch.C56_view` | propext, Classical.choice, Quot.sound |
| `Larch.C56_gtk` | propext, Classical.choice, Quot.sound |
| `Larch.C56_refuted_endless` | propext |
| `Larch.C56_refuted_none` | propext |
| `Larch.C57_test_validity` | propext, Classical.choice, Quot.sound |
| `Larch.C57_passes_partial` | propext, Classical.choice, Quot.sound |
| `Larch.C57_path` | propext |
| `Larch.C57_refuted_path` | propext, Classical.choice, Quot.sound |
| `Larch.C58_click_partial` | propext, Classical.choice, Quot.sound |
| `Larch.C58_node_partial` | propext, Classical.choice, Quot.sound |
| `Larch.C58_node_hidden` | propext |
| `Larch.C58_application_partial` | propext, Classical.choice, Quot.sound |
| `Larch.C58_refuted_click` | propext, Quot.sound |
| `Larch.C59_path_partial` | propext, Classical.choice, Quot.sound |
| `Larch.C59_reachable` | propext |
| `Larch.C59_click_partial` | propext, Classical.choice, Quot.sound |
| `Larch.C59_node_partial` | propext, Classical.choice, Quot.sound |
| `Larch.C59_node_hidden` | propext |
| `Larch.C59_application_partial` | propext, Classical.choice, Quot.sound |
| `Larch.C59_refuted_closed` | propext, Quot.sound |
| `Larch.C60_moment_partial` | propext, Classical.choice, Quot.sound |
| `Larch.C60_compare_partial` | propext, Classical.choice, Quot.sound |
| `Larch.C60_refuted_removal` | propext, Quot.sound |
| `Larch.C61_cells_partial` | propext, Classical.choice, Quot.sound |
| `Larch.C61_colours_partial` | propext, Classical.choice, Quot.sound |
| `Larch.C61_draw` | propext, Quot.sound |
| `Larch.C61_refuted_stale` | propext, Quot.sound |
| `Larch.C61_refuted_none` | propext, Quot.sound |
| `Larch.C61_refuted_unknown` | propext, Quot.sound |
| `Larch.C61_refuted_own` | propext |
| `Larch.C61_refuted_hidden` | propext, Quot.sound |
| `Larch.C62_interleaved` | propext, Quot.sound |
| `Larch.C62_application_partial` | propext, Classical.choice, Quot.sound |
| `Larch.C62_threads_partial` | propext, Classical.choice, Quot.sound |
| `Larch.C62_interrupted_partial` | propext, Classical.choice, Quot.sound |
| `Larch.C62_refuted_lost` | propext, Quot.sound |
| `Larch.C62_refuted_view` | propext, Quot.sound |
| `Larch.C62_refuted_threads` | propext, Quot.sound |
| `Larch.C63_removed_partial` | propext, Classical.choice, Quot.sound |
| `Larch.C63_again_partial` | propext, Classical.choice, Quot.sound |
| `Larch.C63_calls_partial` | propext, Classical.choice, Quot.sound |
| `Larch.C63_request_partial` | propext, Classical.choice, Quot.sound |
| `Larch.C63_tree_partial` | propext, Classical.choice, Quot.sound |
| `Larch.C63_history_partial` | propext, Classical.choice, Quot.sound |
| `Larch.C63_undo_partial` | propext, Classical.choice, Quot.sound |
| `Larch.C63_refuted_parents` | propext |
| `Larch.C63_refuted_cycle` | propext |
| `Larch.C63_refuted_child` | propext |
| `Larch.C63_refuted_namesake` | propext |
| `Larch.C64_children_partial` | propext, Classical.choice, Quot.sound |
| `Larch.C64_refuted_parents` | propext, Quot.sound |
| `Larch.C64_refuted_more` | propext, Quot.sound |
| `Larch.C65_below_partial` | propext, Classical.choice, Quot.sound |
| `Larch.C65_refuted_parents` | propext, Classical.choice, Quot.sound |
| `Larch.C65_refuted_flat` | propext, Classical.choice, Quot.sound |
| `Larch.C65_refuted_bubble` | propext, Classical.choice, Quot.sound |
| `Larch.C66_no_cycle` | propext, Classical.choice, Quot.sound |
| `Larch.C66_consistent_partial` | propext, Classical.choice, Quot.sound |
| `Larch.C66_consistent_later_partial` | propext, Classical.choice, Quot.sound |
| `Larch.C66_refuted_removal` | propext, Quot.sound |
| `Larch.C66_refuted_disable` | propext, Quot.sound |
| `Larch.C66_refuted_move` | propext, Quot.sound |
| `Larch.C67_loosening_partial` | propext, Classical.choice, Quot.sound |
| `Larch.C67_tightening_partial` | propext, Classical.choice, Quot.sound |
| `Larch.C67_refuted_link` | propext, Quot.sound |
| `Larch.C67_refuted_flip` | propext, Quot.sound |
| `Larch.C67_refuted_raise` | propext, Quot.sound |
| `Larch.C68_refilter` | propext, Classical.choice, Quot.sound |
| `Larch.C68_repaired_partial` | propext, Classical.choice, Quot.sound |
| `Larch.C68_nothing_raises` | propext, Quot.sound |
| `Larch.C68_refuted_parent` | propext, Quot.sound |
| `Larch.C68_refuted_child` | propext, Quot.sound |
| `Larch.C68_refuted_removal` | propext, Quot.sound |
| `Larch.C68_refuted_edit` | propext, Quot.sound |
| `Larch.C68_refuted_again` | propext |
| `Larch.C69_alone` | propext, Classical.choice, Quot.sound |
| `Larch.C69_last` | propext, Classical.choice, Quot.sound |
| `Larch.C69_calls` | propext |
| `Larch.C69_names` | propext |
| `Larch.C69_refuted_shared` | propext, Quot.sound |
| `Larch.C70_told_partial` | propext |
| `Larch.C70_refuted_start` | propext |
| `Larch.C70_refuted_click` | propext |
| `Larch.C70_refuted_unknown` | propext |
| `Larch.C71_raises` | propext, Classical.choice, Quot.sound |
| `Larch.C71_sources_partial` | propext, Classical.choice, Quot.sound |
| `Larch.C71_drop_partial` | propext, Classical.choice, Quot.sound |
| `Larch.C71_sendable` | propext |
| `Larch.C71_refuted_twice` | propext, Quot.sound |
| `Larch.C71_refuted_again` | none |
| `Larch.C72_selected_partial` | propext, Classical.choice, Quot.sound |
| `Larch.C72_edit_partial` | propext, Classical.choice, Quot.sound |
| `Larch.C72_separator_partial` | propext, Classical.choice, Quot.sound |
| `Larch.C72_refuted_refilter` | propext, Quot.sound |
| `Larch.C72_refuted_twice` | propext, Classical.choice, Quot.sound |
| `Larch.C73_bools_partial` | propext, Classical.choice, Quot.sound |
| `Larch.C73_truth_partial` | propext, Classical.choice, Quot.sound |
| `Larch.C73_counter_numbers` | propext, Classical.choice, Quot.sound |
| `Larch.C73_counter_raises` | propext, Classical.choice, Quot.sound |
| `Larch.C73_refuted_even` | propext, Quot.sound |
| `Larch.C73_refuted_none` | propext, Quot.sound |
| `Larch.C74_exact_partial` | propext, Classical.choice, Quot.sound |
| `Larch.C74_refuted_arrival` | propext, Quot.sound |
| `Larch.C74_refuted_below` | propext, Quot.sound |
| `Larch.C75_copied` | propext, Quot.sound |
| `Larch.C75_follows_added` | propext, Quot.sound |
| `Larch.C75_follows_applied` | propext, Quot.sound |
| `Larch.C75_exactly_holders` | propext, Quot.sound |
| `Larch.C75_all_right_partial` | propext, Classical.choice, Quot.sound |
| `Larch.C75_refuted_view` | propext, Quot.sound |
| `Larch.C75_refuted_counter` | propext, Quot.sound |
| `Larch.C75_refuted_empty` | propext, Quot.sound |
| `Larch.C76_tree_partial` | propext, Classical.choice, Quot.sound |
| `Larch.C76_tree_new_ids_partial` | propext, Classical.choice, Quot.sound |
| `Larch.C76_removal_succeeds` | propext, Classical.choice, Quot.sound |
| `Larch.C76_views_partial` | propext, Classical.choice, Quot.sound |
| `Larch.C76_views_new_ids_partial` | propext, Classical.choice, Quot.sound |
| `Larch.C76_suite_partial` | propext, Classical.choice, Quot.sound |
| `Larch.C76_suite_new_ids_partial` | propext, Classical.choice, Quot.sound |
| `Larch.C76_refuted_reuse` | propext, Quot.sound |
| `Larch.C76_refuted_keyError` | propext, Classical.choice, Quot.sound |
| `Larch.C76_refuted_leaf` | propext, Classical.choice, Quot.sound |
| `Larch.C77_order_partial` | propext, Classical.choice, Quot.sound |
| `Larch.C77_late_observer` | propext, Classical.choice, Quot.sound |
| `Larch.C77_screen_partial` | propext, Classical.choice, Quot.sound |
| `Larch.C77_suite_partial` | propext, Classical.choice, Quot.sound |
| `Larch.C77_leftover_partial` | propext, Classical.choice, Quot.sound |
| `Larch.C77_refuted_tree` | propext, Quot.sound |
| `Larch.C78_others_partial` | propext, Classical.choice, Quot.sound |
| `Larch.C78_separate_partial` | propext, Classical.choice, Quot.sound |
| `Larch.C78_trees_partial` | propext, Classical.choice, Quot.sound |
| `Larch.C78_next_partial` | propext, Classical.choice, Quot.sound |
| `Larch.C78_history_partial` | propext, Classical.choice, Quot.sound |
| `Larch.C78_edit_partial` | propext, Classical.choice, Quot.sound |
| `Larch.C78_careful_partial` | propext, Classical.choice, Quot.sound |
| `Larch.C78_refuted_shared` | propext |
| `Larch.C78_refuted_moved` | propext, Classical.choice, Quot.sound |
| `Larch.C79_natural` | propext, Quot.sound |
| `Larch.C79_main_partial` | propext, Classical.choice, Quot.sound |
| `Larch.C79_view_partial` | propext, Classical.choice, Quot.sound |
| `Larch.C79_hidden` | propext |
| `Larch.C79_refuted_negative` | propext |
| `Larch.C79_refuted_error` | propext |
| `Larch.C80_removal_partial` | propext, Classical.choice, Quot.sound |
| `Larch.C80_refuted_four` | propext, Quot.sound |
| `Larch.C81_alive_partial` | propext, Classical.choice, Quot.sound |
| `Larch.C81_refreshed_partial` | propext, Classical.choice, Quot.sound |
| `Larch.C81_follows_partial` | propext, Classical.choice, Quot.sound |
| `Larch.C81_refuted_leaving` | propext, Quot.sound |
| `Larch.C82_alive` | propext, Classical.choice, Quot.sound |
| `Larch.C82_refreshed` | propext, Classical.choice, Quot.sound |
| `Larch.C82_touched` | propext, Classical.choice, Quot.sound |
| `Larch.C83_all_right` | propext, Classical.choice, Quot.sound |
| `Larch.C83_refreshed` | propext, Classical.choice, Quot.sound |
| `Larch.C84_forest` | propext, Classical.choice, Quot.sound |
| `Larch.C84_raises` | propext, Classical.choice, Quot.sound |
| `Larch.C84_all_right` | propext, Classical.choice, Quot.sound |
| `Larch.C84_refuted_early` | propext, Quot.sound |
| `Larch.C85_one_path` | propext, Classical.choice, Quot.sound |
| `Larch.C85_one_row` | propext, Classical.choice, Quot.sound |
| `Larch.C86_move` | propext, Classical.choice, Quot.sound |
| `Larch.C86_remove_all` | propext, Classical.choice, Quot.sound |
| `Larch.C86_remove_one` | propext, Classical.choice, Quot.sound |
| `Larch.C86_add` | propext, Classical.choice, Quot.sound |
| `Larch.C86_relate` | propext, Classical.choice, Quot.sound |
| `Larch.C86_detach` | propext, Classical.choice, Quot.sound |
| `Larch.C87_move` | propext, Classical.choice, Quot.sound |
| `Larch.C87_detach` | propext, Classical.choice, Quot.sound |
| `Larch.C87_add` | propext, Classical.choice, Quot.sound |
| `Larch.C87_remove` | propext, Classical.choice, Quot.sound |
| `Larch.C88_load` | propext, Classical.choice, Quot.sound |
| `Larch.C88_last` | propext, Classical.choice, Quot.sound |
| `Larch.C89_move` | propext, Classical.choice, Quot.sound |
| `Larch.C89_relate` | propext, Classical.choice, Quot.sound |
| `Larch.C89_detach` | propext, Classical.choice, Quot.sound |
