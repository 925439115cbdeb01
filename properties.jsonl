{"id": "C01", "title": "Parents and children agree", "statement": "After any sequence of tree edits (add_node, del_node, move_node, add_parent, add_child, remove_parent, enabling/disabling of parents or children), node B is listed among the children of A exactly when A is listed among the parents of B, both nodes exist, and no neighbour is listed twice.", "quantifier": "every finite history of edits from the empty tree, in any order, with any node ids", "why_tests_cant": "the edit histories are unbounded and the damaging ones (for instance deleting a node that has two parents, then re-using its id) are combinations tests do not enumerate", "anchors": ["liblarch/tree.py::MainTree._create_relationship", "liblarch/tree.py::MainTree._destroy_relationship", "liblarch/tree.py::MainTree._remove_node", "liblarch/treenode.py::_Node.add_child", "liblarch/treenode.py::_Node.remove_parent"]}
{"id": "C02", "title": "The graph stays acyclic", "statement": "No sequence of edits that adds only newly created node objects ever makes a node its own ancestor (following get_parents), so every upward walk ends.", "quantifier": "every finite history of edits, including ones where some calls raise", "why_tests_cant": "a cycle can be closed by any pair of edits however far apart; tests try two short attempts", "anchors": ["liblarch/tree.py::MainTree._is_circular_relation", "liblarch/tree.py::MainTree._new_relationship", "liblarch/tree.py::MainTree._add_node"]}
{"id": "C03", "title": "Cycle check is exact and terminates", "statement": "On every acyclic tree the circularity test finishes, and it reports a circular relation exactly when the proposed child is the proposed parent or one of its ancestors.", "quantifier": "every acyclic tree of any size and depth, every pair of ids, existing or not", "why_tests_cant": "needs soundness and completeness of a graph search on all graphs, and termination although the search never marks visited nodes", "anchors": ["liblarch/tree.py::MainTree._is_circular_relation"]}
{"id": "C04", "title": "A refused relationship changes nothing", "statement": "When adding a parent or a child is refused because it would close a cycle, the call raises and the tree (nodes, parents, children, root list, pending relations) is exactly what it was before, and no observer is notified.", "quantifier": "every consistent tree and every pair of node ids whose relation would be circular", "why_tests_cant": "must hold on every shape of tree; the code edits the lists first and undoes the edit on refusal", "anchors": ["liblarch/tree.py::MainTree._new_relationship", "liblarch/treenode.py::_Node.add_child", "liblarch/treenode.py::_Node.add_parent"]}
{"id": "C05", "title": "The root list is exactly the parentless nodes", "statement": "After any history of edits, the children of the virtual root are exactly the existing nodes that have no parent, each once; hence every node is reachable from the root.", "quantifier": "every finite history of edits", "why_tests_cant": "a lost or duplicated top-level node depends on the interleaving of adds, breaks and removals", "anchors": ["liblarch/tree.py::MainTree._create_relationship", "liblarch/tree.py::MainTree._remove_node", "liblarch/tree.py::MainTree._break_relationship", "liblarch/tree.py::MainTree._add_node"]}
{"id": "C06", "title": "Late parents and children are linked when they arrive", "statement": "Relations declared while one endpoint does not exist yet are kept and are realised as soon as both endpoints exist: after adding all nodes, the parent/child pairs are exactly the declared ones, whatever the order in which the nodes were added.", "quantifier": "every acyclic set of declared relations, every order (permutation) of adding the nodes", "why_tests_cant": "number of orders is factorial; tests try a handful of late-parent orders", "anchors": ["liblarch/tree.py::MainTree._add_node", "liblarch/tree.py::MainTree.pending_relationships", "liblarch/treenode.py::_Node.add_parent", "liblarch/treenode.py::_Node.add_child"]}
{"id": "C07", "title": "Adding an existing id is a no-op", "statement": "add_node with an id that is already in the tree leaves the whole tree unchanged and notifies nobody.", "quantifier": "every tree state, every node object carrying an existing id, any parent argument", "why_tests_cant": "must hold in all states", "anchors": ["liblarch/tree.py::MainTree._add_node"]}
{"id": "C08", "title": "A removed node is gone everywhere", "statement": "After a successful removal the node is not in the tree, is in no parents list, children list, root list or pending relation, so its id can be re-used as new.", "quantifier": "every consistent tree, every node in it, every number of parents and children", "why_tests_cant": "depends on every possible neighbourhood; the removal loop mutates the list it iterates", "anchors": ["liblarch/tree.py::MainTree._remove_node"]}
{"id": "C09", "title": "Removing a node keeps its children", "statement": "Non-recursive removal of a node keeps every other node; each child loses exactly that parent, and becomes a top-level node exactly when it has no other parent; all other relations are untouched.", "quantifier": "every consistent tree and node", "why_tests_cant": "needs a frame condition over all nodes of all trees", "anchors": ["liblarch/tree.py::MainTree._remove_node"]}
{"id": "C10", "title": "Recursive removal removes exactly the descendants", "statement": "Recursive removal terminates, and removes the node and all its descendants and no other node.", "quantifier": "every consistent acyclic tree, including nodes reachable by several paths", "why_tests_cant": "unbounded shapes; diamonds are visited several times", "anchors": ["liblarch/tree.py::MainTree._remove_node"]}
{"id": "C11", "title": "add_parent / break relation have exactly the intended effect", "statement": "Adding a non-circular relation between existing nodes adds exactly that parent/child pair and removes the child from the top level; breaking a relation removes exactly that pair and moves the child to the top level exactly when it was its last parent. Everything else is unchanged.", "quantifier": "every consistent tree and every pair of ids", "why_tests_cant": "frame condition over all other nodes of all trees", "anchors": ["liblarch/tree.py::MainTree._new_relationship", "liblarch/tree.py::MainTree._break_relationship", "liblarch/__init__.py::Tree.add_parent"]}
{"id": "C12", "title": "move_node dismisses all other parents", "statement": "After move_node(n, p) succeeds with p an existing node, the parents of n are exactly [p]; with p None the node has no parent and is top level.", "quantifier": "every consistent tree, every node with any number of parents, every target", "why_tests_cant": "depends on the number of previous parents; the loop mutates the list it iterates over", "anchors": ["liblarch/__init__.py::Tree.move_node", "liblarch/treenode.py::_Node.set_parent"]}
{"id": "C13", "title": "A failed move leaves the node where it was", "statement": "If move_node raises because the target is a descendant, the node keeps the parents it had.", "quantifier": "every consistent tree, every node and every descendant of it", "why_tests_cant": "needs all shapes", "anchors": ["liblarch/__init__.py::Tree.move_node", "liblarch/treenode.py::_Node.set_parent"]}
{"id": "C14", "title": "Paths are exactly the chains from the root", "statement": "get_paths_for_node(n) on the main tree terminates and returns, once each, exactly the tuples (n1,...,n) where n1 has no parent and each element is a child of the previous one; get_node_for_path(path) returns n exactly for those tuples and None for all other tuples over existing nodes.", "quantifier": "every consistent tree, every node and every tuple", "why_tests_cant": "number of paths is exponential in the size of the graph", "anchors": ["liblarch/tree.py::MainTree.get_paths_for_node", "liblarch/tree.py::MainTree.get_node_for_path"]}
{"id": "C15", "title": "Sibling iteration visits every child once", "statement": "Starting at the first child of a parent and following next_node(child, parent) until None visits exactly the children of that parent, each once, in order.", "quantifier": "every consistent tree, every parent, any number of children", "why_tests_cant": "unbounded lists of siblings, nodes with several parents", "anchors": ["liblarch/tree.py::MainTree.next_node", "liblarch/treenode.py::_Node.get_nth_child", "liblarch/treenode.py::_Node.get_child_index", "liblarch/filteredtree.py::FilteredTree.next_node"]}
{"id": "C16", "title": "Tree notifications reconstruct the node set", "statement": "The node-added and node-deleted notifications a tree observer receives during any history determine the node set: a node exists exactly when the last of those notifications about it was node-added; node-modified is only sent for nodes that exist at that moment.", "quantifier": "every finite history of edits", "why_tests_cant": "property of whole notification streams", "anchors": ["liblarch/tree.py::MainTree._callback", "liblarch/tree.py::MainTree._add_node", "liblarch/tree.py::MainTree._remove_node", "liblarch/tree.py::MainTree._modify_node"]}
{"id": "C17", "title": "Callback registry", "statement": "register returns a key not in use for that event; every registered and not deregistered callback is called exactly once per event in registration-dictionary order; deregistering removes exactly that callback and deregistering an unknown key does nothing.", "quantifier": "every history of register/deregister calls over any events", "why_tests_cant": "unbounded histories with key re-use", "anchors": ["liblarch/tree.py::MainTree.register_callback", "liblarch/tree.py::MainTree.deregister_callback", "liblarch/tree.py::MainTree._callback", "liblarch/viewtree.py::ViewTree.register_cllbck", "liblarch/viewtree.py::ViewTree.deregister_cllbck"]}
{"id": "C18", "title": "Cross-thread requests are neither lost nor duplicated", "statement": "Every request pushed from another thread is executed exactly once unless an equal request was still waiting in the same priority queue, in which case that one stands for both; requests never come out of thin air.", "quantifier": "every interleaving of pushes from any number of threads with idle-loop processing steps", "why_tests_cant": "all schedules", "anchors": ["liblarch/processqueue.py::SyncQueue.push", "liblarch/processqueue.py::SyncQueue.process"]}
{"id": "C19", "title": "Queue order", "statement": "Within one priority requests are executed in push order; a waiting high-priority request is executed before any waiting normal one, which is executed before any waiting low one.", "quantifier": "every interleaving of pushes and processing steps", "why_tests_cant": "all schedules", "anchors": ["liblarch/processqueue.py::SyncQueue.process", "liblarch/processqueue.py::SyncQueue.push"]}
{"id": "C20", "title": "The idle handler is armed exactly while work is waiting", "statement": "Outside the critical sections an idle handler is installed if and only if some request is waiting, at most one handler exists at a time, and k processing steps drain a backlog of k requests.", "quantifier": "every interleaving of pushes and processing steps", "why_tests_cant": "liveness-relevant invariant over all schedules", "anchors": ["liblarch/processqueue.py::SyncQueue.push", "liblarch/processqueue.py::SyncQueue.process", "liblarch/processqueue.py::SyncQueue._handler"]}
{"id": "C21", "title": "Deferred execution equals immediate execution", "statement": "A sequence of requests pushed from one other thread and then processed leaves the same tree as executing the same calls immediately in program order.", "quantifier": "every sequence of requests", "why_tests_cant": "all sequences and priorities", "anchors": ["liblarch/processqueue.py::SyncQueue.push", "liblarch/processqueue.py::SyncQueue.process", "liblarch/tree.py::MainTree.add_node", "liblarch/tree.py::MainTree.remove_node"]}
{"id": "C22", "title": "Filter bank is a map from names to filters", "statement": "add_filter on a new name makes exactly that name available with that function and parameters and returns True, on an existing name it changes nothing and returns False; remove_filter removes exactly that name; list/has/get agree with each other after any history.", "quantifier": "every history of bank operations and every name", "why_tests_cant": "unbounded histories, all names including the special '!' prefix", "anchors": ["liblarch/filters_bank.py::FiltersBank.add_filter", "liblarch/filters_bank.py::FiltersBank.remove_filter", "liblarch/filters_bank.py::FiltersBank.get_filter", "liblarch/filters_bank.py::FiltersBank.list_filters"]}
{"id": "C23", "title": "Filter evaluation", "statement": "A filter hides every id that is not in the tree, otherwise it answers its function's verdict, inverted exactly when its parameters contain a true 'negate'.", "quantifier": "every filter function, parameter dictionary, tree and node id", "why_tests_cant": "all functions and parameters", "anchors": ["liblarch/filters_bank.py::Filter.is_displayed", "liblarch/filters_bank.py::Filter.set_parameters"]}
{"id": "C24", "title": "A view shows exactly the nodes its filters accept", "statement": "After any history of tree edits and filter changes with refresh, the nodes displayed by a view are exactly the nodes of the tree accepted by all applied filters.", "quantifier": "every history of edits; every predicate on a node's own data as filter, predicates on its children (as in C64) and on everything below it (as in C65); changes of data are announced by modified()", "why_tests_cant": "incremental maintenance through mutually recursive updates; all histories and shapes", "anchors": ["liblarch/filteredtree.py::FilteredTree.__update_node", "liblarch/filteredtree.py::FilteredTree.refilter", "liblarch/filteredtree.py::FilteredTree.is_displayed"]}
{"id": "C25", "title": "A view shows the right shape", "statement": "In such a view the parents of a displayed node are exactly its displayed tree parents, or the virtual root if it has none; children lists mirror parents lists; with a flat filter every displayed node is a child of the virtual root.", "quantifier": "every history of edits and filter changes, every node", "why_tests_cant": "same as C24", "anchors": ["liblarch/filteredtree.py::FilteredTree.__node_parents", "liblarch/filteredtree.py::FilteredTree.__update_node", "liblarch/filteredtree.py::FilteredTree.node_parents", "liblarch/filteredtree.py::FilteredTree.node_all_children"]}
{"id": "C26", "title": "View signals reconstruct the view", "statement": "An observer that inserts a row for each node-added-inview(path) and deletes a row for each node-deleted-inview(path) always ends up with exactly the paths of the view: every insertion is of a path not yet present whose parent path is present, every deletion is of a present path without rows below it.", "quantifier": "every history of edits and filter changes", "why_tests_cant": "signal streams of unbounded length, node orders chosen by set iteration", "anchors": ["liblarch/filteredtree.py::FilteredTree.send_add_tree", "liblarch/filteredtree.py::FilteredTree.send_remove_tree", "liblarch/filteredtree.py::FilteredTree.__update_node", "liblarch/viewtree.py::ViewTree.__emit"]}
{"id": "C27", "title": "View maintenance never fails", "statement": "Processing a tree notification in a view terminates and raises no exception.", "quantifier": "every history of edits; filters on a node's own data, on its children (as in C64) or on everything below it (as in C65); any iteration order of Python sets", "why_tests_cant": "recursion over arbitrary graphs, internal consistency exceptions in the code", "anchors": ["liblarch/filteredtree.py::FilteredTree.__update_node", "liblarch/filteredtree.py::FilteredTree.get_paths_for_node"]}
{"id": "C28", "title": "Refiltering rebuilds the view from scratch", "statement": "refilter (and apply_filter, unapply_filter, reset_filters with refresh) terminates without exception on every consistent tree and every filter, and its result depends only on the tree and the applied filters, not on the previous content of the view.", "quantifier": "every consistent tree, every filter predicate (also depending on the tree structure), every previous view content", "why_tests_cant": "all trees, all predicates", "anchors": ["liblarch/filteredtree.py::FilteredTree.refilter", "liblarch/filteredtree.py::FilteredTree.apply_filter", "liblarch/filteredtree.py::FilteredTree.unapply_filter", "liblarch/filteredtree.py::FilteredTree.reset_filters"]}
{"id": "C29", "title": "Applied filter list", "statement": "apply_filter appends a filter name once (after clearing the list if reset is set) and reports whether it was new; unapply removes it and reports whether it was there; reset empties the list; a view refilters exactly when refresh is requested and the list or the parameters changed.", "quantifier": "every history of filter operations", "why_tests_cant": "unbounded histories and flag combinations", "anchors": ["liblarch/filteredtree.py::FilteredTree.apply_filter", "liblarch/filteredtree.py::FilteredTree.unapply_filter", "liblarch/filteredtree.py::FilteredTree.reset_filters"]}
{"id": "C30", "title": "Connecting late gives the current state", "statement": "get_current_state sends one added signal for every path of the view, parents before children, nothing else, and does not change the view.", "quantifier": "every view state", "why_tests_cant": "all shapes; number of paths exponential", "anchors": ["liblarch/filteredtree.py::FilteredTree.get_current_state", "liblarch/filteredtree.py::FilteredTree.send_add_tree"]}
{"id": "C31", "title": "View paths", "statement": "get_paths_for_node on a view returns exactly the chains of displayed parent/child pairs from the virtual root to the node, and get_node_for_path inverts it.", "quantifier": "every view state, node and path", "why_tests_cant": "number of paths exponential", "anchors": ["liblarch/filteredtree.py::FilteredTree.get_paths_for_node", "liblarch/filteredtree.py::FilteredTree.get_node_for_path"]}
{"id": "C32", "title": "Recursive child count", "statement": "node_n_children(n, recursive=True) is the number of rows shown below one row of n; non-recursive is the number of displayed children.", "quantifier": "every view state and node", "why_tests_cant": "all shapes; shared descendants are counted once per path", "anchors": ["liblarch/filteredtree.py::FilteredTree.node_n_children", "liblarch/viewtree.py::ViewTree.node_n_children"]}
{"id": "C33", "title": "Node count with extra filters", "statement": "get_n_nodes(withfilters) is the number of displayed nodes accepted by all the known extra filters, and is never a stale cached answer.", "quantifier": "every view state and list of filter names", "why_tests_cant": "there is a cache in front of the computation", "anchors": ["liblarch/filteredtree.py::FilteredTree.get_nodes", "liblarch/filteredtree.py::FilteredTree.get_n_nodes", "liblarch/filteredtree.py::FilteredTree.filter_cache"]}
{"id": "C34", "title": "View counters are exact", "statement": "A ViewCount created with refresh always reports the number of tree nodes accepted by all its filters, and calls its observers whenever the number changes.", "quantifier": "every history of tree edits and filter application / removal; filters on a node's own data", "why_tests_cant": "all histories", "anchors": ["liblarch/viewcount.py::ViewCount.__modify", "liblarch/viewcount.py::ViewCount.apply_filter", "liblarch/viewcount.py::ViewCount.unapply_filter", "liblarch/viewcount.py::ViewCount.get_n_nodes"]}
{"id": "C35", "title": "Run-once actions run exactly once", "statement": "An action queued for a node that is not displayed is executed when the node first appears in the view and never again; for a node already displayed it is scheduled immediately.", "quantifier": "every history of queue_action calls and displayed-node signals, every node id", "why_tests_cant": "histories and ids, including ids equal to internal event names", "anchors": ["liblarch/filteredtree.py::FilteredTree.set_callback", "liblarch/filteredtree.py::FilteredTree.callback", "liblarch/viewtree.py::ViewTree.queue_action"]}
{"id": "C36", "title": "The GTK model mirrors the signals", "statement": "Feeding a well-formed signal stream to the GTK tree model keeps its rows equal to the announced paths; the row found for a path is the row of that path in spite of the two lookup caches, and no call raises.", "quantifier": "every well-formed stream of added/modified/deleted signals and any interleaving with lookups", "why_tests_cant": "cache validity over all histories", "anchors": ["liblarch_gtk/treemodel.py::TreeModel.my_get_iter", "liblarch_gtk/treemodel.py::TreeModel.add_task", "liblarch_gtk/treemodel.py::TreeModel.remove_task", "liblarch_gtk/treemodel.py::TreeModel.update_task"]}
{"id": "C37", "title": "API compatibility test", "statement": "is_compatible accepts a requested version exactly when its major number equals 3 and its minor number is at most 0, and two requests that differ only in a smaller minor number are never accepted in the wrong order.", "quantifier": "every pair of version numbers", "why_tests_cant": "infinitely many versions", "anchors": ["liblarch/__init__.py::is_compatible"]}
{"id": "C38", "title": "Named views and counters are created once", "statement": "get_viewtree(name) and get_viewcount(name) return the same object for the same name over any history, different objects for different names, and a fresh object for None.", "quantifier": "every history of get_viewtree/get_viewcount calls", "why_tests_cant": "unbounded histories", "anchors": ["liblarch/__init__.py::Tree.get_viewtree", "liblarch/__init__.py::Tree.get_viewcount"]}
{"id": "C39", "title": "The main view agrees with the tree", "statement": "The main view (get_main_view) is not filtered: which nodes it displays, all nodes, the nodes and their number with extra filters, the children, their number, the n-th child, the number of all rows below a node and the parents are those of the main tree, although some of these questions are answered by a FilteredTree that is made at the first such question and follows the edits from then on. A node the tree does not have has no children here, applying, unapplying or resetting a filter is refused, and no question raises.", "quantifier": "every history of edits, changes of data, changes of the filter bank and questions; every set iteration order", "why_tests_cant": "the hidden FilteredTree is made at an arbitrary point of an unbounded history", "anchors": ["liblarch/viewtree.py::ViewTree.get_n_nodes", "liblarch/viewtree.py::ViewTree.get_nodes", "liblarch/viewtree.py::ViewTree.node_n_children", "liblarch/viewtree.py::ViewTree.node_nth_child", "liblarch/viewtree.py::ViewTree.node_all_children", "liblarch/viewtree.py::ViewTree.node_has_child", "liblarch/viewtree.py::ViewTree.node_parents", "liblarch/viewtree.py::ViewTree.is_displayed", "liblarch/viewtree.py::ViewTree.apply_filter"]}
{"id": "C40", "title": "All ways to read the children of a displayed node agree", "statement": "In every view node_all_children, node_n_children, node_has_child, node_nth_child and the walk from the first child with next_node give the same children, each once, for every displayed node and for the top level, which is asked for with None; an index that is too large gives ValueError.", "quantifier": "every view that holds together, every displayed node, every index", "why_tests_cant": "infinitely many views and unbounded walks", "anchors": ["liblarch/viewtree.py::ViewTree.next_node", "liblarch/viewtree.py::ViewTree.node_nth_child", "liblarch/filteredtree.py::FilteredTree.next_node", "liblarch/filteredtree.py::FilteredTree.node_all_children", "liblarch/filteredtree.py::FilteredTree.node_has_child", "liblarch/filteredtree.py::FilteredTree.node_nth_child"]}
{"id": "C41", "title": "Notifications suffice to follow all relations", "statement": "Whoever keeps a table of (parent, child) pairs, starts with a right one at any time, and on every node-added, node-modified and node-deleted only throws away the pairs with the named node and reads its parents and children again at that moment, has a right table after every further history.", "quantifier": "every history before and after the start, every right table", "why_tests_cant": "unbounded histories; a missing notification shows only in some combination of edits", "anchors": ["liblarch/tree.py::MainTree._callback", "liblarch/tree.py::MainTree._remove_node", "liblarch/tree.py::MainTree._new_relationship", "liblarch/tree.py::MainTree._break_relationship", "liblarch/tree.py::MainTree._add_node"]}
{"id": "C42", "title": "Callbacks see an orderly tree", "statement": "Whenever a callback is called, also in the middle of an operation, the tree it can read is in order: parents and children agree, there is no cycle, and the top level consists of the parentless nodes.", "quantifier": "every history, every notification in it", "why_tests_cant": "intermediate states of unbounded histories", "anchors": ["liblarch/tree.py::MainTree._remove_node", "liblarch/tree.py::MainTree._callback"]}
{"id": "C43", "title": "refresh_all notifies every node once", "statement": "refresh_all sends exactly one node-modified for every node (apart from a node named 'root'), about the unchanged tree, and changes nothing.", "quantifier": "every history, careful or not", "why_tests_cant": "unbounded histories and trees", "anchors": ["liblarch/tree.py::MainTree.refresh_all", "liblarch/tree.py::MainTree._modify_node"]}
{"id": "C44", "title": "Adding a node has exactly the declared effect on any tree", "statement": "After any history, adding a node creates exactly those waiting or requested relations whose ends both exist now, keeps the others waiting, touches nothing else, and sends one node-added, provided that all relations together have no cycle.", "quantifier": "every history of a careful user, every new node with any declared relations, every parent argument", "why_tests_cant": "unbounded histories including removals; arbitrary sets of waiting relations", "anchors": ["liblarch/tree.py::MainTree._add_node", "liblarch/tree.py::MainTree._create_relationship"]}
{"id": "C45", "title": "A view catches up with changes announced later", "statement": "The application may change the data of any nodes and the parameters of any filters without telling anybody and announce the affected nodes afterwards, one by one in any order with refresh_node, or all with refresh_all: no call raises, and after the last announcement the view again displays exactly the accepted nodes, below the right parents, and every observer has the right rows.", "quantifier": "every history mixing announced and late changes; every set of changed nodes; every order of the announcements; every tree in which a node has at most one parent, every tree at all if the view is flat or no displayed node has to go", "why_tests_cant": "all orders of announcements over trees and filter answers of unbounded size; each announcement meets a view that is out of date elsewhere", "anchors": ["liblarch/filteredtree.py::FilteredTree.__update_node", "liblarch/tree.py::MainTree.refresh_all", "liblarch/tree.py::MainTree.refresh_node"]}
{"id": "C46", "title": "Relations may be asked for at any time and in any way", "statement": "Nodes are added and relations asked for in any order: attached to a node object, as the parent argument of add_node, with add_parent and add_child of a node that is in the tree, and with new_relationship between any ids, whether the other end exists or not. If the relations asked for have no cycle, no call raises, the parents and children of the tree are exactly the relations whose ends both exist, all others wait, and the order of the calls does not matter.", "quantifier": "every sequence of such calls of any length, every permutation of it in which methods are called on nodes that are there", "why_tests_cant": "unbounded interleavings of additions and four kinds of declarations", "anchors": ["liblarch/treenode.py::_Node.add_parent", "liblarch/treenode.py::_Node.add_child", "liblarch/tree.py::MainTree._new_relationship", "liblarch/tree.py::MainTree._add_node"]}
{"id": "C47", "title": "The columns of the GTK model are up to date", "statement": "A GTK tree model that hears the signals of a view has, after every history of the application, exactly the rows of the view, and every row shows in every column the value computed from the present data of its node: no change of data is missed, also for nodes displayed in several places, for rows that disappear and come back, and while filters are applied.", "quantifier": "every fair history of edits, changes of data and filter calls, every interleaving with lookups, every list of columns", "why_tests_cant": "a row left out of date needs a particular combination of a change with the shape of the view and the caches", "anchors": ["liblarch_gtk/treemodel.py::TreeModel.add_task", "liblarch_gtk/treemodel.py::TreeModel.update_task", "liblarch/filteredtree.py::FilteredTree.__update_node"]}
{"id": "C48", "title": "An observer may connect at any moment", "statement": "An observer that connects at any moment, after any history in which others connected too, and asks for the current state, has from then on, after every further history, exactly the rows of the view, and as a GTK model also present values in every column.", "quantifier": "every history before and after the connection", "why_tests_cant": "the moment of connecting and both histories are unbounded", "anchors": ["liblarch_gtk/treemodel.py::TreeModel.connect_model", "liblarch/filteredtree.py::FilteredTree.get_current_state"]}
{"id": "C49", "title": "The columns of the GTK tree view", "statement": "The columns described to a TreeView get the numbers from 1 on in the order of the description's orders; columns without an order keep their places, behind those with one; the model computes each column with the function described for it; each column is on the screen; a column may be sorted by any described column; a click on the head of a column sorts by the column named for it, or by the column itself if it has a comparing function; setting the background function changes exactly that column.", "quantifier": "every description of columns", "why_tests_cant": "the numbers, the list of types and the GTK columns have to agree for all mixtures of orders, shared columns and sorting targets", "anchors": ["liblarch_gtk/__init__.py::TreeView.__init__", "liblarch_gtk/__init__.py::TreeView.set_bg_color", "liblarch_gtk/treemodel.py::TreeModel.set_column_function"]}
{"id": "C50", "title": "Drag and drop moves what is dragged to where it is dropped", "statement": "Whatever happened before to the tree, the view and the GTK model, dropping a row onto another makes its node a child of the other's node and of nothing else, and its rows are then exactly below the rows of that node; dropped beside a row, it becomes a child of the node above that row; beside a row of the top it becomes a node of the top. Nothing else in the tree changes, however many rows are dragged together; the screen shows the view afterwards, and rows of other widgets are handed to the function registered for them, each once and in order.", "quantifier": "every history of edits, filters, lookups and drops; every selection; every place; every choice of new addresses by GTK", "why_tests_cant": "while rows are dragged together, each move rebuilds rows that the remaining iterators may point to; the histories and the choices of GTK are unbounded", "anchors": ["liblarch_gtk/__init__.py::TreeView.on_drag_data_get", "liblarch_gtk/__init__.py::TreeView.on_drag_data_received", "liblarch_gtk/__init__.py::TreeView.set_dnd_external", "liblarch/tree.py::MainTree.move_node"]}
{"id": "C51", "title": "Edits leave alone the rows they do not concern", "statement": "An edit of the tree, or a change of a node's data that is announced, makes a view send 'added' and 'deleted' only for rows that pass through a node which comes into the view, leaves it, or gets other parents in it; and a row that is in the view before and afterwards is neither deleted nor added on the way. In the GTK model such a row is the same row afterwards, at the same place in memory, so that selections, expanded rows and iterators survive.", "quantifier": "every history before, every edit and change, every tree and every set of filters; every order in which sets are walked through; every choice of new addresses by GTK", "why_tests_cant": "one edit is a series of notifications, each of which updates the view recursively upwards and downwards while it is half done; needless signals in any of them would only show as flicker or lost selections for particular shapes of the tree", "anchors": ["liblarch/filteredtree.py::FilteredTree.__update_node", "liblarch/filteredtree.py::FilteredTree.send_remove_tree", "liblarch/tree.py::MainTree._create_relationship", "liblarch_gtk/treemodel.py::TreeModel.remove_task"]}
{"id": "C52", "title": "Callbacks may look at the view while it works", "statement": "The callbacks of a view are called in the middle of its work. Whatever they keep for themselves and however they look at the view, the view and the application end up as if the signals had only been recorded, and an exception comes out only if a callback raises it. When a row is announced or modified, its node is displayed and its path is a row of the view at that very moment. An action queued for a node is handed to the main loop at once if the node is displayed, and otherwise executed exactly once, when the node appears.", "quantifier": "every history of edits, changes and filters with actions queued at any moment; every set of callbacks with any state; every order in which sets are walked through", "why_tests_cant": "the callback runs inside a recursive update whose intermediate states depend on the shape of the tree; whether the view is in order at that moment shows only for particular shapes (two parents)", "anchors": ["liblarch/filteredtree.py::FilteredTree.callback", "liblarch/filteredtree.py::FilteredTree.set_callback", "liblarch/filteredtree.py::FilteredTree.__update_node", "liblarch/filteredtree.py::FilteredTree.send_add_tree", "liblarch/viewtree.py::ViewTree.queue_action"]}
{"id": "C53", "title": "Collapsed nodes stay collapsed, all others are open", "statement": "The rows of the GTK widget are open by default and remember what was collapsed: when the main loop has nothing left to do, a row is open exactly if it has children and collapse_node was called neither for its node nor for a node above it, no matter how often rows went and came back, and whether the node was displayed when it was called. From the moment it is called for a displayed node, no row of the node and no row below is open. expand_node opens the rows of a node that can be seen.", "quantifier": "every history of edits, changes, filters, lookups, drops and calls of collapse_node before and after the node appears; every order of the rows in GTK", "why_tests_cant": "whether a row is open depends on the order in which GTK reports first and last children, on the memory of the widget and on calls that wait for the main loop, over a whole session", "anchors": ["liblarch_gtk/__init__.py::TreeView.on_child_toggled", "liblarch_gtk/__init__.py::TreeView.collapse_node", "liblarch_gtk/__init__.py::TreeView.expand_node", "liblarch_gtk/__init__.py::TreeView._collapse_node_retry", "liblarch_gtk/__init__.py::TreeView.__init__"]}
{"id": "C54", "title": "Any number of views and counters at the same time", "statement": "An application may use the main view and any number of named and anonymous views and counters over the same tree and the same filters. Each of them does exactly what it would do alone, given the edits, the filters put into the bank and the parameters others give to a filter. No action raises; the main view always answers as the tree does; every view holds together and its observers have exactly its rows; every view that is up to date shows exactly the nodes its filters accept, in the right places; every counter is exact; a name always refers to an object of its kind.", "quantifier": "every history of edits, changes of data, calls to the filter bank, requests for views and counters, and calls of their methods, from an empty tree on; every order in which sets are walked through", "why_tests_cant": "views share filter objects and are told about edits one after the other; whether one disturbs another depends on which filters are shared, when views are made, and which of them are out of date at the time of an edit", "anchors": ["liblarch/__init__.py::Tree.__init__", "liblarch/__init__.py::Tree.get_viewtree", "liblarch/__init__.py::Tree.get_viewcount", "liblarch/__init__.py::Tree.get_main_view", "liblarch/tree.py::MainTree._callback", "liblarch/filteredtree.py::FilteredTree.__init__", "liblarch/filteredtree.py::FilteredTree.apply_filter"]}
{"id": "C55", "title": "Views stay right while other threads make requests", "statement": "Other threads may ask for new nodes, removals, relations and refreshes at any time while the main thread uses views and counters. At every moment the application is where it would be if the requests carried out so far and the actions of the main thread had been made one after the other in one thread; no request is lost or carried out twice (equal requests waiting in the same queue count once), requests of one priority keep their order, and the idle loop is running exactly if something is waiting. All views and counters are right at every moment. When the other threads pause, the idle loop carries out what is waiting, higher priorities first, and stops.", "quantifier": "every schedule of requests by other threads, rounds of the idle loop, and actions of the main thread, from an empty tree on", "why_tests_cant": "the order in which threads, the idle loop and the main thread take turns is not under the control of a test, and the number of schedules grows without bound", "anchors": ["liblarch/processqueue.py::SyncQueue.push", "liblarch/processqueue.py::SyncQueue.process", "liblarch/processqueue.py::SyncQueue.process_queue", "liblarch/tree.py::MainTree.add_node", "liblarch/tree.py::MainTree.remove_node", "liblarch/tree.py::MainTree.new_relationship", "liblarch/__init__.py::Tree.get_viewtree"]}
{"id": "C56", "title": "Printing shows the whole tree", "statement": "print_tree of the main tree, of a view and of the GTK model ends without exception and prints exactly one line for every path of every node (for every row), indented by its depth, depth first and in the order of the children.", "quantifier": "every state of a tree, a view or a GTK model that a history can reach, and every order in which GTK sorts the rows", "why_tests_cant": "the loop works on a stack and ends only if no node is below itself; nodes with several parents are printed several times; tests look at a few small trees", "anchors": ["liblarch/tree.py::MainTree.print_tree", "liblarch/filteredtree.py::FilteredTree.print_tree", "liblarch_gtk/treemodel.py::TreeModel.print_tree"]}
{"id": "C57", "title": "The built-in checks of a view", "statement": "test_validity ends normally exactly for views in which parents and children mirror each other and only the virtual root has no parents, and so it does after every history; is_path_valid accepts exactly the paths of the view.", "quantifier": "every view whatsoever for the exactness of the checks, every fair history for passing them, every path", "why_tests_cant": "the tests use test_validity as an oracle; that it misses nothing and never fails needs all views and all histories", "anchors": ["liblarch/filteredtree.py::FilteredTree.test_validity", "liblarch/filteredtree.py::FilteredTree.is_path_valid"]}
{"id": "C58", "title": "Rows opened and closed by hand", "statement": "A click that closes a row closes it and all rows below it, a click that opens a row opens it if it has children and can be seen, and collapse_node and expand_node do the same for all rows of a displayed node, which is remembered from then on; nothing else is opened or closed by them. Afterwards, whatever the application does and whatever is dropped, a row that keeps one of its children stays as it was; open rows have children and have only open rows above them; no row of a remembered node is opened by itself; and a row with children that can be seen and whose node is not remembered is open unless it was closed before.", "quantifier": "every history in which clicks, calls of collapse_node and expand_node, drops, edits, changes, filters and lookups are mixed; every row, every order of the rows in GTK", "why_tests_cant": "clicks, the memory of the widget and rows that go and come back interact over a whole session; there are no tests of the widget", "anchors": ["liblarch_gtk/__init__.py::TreeView.on_child_toggled", "liblarch_gtk/__init__.py::TreeView.collapse_node", "liblarch_gtk/__init__.py::TreeView.expand_node"]}
{"id": "C59", "title": "The signals for opened and closed rows", "statement": "The signal node-expanded or node-collapsed carries the path of the row in the view, which ends with its node, however the rows are sorted. A click sends one signal if it opens or closes the row and otherwise none; collapse_node and expand_node send one signal for each row of the node that they open or close; while the application acts, every row that is opened is reported, and only rows are reported that have children and whose node is not remembered.", "quantifier": "every history as in C58, every row, every order of the rows in GTK", "why_tests_cant": "the path is rebuilt from positions that depend on the sorting and on all rows at that moment; there are no tests of the widget", "anchors": ["liblarch_gtk/__init__.py::TreeView.__emit", "liblarch_gtk/__init__.py::TreeView.__init__"]}
{"id": "C60", "title": "Rows are built and compared with real nodes", "statement": "Whenever a view announces or updates a row, the node of the signal is in the main tree at that moment, so that the columns of the row can be computed from it; and all rows that an observer has at that moment belong to nodes of the main tree at that moment, so that GTK may compare any two rows: the comparing function gets the two nodes of the rows and get_node does not raise. The same holds after every action, when the user sorts by another column.", "quantifier": "every history of edits, data changes and filter changes, every signal that is no deletion, every pair of rows, every order of the rows in GTK, every comparing function", "why_tests_cant": "signals are sent in the middle of an edit, when nodes have left some of their parents or the tree; a test sees the tree before and after", "anchors": ["liblarch_gtk/__init__.py::TreeView._sort_func", "liblarch_gtk/treemodel.py::TreeModel.add_task", "liblarch_gtk/treemodel.py::TreeModel.update_task", "liblarch/filteredtree.py::FilteredTree.__update_node"]}
{"id": "C61", "title": "Cells and colours of the rows", "statement": "A cell of a row shows the last value that the function of its column gave for the node since the row appeared and that was not None, where set_bg_color may replace the function at any time. After set_bg_color every row that was announced since is drawn on the colour that the new function gives for the present data of its node, whatever was drawn before with the same renderer: white text on colours of brightness below one half, the default text colour on others; other renderers keep their colours.", "quantifier": "every history of edits, data changes and filter changes, every interleaving of signals, lookups, calls of set_bg_color and drawings of rows, every order of the rows in GTK, every colour function", "why_tests_cant": "one renderer draws all rows, and the brightness is cached globally; whether colours leak from one row to another depends on what was drawn before; there are no tests of the widget", "anchors": ["liblarch_gtk/__init__.py::brightness", "liblarch_gtk/__init__.py::TreeView.set_bg_color", "liblarch_gtk/__init__.py::TreeView._celldatafunction", "liblarch_gtk/treemodel.py::TreeModel.set_column_function"]}
{"id": "C62", "title": "Observers are told in the middle of edits", "statement": "The callbacks of the tree run while an edit is half done. If none of them raises, an edit with callbacks has the same outcome and leaves the same tree as without, and the callbacks hear, one after the other, each notification with the tree as it is at that moment; so views and counters are as right as if they had been told after the edit, with and without other threads. If one raises, the exception leaves the edit, no later callback is called, and the tree is left as it was at that notification: parents and children still agree, there is no cycle, and unless a node was being removed the top level is right.", "quantifier": "every tree, every edit, every behaviour of the observers that does not edit the tree, every history of edits, data changes, filter changes and new views, every schedule of other threads", "why_tests_cant": "tests have observers that only record; what is left after an exception depends on the moment of the exception in every loop of every edit", "anchors": ["liblarch/tree.py::MainTree._callback", "liblarch/tree.py::MainTree._remove_node", "liblarch/tree.py::MainTree._new_relationship", "liblarch/tree.py::MainTree._break_relationship", "liblarch/tree.py::MainTree._add_node", "liblarch/treenode.py::_Node.set_parent"]}
{"id": "C63", "title": "Node objects that have left the tree can be used again", "statement": "If neither the removed node nor, for a recursive removal, a descendant has two parents, the objects that leave the tree bring along their flags and no relation. Adding such an object again is the same as adding a new node of that name and those flags. While its name is not in use, its methods do not raise, notify nobody and change no node of the tree; they set flags of the object, and relations asked for wait until the node is there. The tree stays consistent through all of this, and what is true after careful histories of edits is true here as well. A node without children that is removed and added again under its parent is back as before, as the last child.", "quantifier": "every history of edits, re-additions of removed objects and method calls on removed objects by a careful user", "why_tests_cant": "tests do not touch objects after their removal; the state of an object depends on how and when it was removed, and on all calls since", "anchors": ["liblarch/tree.py::MainTree._remove_node", "liblarch/tree.py::MainTree._add_node", "liblarch/treenode.py::_Node.add_parent", "liblarch/treenode.py::_Node.set_parent", "liblarch/treenode.py::_Node.add_child", "liblarch/treenode.py::_Node.set_parents_enabled", "liblarch/treenode.py::_Node.set_children_enabled"]}
{"id": "C64", "title": "Views with filters that look at the children of a node", "statement": "A filter may decide by the data of a node and by its children, as is_leaf of the tests does, as long as a node that is accepted is still accepted with fewer children. Views with such filters stay right under edits: no edit raises, and afterwards the view displays exactly the accepted nodes, each below its displayed parents or at the top, and the observers have been told exactly these rows.", "quantifier": "every history of edits, data changes and filter changes; every filter of the kind, flat or not; nodes with any number of parents", "why_tests_cant": "one edit changes the answers of the filter for other nodes in the middle of the notifications; the tests try the leaf filter on a handful of small forests", "anchors": ["liblarch/filteredtree.py::FilteredTree.__update_node", "liblarch/filteredtree.py::FilteredTree.__node_parents", "liblarch/filteredtree.py::FilteredTree.__node_children", "liblarch/filteredtree.py::FilteredTree.is_displayed", "liblarch/filters_bank.py::Filter.is_displayed"]}
{"id": "C65", "title": "Views with filters that look at everything below a node", "statement": "A filter may decide by the data of a node and of everything below it, such as: the node or something below it is unfinished. If the filter keeps the parents of what it accepts, a view with it stays right under edits of a forest and under data changes: when one node changes, its whole chain of ancestors appears or disappears. No edit raises, and afterwards the view displays exactly the accepted nodes, each below its displayed parent or at the top, and the observers have been told exactly these rows.", "quantifier": "every history of edits, data changes and filter changes in which no node has two parents; every filter of the kind that is not flat; trees of any depth", "why_tests_cant": "one change alters the answers of the filter for ancestors at any distance, while the updates walk up and down; the tests try such filters on a few trees of small depth", "anchors": ["liblarch/filteredtree.py::FilteredTree.__update_node", "liblarch/filteredtree.py::FilteredTree.__node_parents", "liblarch/filteredtree.py::FilteredTree.__node_children", "liblarch/filteredtree.py::FilteredTree.is_displayed", "liblarch/filters_bank.py::Filter.is_displayed"]}
{"id": "C66", "title": "Observers may edit the tree from their callbacks", "statement": "Observers of the tree may call its methods in their callbacks. Such an edit is made at once, in the middle of the edit that the observer was told about, with its own notifications. Whatever observers do, no node becomes its own ancestor. If the edits are gentle (no removal, no move to a missing parent, nothing disabled), then after every edit of the application, also one that has raised, parents and children agree, the top level is right, and no relation is waiting although both ends are there.", "quantifier": "every number of observers with arbitrary behaviour, which may depend on the tree, on memory and on exceptions; nesting of any depth; every history of edits", "why_tests_cant": "the tree changes at every notification inside an edit, in ways chosen by any program; the tests have no observer that edits the tree", "anchors": ["liblarch/tree.py::MainTree._callback", "liblarch/tree.py::MainTree._new_relationship", "liblarch/tree.py::MainTree._break_relationship", "liblarch/tree.py::MainTree._remove_node", "liblarch/treenode.py::_Node.set_parent", "liblarch/treenode.py::_Node.set_parents_enabled", "liblarch/processqueue.py::SyncQueue.push"]}
{"id": "C67", "title": "Views stay right beside observers that edit the tree", "statement": "Views are registered with the tree, and so are observers that edit the tree from their callbacks, in any order. A view then hears of the edits of the observers while the edit they were told about is not finished, perhaps before it has heard of that edit itself. After every edit of the application each view nevertheless displays exactly the nodes it should, each below its displayed parents or at the top, and whoever follows the view's signals knows this.", "quantifier": "every number of views with filters on a node's own data; every number of observers whose edits only take relations away and add childless nodes, or only add nodes and relations; nesting of any depth; every history of edits", "why_tests_cant": "the view is updated in the middle of unfinished edits, with some nodes still in their old places; the tests have no observer that edits the tree", "anchors": ["liblarch/tree.py::MainTree._callback", "liblarch/tree.py::MainTree._new_relationship", "liblarch/tree.py::MainTree._break_relationship", "liblarch/filteredtree.py::FilteredTree.__external_modify", "liblarch/filteredtree.py::FilteredTree.__update_node", "liblarch/processqueue.py::SyncQueue.push"]}
{"id": "C68", "title": "A refilter repairs the view after a filter raised", "statement": "A filter function raises in the middle of a refilter, of apply_filter, unapply_filter or reset_filters, while the view reacts to changed data, or in the middle of an edit of the tree, which then ends there. The exception leaves the view half-built. The next refilter in which nothing raises ends normally; then the view displays exactly the accepted nodes, each below its displayed parents or at the top, and whoever follows the view's signals from the start knows this, although some of the signals came from the work that was cut short.", "quantifier": "every consistent tree, all filters, all data, and every pattern of evaluations that raise, for refilters; every history of edits and filter changes, with filters as in C24, C64 and C65, in which nothing on display has to be hidden and no node removed while a filter raises", "why_tests_cant": "the exception can come at any evaluation of any filter, and the view is left in a different state each time; the tests have no filter that raises", "anchors": ["liblarch/filteredtree.py::FilteredTree.__update_node", "liblarch/filteredtree.py::FilteredTree.refilter", "liblarch/filteredtree.py::FilteredTree.__is_displayed", "liblarch/filteredtree.py::FilteredTree.__node_children", "liblarch/filteredtree.py::FilteredTree.__node_parents", "liblarch/filteredtree.py::FilteredTree.apply_filter", "liblarch/filters_bank.py::Filter.is_displayed"]}
{"id": "C69", "title": "The columns look as described", "statement": "A column of the GTK tree view is visible, resizable, expanding and titled as its description says; later set_col_visible and set_col_resizable change exactly the column that has the name, the last call counts, and set_main_search_column and set_expander_column choose the named column. A call with an unknown name raises KeyError.", "quantifier": "every description of columns and every sequence of later calls", "why_tests_cant": "the tests never build the widget; several columns of the description can share a column on the screen, in any order", "anchors": ["liblarch_gtk/__init__.py::TreeView.__init__", "liblarch_gtk/__init__.py::TreeView.set_col_visible", "liblarch_gtk/__init__.py::TreeView.set_col_resizable", "liblarch_gtk/__init__.py::TreeView.set_main_search_column", "liblarch_gtk/__init__.py::TreeView.set_expander_column", "liblarch_gtk/__init__.py::TreeView.get_columns"]}
{"id": "C70", "title": "get_sort_column tells what the rows are sorted by", "statement": "get_sort_column returns the name and the direction of the column by which the rows are sorted now.", "quantifier": "every description of columns and every sequence of calls and clicks", "why_tests_cant": "the answer depends on the last call among calls of the application and clicks of the user; the tests never build the widget", "anchors": ["liblarch_gtk/__init__.py::TreeView.set_sort_column", "liblarch_gtk/__init__.py::TreeView.get_sort_column", "liblarch_gtk/__init__.py::TreeView.__init__"]}
{"id": "C71", "title": "Setting up drag and drop", "statement": "Whatever is called in whatever order, once the GTK tree view has a name for drags it accepts rows of its own under that name and rows of each registered widget, each with its own function, and nothing else; a call raises exactly if the widget has no name then, and is not forgotten. The dragged rows, which travel as strings, are read back as the same rows, and each drop is handled once.", "quantifier": "every sequence of set_dnd_name and set_dnd_external, every selection and every state of the rows", "why_tests_cant": "calls can come in any order and be repeated; positions of rows are read after other rows have moved; the tests never build the widget", "anchors": ["liblarch_gtk/__init__.py::TreeView.set_dnd_name", "liblarch_gtk/__init__.py::TreeView.set_dnd_external", "liblarch_gtk/__init__.py::TreeView.__init_dnd", "liblarch_gtk/__init__.py::TreeView.on_drag_data_get", "liblarch_gtk/__init__.py::TreeView.on_drag_data_received"]}
{"id": "C72", "title": "Selected rows and separators", "statement": "get_selected_nodes never raises and returns the nodes of the selected rows, each once, all of them displayed at that moment, and at most one unless multiple selection is allowed. A row that stays on display stays selected, and no row becomes selected by itself. The separator function of the application is asked about the node of the row, whenever GTK asks.", "quantifier": "every history of edits, data changes, filter changes and clicks; every order of the rows; every row", "why_tests_cant": "rows come and go while they are selected; the tests never build the widget", "anchors": ["liblarch_gtk/__init__.py::TreeView.get_selected_nodes", "liblarch_gtk/__init__.py::TreeView.set_multiple_selection", "liblarch_gtk/__init__.py::TreeView.set_row_separator_func", "liblarch_gtk/__init__.py::TreeView._separator_func"]}
{"id": "C73", "title": "Views and counters go by the truth of a filter's answer", "statement": "A filter function may return any Python value. Views and counters treat a node as accepted exactly if the answer is true in the sense of Python, and behave in every history as if every filter function ended with 'return bool(...)'; so a view and a counter with the same filters agree on which nodes are accepted.", "quantifier": "every history of an application with any number of views and counters; all filter functions, returning booleans, integers, None or other objects; all parameters", "why_tests_cant": "the filters in the tests return booleans; views test answers with 'not', counters combine them with '&='", "anchors": ["liblarch/filters_bank.py::Filter.is_displayed", "liblarch/viewcount.py::ViewCount.__modify", "liblarch/filteredtree.py::FilteredTree.__is_displayed", "liblarch/filteredtree.py::FilteredTree.get_nodes"]}
{"id": "C74", "title": "Counters with filters that look at children", "statement": "A counter whose filters look at a node's own data and at its children (for example: is it a leaf?) reports at any time exactly the number of nodes that all its filters accept, whatever edits are made.", "quantifier": "every history of careful edits and data changes, from any tree made by careful edits; every bank of filters and every set of applied filters of this kind", "why_tests_cant": "which nodes are announced depends on the kind of edit; the tests use filters on a node's own data with counters", "anchors": ["liblarch/viewcount.py::ViewCount.__modify", "liblarch/tree.py::MainTree._add_node", "liblarch/tree.py::MainTree._new_relationship", "liblarch/tree.py::MainTree._break_relationship", "liblarch/tree.py::MainTree._remove_node"]}
{"id": "C75", "title": "Parameter dictionaries are shared with the application", "statement": "The bank does not copy the dictionary handed to add_filter or apply_filter. A filter goes by what is in the last dictionary it was given at the moment it is asked; changing a dictionary changes exactly the filters that hold it, all at once, and nothing else. Views and counters are right all the same. If no dictionary is changed while a filter holds it, everything is as if dictionaries had been copied.", "quantifier": "every history in which dictionaries are made, changed, and handed to any number of filters, interleaved with edits, data changes, and any number of views and counters", "why_tests_cant": "the tests pass literal dictionaries and never change them; sharing shows only when the same object is handed to two filters or changed later", "anchors": ["liblarch/filters_bank.py::Filter.set_parameters", "liblarch/filters_bank.py::Filter.is_displayed", "liblarch/filters_bank.py::FiltersBank.add_filter", "liblarch/filteredtree.py::FilteredTree.apply_filter"]}
{"id": "C76", "title": "Nodes with several parents can be removed", "statement": "A node with any number of parents can be removed, alone or with its descendants. Afterwards and during all further edits parents and children agree, there is no cycle, the top level consists of the parentless nodes, and views with filters on a node's own data show exactly the right nodes in the right places and never raise.", "quantifier": "every history of edits, data changes and filter changes in which no id is used twice and no node that lists a removed child is removed without its descendants", "why_tests_cant": "the tests remove nodes with one parent; that every second parent keeps the id of the removed node shows only in later edits, and whether it ever does harm is a question about all of them", "anchors": ["liblarch/tree.py::Tree._remove_node", "liblarch/tree.py::Tree._destroy_relationship", "liblarch/treenode.py::TreeNode.get_children", "liblarch/filteredtree.py::FilteredTree.__update_node"]}
{"id": "C77", "title": "Observers see siblings in the order of the view", "statement": "An observer that puts every announced row below its siblings sees the children of every displayed node in the order in which node_all_children and node_nth_child list them; so does an observer that comes later and asks for the current state, and so do the rows of the GTK tree store below every row.", "quantifier": "every careful tree, every bank of filters, every fair history of edits, data changes and filter changes; for late observers every view that holds together", "why_tests_cant": "signals carry paths without positions, so agreement on the order rests on every place that changes the children of the view appending where it announces; the tests compare sets or small fixed trees", "anchors": ["liblarch/filteredtree.py::FilteredTree.send_add_tree", "liblarch/filteredtree.py::FilteredTree.__update_node", "liblarch/filteredtree.py::FilteredTree.get_current_state", "liblarch/filteredtree.py::FilteredTree.node_all_children", "liblarch/filteredtree.py::FilteredTree.node_nth_child", "liblarch_gtk/treemodel.py::TreeModel.add_task"]}
{"id": "C78", "title": "Trees do not affect each other", "statement": "A program may have any number of trees, add a node object to one of them, remove it, call its methods at any time, and add it to the same or another tree. Each tree then is what it would be had only the edits about it been made, with the same exceptions; no edit of one tree changes the nodes, relations, top level, pending relations or notifications of another; and no node object is in two trees.", "quantifier": "every number of trees and node objects, every sequence of tree edits and method calls on objects that are in a tree, were removed from one, or were never added", "why_tests_cant": "tests use one tree with fresh nodes; interference goes through references from a node object to its tree and through object identity, and needs interleavings of several trees with kept objects", "anchors": ["liblarch/tree.py::MainTree._add_node", "liblarch/tree.py::MainTree._remove_node", "liblarch/treenode.py::_Node._set_tree", "liblarch/treenode.py::_Node.add_parent", "liblarch/treenode.py::_Node.set_parent", "liblarch/treenode.py::_Node.add_child", "liblarch/treenode.py::_Node.get_parents", "liblarch/treenode.py::_Node.modified"]}
{"id": "C79", "title": "Children by number", "statement": "node_nth_child(x, n) gives the n-th child for every n from 0 to the number of children minus one, and raises ValueError for every other integer n, in the main view and in all other views.", "quantifier": "all integers n, all nodes, the main view after every history of careful edits and questions, and every filtered view that holds together", "why_tests_cant": "the tests ask for children that exist and for one number that is too high; negative numbers are never asked for, and Python's lists accept some of them silently", "anchors": ["liblarch/viewtree.py::ViewTree.node_nth_child", "liblarch/treenode.py::_Node.get_nth_child", "liblarch/filteredtree.py::FilteredTree.node_nth_child"]}
{"id": "C80", "title": "Removing a subtree removes exactly this part of a view", "statement": "When a node is removed together with everything below it, every view whose filters look at a node's own data loses exactly these nodes, without an exception: all other nodes stay, below the same parents, and an observer has exactly the old rows without removed nodes.", "quantifier": "all trees, all histories of edits, data changes and filter changes, all removed nodes with any number of parents, all orders of set differences", "why_tests_cant": "the tests remove nodes below one or two parents; while a subtree is removed, the views are told only about every second parent, and whether they recover depends on the shape of the whole subtree", "anchors": ["liblarch/tree.py::MainTree._remove_node", "liblarch/filteredtree.py::FilteredTree.__update_node", "liblarch/filteredtree.py::FilteredTree.__node_parents"]}
{"id": "C81", "title": "The tree can be edited while a view waits for its refresh", "statement": "While a view is out of date, because it was created without being filled or its filters were changed without a refresh, the tree and the data can be edited: no edit fails, the view keeps what it shows and shows every wanted node that the tree announces, an observer has exactly the rows of the view at all times, and after the next refresh the view displays exactly the wanted nodes in the right shape.", "quantifier": "all trees, all histories of edits, data changes and filter changes with and without refresh in any order, filled and unfilled views, all orders of set differences", "why_tests_cant": "the tests change filters with a refresh or refresh at once; what a view does with an edit while it is out of date depends on which of the nodes around the edited one it happens to show", "anchors": ["liblarch/filteredtree.py::FilteredTree.__init__", "liblarch/filteredtree.py::FilteredTree.apply_filter", "liblarch/filteredtree.py::FilteredTree.__update_node", "liblarch/filteredtree.py::FilteredTree.refilter"]}
{"id": "C82", "title": "A forest can be edited in any way while a view is out of date", "statement": "As long as no node has two parents, careful edits, changes of data and filter changes never fail, whatever the filters look at and whether or not the view is up to date or shows nodes that should leave. At all times the view shows only nodes of the tree, each once, at the top or below its own parent, and an observer has exactly the rows of the view; a touched node is shown afterwards exactly if the filters accept it; and after the next refresh the view displays exactly the wanted nodes in the right shape.", "quantifier": "all forests, all filters (also ones that look at other nodes), all histories of careful edits that keep the forest, data changes and filter changes with and without refresh in any order, filled and unfilled views, all orders of set differences", "why_tests_cant": "with several parents the same histories raise ValueError (C81), so that safety in forests is a matter of the shape of the tree and of every combination of what the view still shows with what is edited; the tests hold a few fixed combinations", "anchors": ["liblarch/filteredtree.py::FilteredTree.__init__", "liblarch/filteredtree.py::FilteredTree.apply_filter", "liblarch/filteredtree.py::FilteredTree.__update_node", "liblarch/filteredtree.py::FilteredTree.refilter", "liblarch/tree.py::MainTree.remove_node", "liblarch/tree.py::MainTree.break_relationship"]}
{"id": "C83", "title": "Any number of views of a forest survive any edits", "statement": "As long as no node has two parents, an application with any number of named views and counters never fails under careful edits, data changes and filter changes, whatever the views' filters look at and however long some of the views wait for a refresh: at all times the main view answers as the tree does, every counter is exact, every view shows only nodes of the tree, each once, at the top or below its own parent, and its observers have exactly its rows; views that are up to date show exactly the wanted nodes in the right shape, and a view that is refreshed is up to date, whatever it missed.", "quantifier": "all forests, all numbers of views and counters, all filters of the views, filters of the counters that look at the node and its children, all histories of careful edits that keep the forest, data changes, changes of the bank and of the filters of any view with and without refresh, all orders of set differences", "why_tests_cant": "the failures known for trees with several parents need one view to be stale while another changes the tree or a shared filter; the number of combinations of views, what each still shows, and edits is unbounded", "anchors": ["liblarch/__init__.py::Tree.get_viewtree", "liblarch/__init__.py::Tree.get_main_view", "liblarch/viewtree.py::ViewTree", "liblarch/filteredtree.py::FilteredTree.refilter", "liblarch/filteredtree.py::FilteredTree.__update_node", "liblarch/tree.py::MainTree.remove_node"]}
{"id": "C84", "title": "A tree used as a hierarchy stays one, and all its views stay right", "statement": "If an application adds its nodes at the top level or below nodes that are there, gives parents only to nodes that have none (add_parent, add_child, new_relationship), and otherwise only moves nodes (to other nodes or to the top level), takes them from their parents, breaks relations, removes nodes with or without everything below them, and announces changes, then no node ever has two parents; the only calls that raise are those that ask for a node below its own descendants and calls of methods of nodes that are not in the tree; and no view or counter fails: the main view and the counters are right, all views hold together, and those that are up to date show exactly the wanted nodes in the right shape.", "quantifier": "all histories of such edits, data changes, changes of the bank and of the filters of any view, all numbers of views and counters, all filters of the views, all orders of set differences", "why_tests_cant": "the conditions speak of single calls, the conclusion of all states that any number of them leads to; refused moves and removals leave waiting relations behind whose effect shows only when a later node arrives", "anchors": ["liblarch/tree.py::MainTree.add_node", "liblarch/tree.py::MainTree.remove_node", "liblarch/tree.py::MainTree.break_relationship", "liblarch/treenode.py::_Node.set_parent", "liblarch/treenode.py::_Node.remove_parent", "liblarch/treenode.py::_Node.add_parent", "liblarch/treenode.py::_Node.add_child", "liblarch/tree.py::MainTree.new_relationship", "liblarch/__init__.py::Tree.move_node", "liblarch/__init__.py::Tree.get_viewtree"]}
{"id": "C85", "title": "In a hierarchy every node has one place", "statement": "If an application uses the tree as a plain hierarchy (C84), then at all times get_paths_for_node answers with exactly one path for every node of the tree, namely its ancestors from the top down followed by the node, and get_node_for_path finds the node there; and in every view, up to date or not, every displayed node has exactly one row, at which it is found, and the nodes above it in that row are ancestors of the node, each the parent of the next one.", "quantifier": "all histories of edits of a hierarchy, data changes, changes of the bank and of the filters of any view with and without refresh, all numbers of views, all filters of the views, all orders of set differences, all nodes", "why_tests_cant": "a node with two rows needs a view to keep an old place while the node gets a new one, after any combination of refused moves, removals, missed changes and later refreshes", "anchors": ["liblarch/tree.py::MainTree.get_paths_for_node", "liblarch/tree.py::MainTree.get_node_for_path", "liblarch/filteredtree.py::FilteredTree.get_paths_for_node", "liblarch/filteredtree.py::FilteredTree.get_node_for_path", "liblarch/__init__.py::Tree.move_node"]}
{"id": "C86", "title": "The edits of a hierarchy do what they say", "statement": "If a tree has been used as a plain hierarchy (C84), then move_node and set_parent of a node to another present node (or to no parent) return and make that node the only parent of the moved one (or leave it without parents), unless the target is a descendant of the node, in which case they raise and the node has no parent any more; add_node of a new node, with a present parent named in the constructor or in the call or with none, returns and gives the node exactly this parent; new_relationship, add_parent and add_child between a present parent and a present node without parents return and make it the only parent of the node, unless the parent is a descendant of the node, in which case they raise and change nothing; break_relationship and remove_parent of a node and its parent return and put the node at the top level; a recursive removal takes away exactly the node and its descendants, and a plain removal exactly the node, whose children are at the top level afterwards. In each case no other node comes or goes, no other node gets or loses a parent other than by the removal of that parent, and the tree is consistent, without cycles and without nodes with two parents.", "quantifier": "all histories of edits of a hierarchy, all nodes and parents of the last edit", "why_tests_cant": "the effect on all other nodes, for trees of any shape after any history including refused moves, is not covered by single scenarios", "anchors": ["liblarch/__init__.py::Tree.move_node", "liblarch/__init__.py::Tree.del_node", "liblarch/__init__.py::Tree.add_node", "liblarch/treenode.py::_Node.set_parent", "liblarch/tree.py::MainTree.add_node", "liblarch/tree.py::MainTree.new_relationship", "liblarch/tree.py::MainTree.break_relationship", "liblarch/treenode.py::_Node.add_parent", "liblarch/treenode.py::_Node.add_child", "liblarch/tree.py::MainTree.remove_node"]}
{"id": "C87", "title": "The edits of a hierarchy can be undone", "statement": "If a tree has been used as a plain hierarchy (C84), then a move of a node to any present node or to the top level, whether it succeeds or raises, followed by a move back to the old parent (or to the top level, if there was none) returns and leads to the same nodes with the same parents, the same children up to the order and the same top level up to the order; the same holds for a broken relation that is made again, for a new node that is removed again, recursively or not, and for a node without children that is removed, recursively or not, and added again below its old parent.", "quantifier": "all histories of edits of a hierarchy, all nodes, old and new parents", "why_tests_cant": "the second edit could be refused or could change another place only for trees of particular shapes and histories, for example after a refused move", "anchors": ["liblarch/__init__.py::Tree.move_node", "liblarch/__init__.py::Tree.del_node", "liblarch/__init__.py::Tree.add_node", "liblarch/treenode.py::_Node.set_parent", "liblarch/tree.py::MainTree.new_relationship", "liblarch/tree.py::MainTree.break_relationship"]}
{"id": "C88", "title": "A hierarchy is loaded in the order given", "statement": "If nodes with different, proper names are added one after the other with add_node, each with no parent or with a parent that was added before, then no call raises, this is a use of the tree as a plain hierarchy (C84), and in the end the tree has exactly these nodes, every node has exactly the parent that was named for it, and the children of every node and the nodes at the top level are in the order in which they were added. More generally, in any tree used as a plain hierarchy, a node added with or without a present parent comes last among the children of that parent or at the top level, and the order of all other lists of children is unchanged.", "quantifier": "all lists of nodes and parents with parents first, of any length; for the second part all histories of edits of a hierarchy, all nodes and parents", "why_tests_cant": "tests load a few fixed trees; the order of siblings could depend on the shape of the rest of the tree", "anchors": ["liblarch/__init__.py::Tree.add_node", "liblarch/tree.py::MainTree.add_node", "liblarch/tree.py::MainTree._add_node", "liblarch/tree.py::MainTree._create_relationship", "liblarch/treenode.py::_Node.get_children"]}
{"id": "C89", "title": "The order of siblings in a hierarchy changes only where it must", "statement": "If a tree has been used as a plain hierarchy (C84), then move_node and set_parent of a node to another present node or to the top level take it out of the list of its old siblings and put it last among its new ones, and every other list of children and every other pair of siblings keeps its order; a node that is moved to the place it has keeps its position; a move that is refused because the target is below the node puts the node last at the top level, or leaves it at its position there; new_relationship, add_parent and add_child put a node without parents last among the children of its new parent, and break_relationship and remove_parent put a node last at the top level, again without any other change of order.", "quantifier": "all histories of edits of a hierarchy, all nodes, old and new parents", "why_tests_cant": "the order of siblings elsewhere in the tree is not looked at by tests, and set_parent goes through the list of parents while it changes it", "anchors": ["liblarch/__init__.py::Tree.move_node", "liblarch/treenode.py::_Node.set_parent", "liblarch/treenode.py::_Node.add_parent", "liblarch/treenode.py::_Node.add_child", "liblarch/treenode.py::_Node.remove_parent", "liblarch/tree.py::MainTree._create_relationship", "liblarch/tree.py::MainTree._destroy_relationship"]}
