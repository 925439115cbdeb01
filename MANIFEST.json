{
 "claims": [
  {
   "property": "C01",
   "status": "partial",
   "theorems": [
    "Larch.C01_parents_children_agree_partial",
    "Larch.C01_refuted_removal",
    "Larch.C01_refuted_disabled"
   ],
   "note": "Proved for histories of a careful user (Spec.Careful). The literal claim is false; two histories without exceptions refute it."
  },
  {
   "property": "C02",
   "status": "proved",
   "theorems": [
    "Larch.C02_no_cycle"
   ],
   "note": "Any history, any ids, raising or not; added nodes are newly made node objects. With node objects that have left the tree and are added again the claim is false (C63_refuted_cycle)."
  },
  {
   "property": "C03",
   "status": "proved",
   "theorems": [
    "Larch.C03_cycle_check_exact",
    "Larch.C03_cycle_check_ancestors"
   ],
   "note": ""
  },
  {
   "property": "C04",
   "status": "partial",
   "theorems": [
    "Larch.C04_refused_changes_nothing",
    "Larch.C04_refuted_damaged"
   ],
   "note": "Proved on consistent trees; refuted on trees damaged by removing a node with two parents."
  },
  {
   "property": "C05",
   "status": "partial",
   "theorems": [
    "Larch.C05_top_level_partial",
    "Larch.C05_refuted_disabled",
    "Larch.C05_refuted_circular"
   ],
   "note": "Proved for careful histories; two refutations of the literal claim."
  },
  {
   "property": "C06",
   "status": "proved",
   "theorems": [
    "Larch.C06_late_relations",
    "Larch.C06_any_order"
   ],
   "note": "Flags enabled, acyclic declarations, distinct proper ids."
  },
  {
   "property": "C07",
   "status": "proved",
   "theorems": [
    "Larch.C07_existing_id_is_noop"
   ],
   "note": ""
  },
  {
   "property": "C08",
   "status": "partial",
   "theorems": [
    "Larch.C08_removed_is_gone_iff",
    "Larch.C08_left_behind",
    "Larch.C08_removed_is_gone_partial",
    "Larch.C08_removed_is_invisible",
    "Larch.C08_refuted"
   ],
   "note": "Holds if and only if the node has at most one parent; the exact remains are proved for any number of parents."
  },
  {
   "property": "C09",
   "status": "partial",
   "theorems": [
    "Larch.C09_removal_keeps_children",
    "Larch.C09_refuted_damaged"
   ],
   "note": "Proved on consistent trees; refuted on damaged trees."
  },
  {
   "property": "C10",
   "status": "proved",
   "theorems": [
    "Larch.C10_recursive_removal"
   ],
   "note": ""
  },
  {
   "property": "C11",
   "status": "partial",
   "theorems": [
    "Larch.C11_new_relationship",
    "Larch.C11_node_methods",
    "Larch.C11_break_relationship",
    "Larch.C11_remove_parent",
    "Larch.C11_refuted_name"
   ],
   "note": "Proved on every consistent tree without a node called root; refuted with such a node."
  },
  {
   "property": "C12",
   "status": "partial",
   "theorems": [
    "Larch.C12_move_effect",
    "Larch.C12_move_dismisses_iff",
    "Larch.C12_move_dismisses_partial",
    "Larch.C12_move_to_top",
    "Larch.C12_refuted",
    "Larch.C12_refuted_later"
   ],
   "note": "set_parent keeps every other old parent; exact effect proved, literal claim for nodes with few parents, refuted otherwise. An earlier move to a missing parent comes back later (refuted)."
  },
  {
   "property": "C13",
   "status": "partial",
   "theorems": [
    "Larch.C13_failed_move_iff",
    "Larch.C13_failed_move_partial",
    "Larch.C13_refuted"
   ],
   "note": "The node is left as it was if and only if it had no parent; exact effect proved."
  },
  {
   "property": "C14",
   "status": "proved",
   "theorems": [
    "Larch.C14_paths",
    "Larch.C14_node_for_path",
    "Larch.C14_empty_path",
    "Larch.C14_has_path"
   ],
   "note": "Consistent trees."
  },
  {
   "property": "C15",
   "status": "partial",
   "theorems": [
    "Larch.C15_next_node",
    "Larch.C15_next_node_top",
    "Larch.C15_refuted"
   ],
   "note": "Main tree: proved for careful histories; refuted after removal of a node with two parents."
  },
  {
   "property": "C16",
   "status": "partial",
   "theorems": [
    "Larch.C16_notifications_partial",
    "Larch.C16_refuted"
   ],
   "note": "Proved as long as no add_node raises; refuted by a circular parent argument."
  },
  {
   "property": "C17",
   "status": "proved",
   "theorems": [
    "Larch.C17_called",
    "Larch.C17_key_is_new",
    "Larch.C17_unknown_key"
   ],
   "note": ""
  },
  {
   "property": "C18",
   "status": "proved",
   "theorems": [
    "Larch.C18_no_loss_no_duplication",
    "Larch.C18_waiting_distinct"
   ],
   "note": "Requests are compared by content."
  },
  {
   "property": "C19",
   "status": "proved",
   "theorems": [
    "Larch.C19_order",
    "Larch.C19_push_order"
   ],
   "note": ""
  },
  {
   "property": "C20",
   "status": "partial",
   "theorems": [
    "Larch.C20_armed_partial",
    "Larch.C20_drained_partial",
    "Larch.C20_refuted"
   ],
   "note": "Proved while no executed request raises; a raising request leaves the queue stuck (C20_refuted)."
  },
  {
   "property": "C21",
   "status": "partial",
   "theorems": [
    "Larch.C21_deferred_effect",
    "Larch.C21_deferred_equals_immediate_partial",
    "Larch.C21_refuted_priority",
    "Larch.C21_refuted_coalescing"
   ],
   "note": "Literal claim refuted by priorities and by coalescing; exact effect proved."
  },
  {
   "property": "C22",
   "status": "partial",
   "theorems": [
    "Larch.C22_bank_is_map_partial",
    "Larch.C22_return_values",
    "Larch.C22_refuted"
   ],
   "note": "Names beginning with '!' make add_filter raise UnboundLocalError."
  },
  {
   "property": "C23",
   "status": "proved",
   "theorems": [
    "Larch.C23_absent_hidden",
    "Larch.C23_verdict",
    "Larch.C23_negated"
   ],
   "note": ""
  },
  {
   "property": "C24",
   "status": "partial",
   "theorems": [
    "Larch.C24_exact_partial",
    "Larch.C24_batched_partial",
    "Larch.C24_refuted_parameters",
    "Larch.C24_refuted_removed",
    "Larch.C24_refuted_apply",
    "Larch.C24_refuted_root"
   ],
   "note": "Proved for every fair history (Spec.ViewFair; edits under filters on a node's own data, on its children as in C64, or on everything below as in C65), and for histories with unrefreshed filter changes at every moment at which the view is up to date (Spec.BatchFair); refuted when somebody else re-parametrises or removes a filter in use, when apply_filter with reset raises, and when a node has the id of the virtual root."
  },
  {
   "property": "C25",
   "status": "partial",
   "theorems": [
    "Larch.C25_shape_partial",
    "Larch.C25_batched_partial"
   ],
   "note": "Proved for every fair history (Spec.ViewFair), and for histories with unrefreshed filter changes at every moment at which the view is up to date (Spec.BatchFair)."
  },
  {
   "property": "C26",
   "status": "partial",
   "theorems": [
    "Larch.C26_observer_partial",
    "Larch.C26_batched_partial",
    "Larch.C26_refuted_current_state"
   ],
   "note": "Proved for every fair history; get_current_state repeats rows to observers that have them."
  },
  {
   "property": "C27",
   "status": "partial",
   "theorems": [
    "Larch.C27_no_failure_partial",
    "Larch.C26_batched_partial",
    "Larch.C27_refuted_removal",
    "Larch.C27_limit_structure"
   ],
   "note": "Proved for every fair history. Recursive removal of a subtree in which a node has four parents makes the view raise KeyError, although no filter is applied."
  },
  {
   "property": "C28",
   "status": "proved",
   "theorems": [
    "Larch.C28_refilter",
    "Larch.C28_independent",
    "Larch.C28_apply",
    "Larch.C28_unapply",
    "Larch.C28_reset"
   ],
   "note": "Any filters, any previous view that holds together."
  },
  {
   "property": "C29",
   "status": "partial",
   "theorems": [
    "Larch.C29_apply",
    "Larch.C29_unapply",
    "Larch.C29_reset",
    "Larch.C29_history",
    "Larch.C29_refuted_unknown"
   ],
   "note": "Proved except that parameters for an unknown filter raise ValueError after the list was emptied by reset."
  },
  {
   "property": "C30",
   "status": "proved",
   "theorems": [
    "Larch.C30_current_state",
    "Larch.C30_late_observer"
   ],
   "note": ""
  },
  {
   "property": "C31",
   "status": "proved",
   "theorems": [
    "Larch.C31_paths",
    "Larch.C31_paths_other",
    "Larch.C31_node_for_path"
   ],
   "note": ""
  },
  {
   "property": "C32",
   "status": "proved",
   "theorems": [
    "Larch.C32_recursive",
    "Larch.C32_recursive_all",
    "Larch.C32_direct"
   ],
   "note": ""
  },
  {
   "property": "C33",
   "status": "proved",
   "theorems": [
    "Larch.C33_nodes"
   ],
   "note": "filter_cache is left out of the model: no statement of the code puts anything into it."
  },
  {
   "property": "C34",
   "status": "partial",
   "theorems": [
    "Larch.C34_exact_partial",
    "Larch.C34_observers",
    "Larch.C34_refuted_parameters",
    "Larch.C34_refuted_removed",
    "Larch.C34_refuted_unknown",
    "Larch.C34_unregister_raises"
   ],
   "note": "Exact for fair histories (filters in use are not removed or re-parametrised; they look at a node's own data, or at its children while nodes come without parents, C74); refuted otherwise. Observers: any history."
  },
  {
   "property": "C37",
   "status": "proved",
   "theorems": [
    "Larch.C37_compatible",
    "Larch.C37_monotone",
    "Larch.C37_malformed"
   ],
   "note": ""
  },
  {
   "property": "C38",
   "status": "proved",
   "theorems": [
    "Larch.C38_named_once",
    "Larch.C38_answered",
    "Larch.C38_main_view"
   ],
   "note": ""
  },
  {
   "property": "C35",
   "status": "partial",
   "theorems": [
    "Larch.C35_runonce_partial",
    "Larch.C35_refuted_shown",
    "Larch.C35_refuted_poison",
    "Larch.C35_refuted_raise"
   ],
   "note": "Exact for every history whose ids are not names of events and whose actions do not raise; refuted for both exceptions."
  },
  {
   "property": "C36",
   "status": "partial",
   "theorems": [
    "Larch.C36_mirror_partial",
    "Larch.C36_mirror_no_reuse_partial",
    "Larch.C36_view_partial",
    "Larch.C36_refuted_reuse",
    "Larch.C36_refuted_lookup"
   ],
   "note": "Proved for every order of the rows; a new row must not live where another path of its node is still cached, and paths are looked up only below rows that are there. Refuted without either condition."
  },
  {
   "property": "C39",
   "status": "partial",
   "theorems": [
    "Larch.C39_main_view_partial",
    "Larch.C39_refuted_name",
    "Larch.C39_refuted_removed"
   ],
   "note": "Edits are careful, no node is called 'anonymous_root', and nodes are removed recursively only if their descendants have at most three parents (once the FilteredTree exists). Refuted for a node of that name and after the removal of a node with two parents."
  },
  {
   "property": "C40",
   "status": "partial",
   "theorems": [
    "Larch.C40_children",
    "Larch.C40_next_node_none",
    "Larch.C40_refuted_none",
    "Larch.C40_refuted_parent"
   ],
   "note": "Proved for every displayed node. Refuted for None: node_has_child and node_nth_child raise KeyError; next_node without parent is wrong for a child with two parents."
  },
  {
   "property": "C41",
   "status": "partial",
   "theorems": [
    "Larch.C41_relations_partial",
    "Larch.C41_refuted_removal"
   ],
   "note": "Proved for careful histories; refuted after the removal of a node with two parents."
  },
  {
   "property": "C42",
   "status": "partial",
   "theorems": [
    "Larch.C42_notified_in_order_partial",
    "Larch.C42_refuted_top"
   ],
   "note": "Agreement and absence of cycles proved for careful histories; the top level is refuted in the middle of a removal."
  },
  {
   "property": "C43",
   "status": "proved",
   "theorems": [
    "Larch.C43_refresh_all"
   ],
   "note": ""
  },
  {
   "property": "C44",
   "status": "proved",
   "theorems": [
    "Larch.C44_add_node"
   ],
   "note": ""
  },
  {
   "property": "C45",
   "status": "partial",
   "theorems": [
    "Larch.C45_announced_partial",
    "Larch.C45_refuted_hidden",
    "Larch.C45_refuted_refresh",
    "Larch.C45_refuted_flat"
   ],
   "note": "Proved when the view is flat, or every node has at most one parent, or no displayed node has to go. Refuted for hiding nodes with several parents (KeyError) and for a filter made flat silently."
  },
  {
   "property": "C46",
   "status": "proved",
   "theorems": [
    "Larch.C46_growing",
    "Larch.C46_any_order"
   ],
   "note": ""
  },
  {
   "property": "C47",
   "status": "partial",
   "theorems": [
    "Larch.C47_cells_partial",
    "Larch.C47_refuted_none"
   ],
   "note": "Proved for values that are not None, under the conditions of C26 and C36. Refuted for a value that becomes None."
  },
  {
   "property": "C48",
   "status": "partial",
   "theorems": [
    "Larch.C48_connect_partial",
    "Larch.C48_refuted_earlier"
   ],
   "note": "Proved for the observer that connects. Observers connected earlier are told about every row again (refuted)."
  },
  {
   "property": "C49",
   "status": "partial",
   "theorems": [
    "Larch.C49_numbered_partial",
    "Larch.C49_shown_partial",
    "Larch.C49_sorting_partial",
    "Larch.C49_natural_order",
    "Larch.C49_bg_color",
    "Larch.C49_refuted_sorting",
    "Larch.C49_refuted_first"
   ],
   "note": "Proved when columns are sorted by themselves or by earlier columns and (for being shown) the first column is a new one. What a click on a column's head sorts by is proved for GTK columns where only one of the model's columns says how. Refuted: sorting by a later column raises KeyError; a first column with new_column=False is never shown."
  },
  {
   "property": "C50",
   "status": "partial",
   "theorems": [
    "Larch.C50_screen_partial",
    "Larch.C50_only_dragged_partial",
    "Larch.C50_drop_partial",
    "Larch.C50_drop_top",
    "Larch.C50_drop_many_partial",
    "Larch.C50_drop_many_top",
    "Larch.C50_external_partial",
    "Larch.C50_refuted_empty",
    "Larch.C50_refuted_descendant",
    "Larch.C50_refuted_flat",
    "Larch.C50_refuted_reuse",
    "Larch.C50_refuted_nested"
   ],
   "note": "Proved when GTK never uses the address of a row again, for nodes with at most one other parent, dropped on a node that accepts them and is not below them; what a drop does is proved under filters on a node's own data, that it does no harm also under filters on children. Refuted: a drop onto a row below takes away the parents; a flat view loses parents on a drop beside a row; reused memory moves a node that was not selected; of rows below one another only the upper one may be moved; an empty selection from another widget raises."
  },
  {
   "property": "C51",
   "status": "partial",
   "theorems": [
    "Larch.C51_edits_partial",
    "Larch.C51_iterators_partial",
    "Larch.C51_refuted_filter",
    "Larch.C51_refuted_children"
   ],
   "note": "Proved for edits and announced changes under the conditions of C24 to C27, and for the GTK model when GTK never uses the address of a row again. Edits: under filters on a node's own data; with a filter on children a row is added and deleted for a node that is displayed neither before nor afterwards. Refuted for filters: applying one deletes and adds every row."
  },
  {
   "property": "C52",
   "status": "partial",
   "theorems": [
    "Larch.C52_callbacks_partial",
    "Larch.C52_runonce_partial",
    "Larch.C52_refuted_two_parents"
   ],
   "note": "Proved under the conditions of C24 to C27 for callbacks that look at the view but do not change anything; for queued actions also under the conditions of C35. Refuted: a callback can not ask for the paths of a node that appears below two parents."
  },
  {
   "property": "C53",
   "status": "partial",
   "theorems": [
    "Larch.C53_rows_partial",
    "Larch.C53_always_partial",
    "Larch.C53_expand_partial",
    "Larch.C53_refuted_start",
    "Larch.C53_refuted_expand"
   ],
   "note": "Proved for widgets made before there are rows below other rows, under the conditions of C24 to C27, when GTK never uses the address of a row again; drops are included, and what the user opens or closes by hand is the subject of C58. Refuted: a widget made for a filled view shows all rows closed; expand_node counts as collapsing."
  },
  {
   "property": "C54",
   "status": "partial",
   "theorems": [
    "Larch.C54_view_alone",
    "Larch.C54_count_alone",
    "Larch.C54_all_right_partial",
    "Larch.C54_refuted_params",
    "Larch.C54_refuted_counter"
   ],
   "note": "That each object goes its own way is proved for every history without exception. That all are right is proved when the tree and the data are touched only while every view is up to date or waits for its refresh with nothing that has to leave it (C81), under the conditions of C24 to C27, C34, C39, C64, C65 and C74 (filters may look at children or at everything below a node as far as these allow), and when filters used by counters are not given parameters or removed. Refuted: parameters given by one view leave other views and counters wrong."
  },
  {
   "property": "C55",
   "status": "partial",
   "theorems": [
    "Larch.C55_threads_partial",
    "Larch.C55_drained_partial",
    "Larch.C55_refuted_stuck"
   ],
   "note": "Proved when everything that is done to the application meets the conditions of C54 and no request raises by itself. Refuted: a circular relation asked for by another thread stops the queue for good."
  },
  {
   "property": "C56",
   "status": "partial",
   "theorems": [
    "Larch.C56_tree_partial",
    "Larch.C56_view",
    "Larch.C56_gtk",
    "Larch.C56_refuted_endless",
    "Larch.C56_refuted_none"
   ],
   "note": "The main tree is covered after careful histories, a view whenever it holds together (ViewOK, which fair histories keep), the GTK model whenever its rows are the announced ones (C36). Refuted: when a node with two parents was removed and its id is used again, print_tree of the main tree may loop for ever; a node with id None makes it raise TypeError."
  },
  {
   "property": "C57",
   "status": "partial",
   "theorems": [
    "Larch.C57_test_validity",
    "Larch.C57_passes_partial",
    "Larch.C57_path",
    "Larch.C57_refuted_path"
   ],
   "note": "test_validity is characterised exactly for all views; that it passes is proved for fair histories. is_path_valid is characterised exactly; refuted: it rejects the paths of top-level nodes and accepts chains that do not start at the top."
  },
  {
   "property": "C58",
   "status": "partial",
   "theorems": [
    "Larch.C58_click_partial",
    "Larch.C58_node_partial",
    "Larch.C58_node_hidden",
    "Larch.C58_application_partial",
    "Larch.C58_refuted_click"
   ],
   "note": "Proved under the conditions of C24 to C27, when GTK never uses the address of a row again. Refuted: a row closed by hand does not stay closed when it loses all its children and gets others."
  },
  {
   "property": "C59",
   "status": "partial",
   "theorems": [
    "Larch.C59_path_partial",
    "Larch.C59_reachable",
    "Larch.C59_click_partial",
    "Larch.C59_node_partial",
    "Larch.C59_node_hidden",
    "Larch.C59_application_partial",
    "Larch.C59_refuted_closed"
   ],
   "note": "Proved under the conditions of C58. Refuted: no signal is sent for rows that are closed together with a row above them or by losing their children."
  },
  {
   "property": "C60",
   "status": "partial",
   "theorems": [
    "Larch.C60_moment_partial",
    "Larch.C60_compare_partial",
    "Larch.C60_refuted_removal"
   ],
   "note": "Proved under the conditions of C24 to C27, and for the GTK model under those of C36. Refuted: after the recursive removal of a subtree with nodes of many parents, which makes the view raise, and after removing again, rows of removed nodes are compared."
  },
  {
   "property": "C61",
   "status": "partial",
   "theorems": [
    "Larch.C61_cells_partial",
    "Larch.C61_colours_partial",
    "Larch.C61_draw",
    "Larch.C61_refuted_stale",
    "Larch.C61_refuted_none",
    "Larch.C61_refuted_unknown",
    "Larch.C61_refuted_own",
    "Larch.C61_refuted_hidden"
   ],
   "note": "Proved under the conditions of C24 to C27 and C36, for columns on the screen and colours that GDK knows. Refuted: rows that are not announced after set_bg_color keep their old values; a node whose colour becomes None keeps its old colour; a row whose colour GDK does not know is drawn in the colours of another row; renderers lose a text colour of their own; set_bg_color raises for a first column that does not start a new one."
  },
  {
   "property": "C62",
   "status": "partial",
   "theorems": [
    "Larch.C62_interleaved",
    "Larch.C62_application_partial",
    "Larch.C62_threads_partial",
    "Larch.C62_interrupted_partial",
    "Larch.C62_refuted_lost",
    "Larch.C62_refuted_view",
    "Larch.C62_refuted_threads"
   ],
   "note": "The first theorem has no conditions; the others hold under the conditions of C01, C54 and C55. Refuted: an exception of an observer, or of a view of the library itself, in the middle of a removal leaves nodes without parents that are not at the top level, also when another thread asked for the removal."
  },
  {
   "property": "C63",
   "status": "partial",
   "theorems": [
    "Larch.C63_removed_partial",
    "Larch.C63_again_partial",
    "Larch.C63_calls_partial",
    "Larch.C63_request_partial",
    "Larch.C63_tree_partial",
    "Larch.C63_history_partial",
    "Larch.C63_undo_partial",
    "Larch.C63_refuted_parents",
    "Larch.C63_refuted_cycle",
    "Larch.C63_refuted_child",
    "Larch.C63_refuted_namesake"
   ],
   "note": "Proved for careful users: no removal of nodes with two parents, re-additions that respect the flags, methods of removed objects only while the name is not in use, add_child only for children outside the tree. Refuted without: a removed node keeps its second parent, and two such objects close a cycle; add_child on a removed object leaves a child that does not know its parent; a removed object moves another node of the same name."
  },
  {
   "property": "C64",
   "status": "partial",
   "theorems": [
    "Larch.C64_children_partial",
    "Larch.C64_refuted_parents",
    "Larch.C64_refuted_more"
   ],
   "note": "Proved under the conditions of C24 to C27, with the filters applied during edits of this kind, when a node comes without parents, or with one parent and without children, or with one parent and not accepted itself. Refuted: a node that comes below two parents at once makes the view raise ValueError; with a filter that accepts nodes with many children, a child stays at the top level when its parent appears."
  },
  {
   "property": "C65",
   "status": "partial",
   "theorems": [
    "Larch.C65_below_partial",
    "Larch.C65_refuted_parents",
    "Larch.C65_refuted_flat",
    "Larch.C65_refuted_bubble"
   ],
   "note": "Proved under the conditions of C24 to C27, with the filters applied during edits of this kind, not flat, and no node with two parents. Single actions may instead meet the conditions of C64. Refuted: with two parents the view raises KeyError; in a flat view the ancestors stay displayed; with a filter that does not keep the parents of what it accepts, the ancestors do not come back."
  },
  {
   "property": "C66",
   "status": "partial",
   "theorems": [
    "Larch.C66_no_cycle",
    "Larch.C66_consistent_partial",
    "Larch.C66_consistent_later_partial",
    "Larch.C66_refuted_removal",
    "Larch.C66_refuted_disable",
    "Larch.C66_refuted_move"
   ],
   "note": "That no cycle arises is proved for all observers that add new node objects. Consistency is proved for gentle edits. Refuted otherwise: an observer that adds a relation again during a removal or during set_parents_enabled leaves parent and child in disagreement; one that adds the missing parent during set_parent leaves the relation waiting for ever."
  },
  {
   "property": "C67",
   "status": "partial",
   "theorems": [
    "Larch.C67_loosening_partial",
    "Larch.C67_tightening_partial",
    "Larch.C67_refuted_link",
    "Larch.C67_refuted_flip",
    "Larch.C67_refuted_raise"
   ],
   "note": "Proved for views and observers registered in any order, and filters on a node's own data, in two cases: observers that take relations away, refresh, and add childless nodes, with all gentle edits of the application; observers and application that only add. Refuted otherwise: an observer that adds a relation while another one is being taken away makes the view raise and lose its top level; one that raises leaves the view stale. If the application removes nodes, observers that come before a view have to ignore that."
  },
  {
   "property": "C68",
   "status": "partial",
   "theorems": [
    "Larch.C68_refilter",
    "Larch.C68_repaired_partial",
    "Larch.C68_nothing_raises",
    "Larch.C68_refuted_parent",
    "Larch.C68_refuted_child",
    "Larch.C68_refuted_removal",
    "Larch.C68_refuted_edit",
    "Larch.C68_refuted_again"
   ],
   "note": "Proved without conditions on filters for refilters that are cut short; for fair histories (Spec.ViewFair), also with exceptions in the middle of edits, when nothing on display has to be hidden and no node removed while a filter raises, and the tree is not edited before the next refilter. Refuted: a filter that raises about a parent of a node being hidden makes every later refilter raise KeyError; one that raises about its child makes the next refilter announce deletions twice; one that raises while a node is removed leaves a child that no refilter shows; an edit between the exception and the refilter can announce rows below rows nobody knows; applying the same filter again does not refilter."
  },
  {
   "property": "C69",
   "status": "partial",
   "theorems": [
    "Larch.C69_alone",
    "Larch.C69_last",
    "Larch.C69_calls",
    "Larch.C69_names",
    "Larch.C69_refuted_shared"
   ],
   "note": "Proved for columns that have a column on the screen of their own, and exactly what happens otherwise (the last one decides). Refuted for shared columns: a hidden column is shown again by the next one that joins it and does not say. Names are unique and 'sorting' names an earlier column or itself, as in C49. What GTK does with the settings is taken from its documentation."
  },
  {
   "property": "C70",
   "status": "partial",
   "theorems": [
    "Larch.C70_told_partial",
    "Larch.C70_refuted_start",
    "Larch.C70_refuted_click",
    "Larch.C70_refuted_unknown"
   ],
   "note": "Proved after a set_sort_column for a known column until the next set_sort_column or click. Refuted: at the start a column is named although nothing is sorted; after a click the old name is given; after a set_sort_column that raised KeyError the unknown name is given."
  },
  {
   "property": "C71",
   "status": "partial",
   "theorems": [
    "Larch.C71_raises",
    "Larch.C71_sources_partial",
    "Larch.C71_drop_partial",
    "Larch.C71_sendable",
    "Larch.C71_refuted_twice",
    "Larch.C71_refuted_again"
   ],
   "note": "Proved if every source has a name of its own and the widget's name is given once. Refuted: set_dnd_name called twice connects the handlers twice, and the second one reads the positions again and moves another node; a source registered again keeps its old function. How GTK finds the number of a drop is taken from its source."
  },
  {
   "property": "C72",
   "status": "partial",
   "theorems": [
    "Larch.C72_selected_partial",
    "Larch.C72_edit_partial",
    "Larch.C72_separator_partial",
    "Larch.C72_refuted_refilter",
    "Larch.C72_refuted_twice"
   ],
   "note": "Proved for fair histories (as C36, C60): exactly the nodes of the selected rows, all displayed; a selected row stays selected over an edit, under filters on a node's own data, if its path stays displayed. Refuted: a refilter loses the selection although nothing changed; a node with two selected rows is returned twice. What GTK does with the selection is taken from its documentation."
  },
  {
   "property": "C73",
   "status": "partial",
   "theorems": [
    "Larch.C73_bools_partial",
    "Larch.C73_truth_partial",
    "Larch.C73_counter_numbers",
    "Larch.C73_counter_raises",
    "Larch.C73_refuted_even",
    "Larch.C73_refuted_none"
   ],
   "note": "Proved for every history without counters, and for every history with counters if the filter functions answer True, False, 0 or an odd number: the application does exactly what it would do with 'return bool(...)'; so C54 holds for it. For counters and any other answers the rule is proved: True and odd numbers count, other numbers do not, and everything else raises TypeError. Refuted literally for counters by the answer 2 and by answers that are objects."
  },
  {
   "property": "C74",
   "status": "partial",
   "theorems": [
    "Larch.C74_exact_partial",
    "Larch.C74_refuted_arrival",
    "Larch.C74_refuted_below"
   ],
   "note": "Proved for careful histories in which nodes come without parents and get them later. Refuted: a node that comes below a parent leaves the parent counted as a leaf, because only views look at the parents of a new node; filters that look further down than the children."
  },
  {
   "property": "C75",
   "status": "partial",
   "theorems": [
    "Larch.C75_copied",
    "Larch.C75_follows_added",
    "Larch.C75_follows_applied",
    "Larch.C75_exactly_holders",
    "Larch.C75_all_right_partial",
    "Larch.C75_refuted_view",
    "Larch.C75_refuted_counter",
    "Larch.C75_refuted_empty"
   ],
   "note": "What filters go by is proved for every history, if the dictionary was not empty when it was handed over. Views and counters are proved right under the conditions of C54, a view once it is refreshed, and no dictionary held by the filter of a counter is changed. Refuted: views and counters are not told of a changed dictionary; an empty dictionary is not kept."
  },
  {
   "property": "C76",
   "status": "partial",
   "theorems": [
    "Larch.C76_tree_partial",
    "Larch.C76_tree_new_ids_partial",
    "Larch.C76_removal_succeeds",
    "Larch.C76_views_partial",
    "Larch.C76_views_new_ids_partial",
    "Larch.C76_suite_partial",
    "Larch.C76_suite_new_ids_partial",
    "Larch.C76_refuted_reuse",
    "Larch.C76_refuted_keyError",
    "Larch.C76_refuted_leaf"
   ],
   "note": "Proved for one view and for any number of views and counters (C76_suite_partial), whose filters look at a node's own data. The claim needs that ids are not used again (C76_refuted_reuse) and that a node which still lists a removed child is not removed without its descendants (C76_refuted_keyError: KeyError half-way). With filters on the children it is false: a parent that is stepped over may have become a leaf and is not shown (C76_refuted_leaf). Recursive removals of nodes with descendants that have four or more parents (see C80), and other kinds of filters, are missing."
  },
  {
   "property": "C77",
   "status": "partial",
   "theorems": [
    "Larch.C77_order_partial",
    "Larch.C77_late_observer",
    "Larch.C77_screen_partial",
    "Larch.C77_suite_partial",
    "Larch.C77_leftover_partial",
    "Larch.C77_refuted_tree"
   ],
   "note": "Late observers are covered for every view that holds together. The running observer and the GTK store are covered under the conditions of C24 to C27, C54, C76 (and C36, C50). The order of the view is not the order of the tree: a node that was hidden comes back below its siblings (C77_refuted_tree)."
  },
  {
   "property": "C78",
   "status": "partial",
   "theorems": [
    "Larch.C78_others_partial",
    "Larch.C78_separate_partial",
    "Larch.C78_trees_partial",
    "Larch.C78_next_partial",
    "Larch.C78_history_partial",
    "Larch.C78_edit_partial",
    "Larch.C78_careful_partial",
    "Larch.C78_refuted_shared",
    "Larch.C78_refuted_moved"
   ],
   "note": "Covered as long as no object is handed to a tree while it is in another. Each tree is one of Model/Kept; if removed objects are not used any more, one of Model/Tree with exactly the edits about it. The code accepts an object that is in another tree, and then the other tree changes (C78_refuted_shared). A removed object may bring a parent of the old tree along (C78_refuted_moved)."
  },
  {
   "property": "C79",
   "status": "partial",
   "theorems": [
    "Larch.C79_natural",
    "Larch.C79_main_partial",
    "Larch.C79_view_partial",
    "Larch.C79_hidden",
    "Larch.C79_refuted_negative",
    "Larch.C79_refuted_error"
   ],
   "note": "For every integer it is shown which child or which exception comes out. The claim holds for n >= 0. Negative numbers down to minus the number of children are accepted and count from the end (C79_refuted_negative); below that the main view raises ValueError, other views IndexError, or KeyError if the node is not displayed (C79_refuted_error). For the main view the histories are those of C39, for other views those after which the view holds together (C31-C33)."
  },
  {
   "property": "C80",
   "status": "partial",
   "theorems": [
    "Larch.C80_removal_partial",
    "Larch.C80_refuted_four"
   ],
   "note": "Proved after every history that meets the conditions of C76 if no node below the removed one has more than three parents; the removed node can have any number. With four parents the view can raise KeyError (C80_refuted_four), although no filter is applied and no parent is outside of the removed part. The same bound of three parents replaces the bound of one in C24 to C27, C39, C54, C76 and the claims built on them, for filters on a node's own data."
  },
  {
   "property": "C81",
   "status": "partial",
   "theorems": [
    "Larch.C81_alive_partial",
    "Larch.C81_refreshed_partial",
    "Larch.C81_follows_partial",
    "Larch.C81_refuted_leaving"
   ],
   "note": "Proved for views that lack nodes or have them at wrong places, but show no node that should not be shown, with filters on a node's own data; subtrees removed while the view waits have one parent per node. If a shown node should go, the claim is false (C81_refuted_leaving: ValueError, and the observers lose track of the view)."
  },
  {
   "property": "C82",
   "status": "proved",
   "theorems": [
    "Larch.C82_alive",
    "Larch.C82_refreshed",
    "Larch.C82_touched"
   ],
   "note": "For histories in which the tree stays a forest, edits are careful, parameters are given to known filters and get_current_state is not called. With several parents the claim is false (C81_refuted_leaving)."
  },
  {
   "property": "C83",
   "status": "proved",
   "theorems": [
    "Larch.C83_all_right",
    "Larch.C83_refreshed"
   ],
   "note": "For histories in which the tree stays a forest, edits are careful and keep clear of the names of view roots, the counters can follow with their filters (CountFollows), parameters are given to known filters that no counter uses, and get_current_state is called of the main view only. With several parents the claim is false (C81_refuted_leaving)."
  },
  {
   "property": "C84",
   "status": "proved",
   "theorems": [
    "Larch.C84_forest",
    "Larch.C84_raises",
    "Larch.C84_all_right",
    "Larch.C84_refuted_early"
   ],
   "note": "Nodes are added as objects just made (Node.new), with the parent named in the constructor or in add_node or the same one in both, under names other than '', None and those of virtual roots; the flags parents_enabled and children_enabled are left on; the counters can follow with their filters (CountFollows). Adding below a parent that is still to come is excluded because the claim is then false (C84_refuted_early)."
  },
  {
   "property": "C85",
   "status": "proved",
   "theorems": [
    "Larch.C85_one_path",
    "Larch.C85_one_row"
   ],
   "note": "For the histories of C84."
  },
  {
   "property": "C86",
   "status": "proved",
   "theorems": [
    "Larch.C86_move",
    "Larch.C86_remove_all",
    "Larch.C86_remove_one",
    "Larch.C86_add",
    "Larch.C86_relate",
    "Larch.C86_detach"
   ],
   "note": "For the histories of C84."
  },
  {
   "property": "C87",
   "status": "proved",
   "theorems": [
    "Larch.C87_move",
    "Larch.C87_detach",
    "Larch.C87_add",
    "Larch.C87_remove"
   ],
   "note": "For the histories of C84. Children and top level up to the order."
  },
  {
   "property": "C88",
   "status": "proved",
   "theorems": [
    "Larch.C88_load",
    "Larch.C88_last"
   ],
   "note": ""
  },
  {
   "property": "C89",
   "status": "proved",
   "theorems": [
    "Larch.C89_move",
    "Larch.C89_relate",
    "Larch.C89_detach"
   ],
   "note": "For the histories of C84."
  }
 ]
}