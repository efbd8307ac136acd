{
 "claims": [
  {
   "property": "C01",
   "status": "proved",
   "theorems": [
    "Plotline.C01_get_last_write",
    "Plotline.C01_insert_returns_previous",
    "Plotline.C01_remove_returns_previous",
    "Plotline.C01_reachable"
   ],
   "note": ""
  },
  {
   "property": "C02",
   "status": "proved",
   "theorems": [
    "Plotline.C02_graph",
    "Plotline.C02_context",
    "Plotline.C02_context_call"
   ],
   "note": ""
  },
  {
   "property": "C03",
   "status": "proved",
   "theorems": [
    "Plotline.C03_ascending",
    "Plotline.C03_exact",
    "Plotline.C03_once"
   ],
   "note": ""
  },
  {
   "property": "C04",
   "status": "proved",
   "theorems": [
    "Plotline.C04_last_wins",
    "Plotline.C04_order_irrelevant"
   ],
   "note": ""
  },
  {
   "property": "C05",
   "status": "proved",
   "theorems": [
    "Plotline.C05_proxy_truthful"
   ],
   "note": ""
  },
  {
   "property": "C06",
   "status": "proved",
   "theorems": [
    "Plotline.C06_first_answer_frozen",
    "Plotline.C06_successors_freeze",
    "Plotline.C06_fresh_reads_source",
    "Plotline.C06_is_virtual_current"
   ],
   "note": ""
  },
  {
   "property": "C07",
   "status": "proved",
   "theorems": [
    "Plotline.C07_successors",
    "Plotline.C07_after_calls",
    "Plotline.C07_walk"
   ],
   "note": ""
  },
  {
   "property": "C08",
   "status": "proved",
   "theorems": [
    "Plotline.C08_any_time",
    "Plotline.C08_read_your_writes",
    "Plotline.C08_as_graph",
    "Plotline.C08_every_context",
    "Plotline.C08_every_run",
    "Plotline.C08_call",
    "Plotline.C08_registers"
   ],
   "note": ""
  },
  {
   "property": "C09",
   "status": "proved",
   "theorems": [
    "Plotline.C09_isolation",
    "Plotline.C09_open_body"
   ],
   "note": ""
  },
  {
   "property": "C10",
   "status": "proved",
   "theorems": [
    "Plotline.C10_commit_publishes"
   ],
   "note": ""
  },
  {
   "property": "C11",
   "status": "proved",
   "theorems": [
    "Plotline.C11_failure_leaves_no_trace"
   ],
   "note": ""
  },
  {
   "property": "C12",
   "status": "proved",
   "theorems": [
    "Plotline.C12_failure_keeps_graph"
   ],
   "note": ""
  },
  {
   "property": "C13",
   "status": "proved",
   "theorems": [
    "Plotline.C13_success_installs_view",
    "Plotline.C13_nothing_else",
    "Plotline.C13_stays_reachable"
   ],
   "note": ""
  },
  {
   "property": "C14",
   "status": "proved",
   "theorems": [
    "Plotline.C14_replay",
    "Plotline.C14_script",
    "Plotline.C14_every",
    "Plotline.C14_registered_before"
   ],
   "note": ""
  },
  {
   "property": "C15",
   "status": "proved",
   "theorems": [
    "Plotline.C15_copy_run_replace",
    "Plotline.C15_any_context"
   ],
   "note": ""
  },
  {
   "property": "C16",
   "status": "partial",
   "theorems": [
    "Plotline.C16_ok_means_applied_or_forgotten_partial",
    "Plotline.C16_refuted",
    "Plotline.C16_ok_means_applied_partial"
   ],
   "note": "False of the code as stated: C16_refuted shows a closure that leaks its context gets Ok while nothing is applied. Characterised exactly: Ok means that everything registered is applied, unless the closure forgot the context it was handed, and then nothing is (C16_ok_means_applied_or_forgotten_partial)."
  },
  {
   "property": "C17",
   "status": "proved",
   "theorems": [
    "Plotline.C17_poison_is_harmless",
    "Plotline.C17_after_panic",
    "Plotline.C17_history"
   ],
   "note": ""
  },
  {
   "property": "C18",
   "status": "proved",
   "theorems": [
    "Plotline.C18_registered_before",
    "Plotline.C18_quiet_keeps_graph"
   ],
   "note": ""
  },
  {
   "property": "C19",
   "status": "proved",
   "theorems": [
    "Plotline.C19_append_only",
    "Plotline.C19_trigger"
   ],
   "note": ""
  },
  {
   "property": "C20",
   "status": "proved",
   "theorems": [
    "Plotline.C20_prefix",
    "Plotline.C20_transaction",
    "Plotline.C20_otherwise",
    "Plotline.C20_not_atomic"
   ],
   "note": ""
  },
  {
   "property": "C21",
   "status": "proved",
   "theorems": [
    "Plotline.C21_serializable",
    "Plotline.C21_any_moment",
    "Plotline.C21_transaction_reads",
    "Plotline.C21_reader_committed",
    "Plotline.C21_reader_stable",
    "Plotline.C21_exclusion",
    "Plotline.C21_possible"
   ],
   "note": ""
  },
  {
   "property": "C22",
   "status": "proved",
   "theorems": [
    "Plotline.C22_save_exact",
    "Plotline.C22_other_triggers",
    "Plotline.C22_in_context"
   ],
   "note": ""
  },
  {
   "property": "C23",
   "status": "proved",
   "theorems": [
    "Plotline.C23_delete_present",
    "Plotline.C23_other_triggers",
    "Plotline.C23_delete_absent",
    "Plotline.C23_in_context_present",
    "Plotline.C23_in_context_absent"
   ],
   "note": ""
  },
  {
   "property": "C24",
   "status": "proved",
   "theorems": [
    "Plotline.C24_save",
    "Plotline.C24_delete",
    "Plotline.C24_save_in_context",
    "Plotline.C24_delete_in_context",
    "Plotline.C24_before_save_veto",
    "Plotline.C24_after_save_veto",
    "Plotline.C24_before_delete_veto",
    "Plotline.C24_after_delete_veto"
   ],
   "note": ""
  },
  {
   "property": "C25",
   "status": "proved",
   "theorems": [
    "Plotline.C25_registration_order",
    "Plotline.C25_all_once",
    "Plotline.C25_first_failure"
   ],
   "note": ""
  },
  {
   "property": "C26",
   "status": "proved",
   "theorems": [
    "Plotline.C26_target_is_saved",
    "Plotline.C26_graph"
   ],
   "note": ""
  },
  {
   "property": "C27",
   "status": "proved",
   "theorems": [
    "Plotline.C27_requested_id",
    "Plotline.C27_graph"
   ],
   "note": ""
  },
  {
   "property": "C28",
   "status": "proved",
   "theorems": [
    "Plotline.C28_save",
    "Plotline.C28_delete"
   ],
   "note": ""
  },
  {
   "property": "C29",
   "status": "proved",
   "theorems": [
    "Plotline.C29_save_commits_triggers",
    "Plotline.C29_delete_commits_triggers",
    "Plotline.C29_trigger_commit",
    "Plotline.C29_save_in_context",
    "Plotline.C29_delete_in_context"
   ],
   "note": ""
  },
  {
   "property": "C30",
   "status": "partial",
   "theorems": [
    "Plotline.C30_refuted",
    "Plotline.C30_ok_means_registered_partial",
    "Plotline.C30_ok_registered_or_unreadable_partial",
    "Plotline.C30_graph_partial"
   ],
   "note": "False of the code as stated: C30_refuted shows a trigger that poisons the target lock and recovers makes Save return Ok without registering anything. Proved for trigger sets that do not panic inside target().with_mut; for any triggers, Ok means that the node is registered unless the before-triggers left the target unreadable (C30_ok_registered_or_unreadable_partial)."
  },
  {
   "property": "C31",
   "status": "proved",
   "theorems": [
    "Plotline.C31_last_registration_wins"
   ],
   "note": ""
  },
  {
   "property": "C32",
   "status": "proved",
   "theorems": [
    "Plotline.C32_handles",
    "Plotline.C32_write_is_shared",
    "Plotline.C32_write_is_local",
    "Plotline.C32_old_handles_keep",
    "Plotline.C32_new_handle",
    "Plotline.C32_take_is_silent"
   ],
   "note": ""
  },
  {
   "property": "C33",
   "status": "proved",
   "theorems": [
    "Plotline.C33_poisoned_for_good",
    "Plotline.C33_others_unaffected",
    "Plotline.C33_reader"
   ],
   "note": ""
  },
  {
   "property": "C34",
   "status": "partial",
   "theorems": [
    "Plotline.C34_only_what_it_writes_partial",
    "Plotline.C34_refuted",
    "Plotline.C34_no_trace_partial",
    "Plotline.C34_graph_and_registrations"
   ],
   "note": "Refuted as stated: resource writes of a failed transaction stay (C34_refuted). Proved: a failed transaction leaves the graph, triggers, registrations and every resource untouched, except the resources that it or a trigger asked for with with_mut (C34_only_what_it_writes_partial)."
  },
  {
   "property": "C35",
   "status": "partial",
   "theorems": [
    "Plotline.C35_refuted",
    "Plotline.C35_with_available",
    "Plotline.C35_with_unavailable",
    "Plotline.C35_with_mut_available_partial",
    "Plotline.C35_with_mut_unavailable_partial",
    "Plotline.C35_with_mut_waits_iff_partial",
    "Plotline.C35_with_mut_unavailable",
    "Plotline.C35_all_or_nothing"
   ],
   "note": "Refuted as stated: with_mut on a tuple holding one resource twice never returns (C35_refuted). Proved for any number of members: with in general, with_mut for members referring to different resources, and exactly when with_mut waits for ever (C35_with_mut_waits_iff_partial)."
  },
  {
   "property": "C36",
   "status": "proved",
   "theorems": [
    "Plotline.C36_never_changes",
    "Plotline.C36_clones"
   ],
   "note": ""
  },
  {
   "property": "C37",
   "status": "proved",
   "theorems": [
    "Plotline.C37_retried",
    "Plotline.C37_asks"
   ],
   "note": ""
  },
  {
   "property": "C38",
   "status": "partial",
   "theorems": [
    "Plotline.C38_agreement",
    "Plotline.C38_cache_stable",
    "Plotline.C38_refuted",
    "Plotline.C38_only_race_losers_partial",
    "Plotline.C38_found_or_lost_partial",
    "Plotline.C38_loaded_found",
    "Plotline.C38_provenance"
   ],
   "note": "Refuted in its last part: the thread that loses the race to store the document gets None although the repository found it (C38_refuted). Proved: agreement, a stable cache, and exactly that a call whose lookup found a document returns it unless another thread stored one during the call (C38_found_or_lost_partial)."
  },
  {
   "property": "C39",
   "status": "proved",
   "theorems": [
    "Plotline.C39_new"
   ],
   "note": ""
  },
  {
   "property": "C40",
   "status": "partial",
   "theorems": [
    "Plotline.C40_never_faithful",
    "Plotline.C40_refuted",
    "Plotline.C40_cli_exact_partial",
    "Plotline.C40_id_never_changes",
    "Plotline.C40_loaded_id_partial"
   ],
   "note": "The id never changes (proved). The second part is refuted for the CLI repository; proved for repositories that answer with a document of the requested id, and for the CLI repository exactly when it holds (C40_cli_exact_partial)."
  },
  {
   "property": "C41",
   "status": "proved",
   "theorems": [
    "Plotline.C41_geometric",
    "Plotline.C41_symmetric_reflexive"
   ],
   "note": ""
  },
  {
   "property": "C42",
   "status": "proved",
   "theorems": [
    "Plotline.C42_exact_after_insertions"
   ],
   "note": ""
  },
  {
   "property": "C43",
   "status": "proved",
   "theorems": [
    "Plotline.C43_enumeration"
   ],
   "note": ""
  },
  {
   "property": "C44",
   "status": "partial",
   "theorems": [
    "Plotline.C44_refuted",
    "Plotline.C44_sound_partial",
    "Plotline.C44_exact_partial",
    "Plotline.C44_misses_iff_partial",
    "Plotline.C44_exact_maxima_partial"
   ],
   "note": "Refuted as stated: a stale maximum left behind by a deletion makes intersects answer false for a stored interval (C44_refuted). Proved: a true answer is always right, the answer is exact for queries that overlap no deleted interval, and exactly which queries miss (C44_misses_iff_partial)."
  },
  {
   "property": "C45",
   "status": "partial",
   "theorems": [
    "Plotline.C45_refuted",
    "Plotline.C45_returns_iff_partial"
   ],
   "note": "Refuted as stated: deleting an interval stored in a node with two children never returns (C45_refuted). Proved: deletion returns exactly when the node it finds, if any, has at most one child."
  },
  {
   "property": "C46",
   "status": "partial",
   "theorems": [
    "Plotline.C46_refuted",
    "Plotline.C46_at_most_one_copy_partial",
    "Plotline.C46_removes_partial",
    "Plotline.C46_removes_iff_partial"
   ],
   "note": "Refuted as stated: a different interval with the same lo hides the stored one, and delete returns without removing it (C46_refuted). Proved: at most one copy equal to the given interval goes and nothing else changes; one is removed when no different stored interval shares its lo; and exactly when one is removed (C46_removes_iff_partial)."
  },
  {
   "property": "C47",
   "status": "proved",
   "theorems": [
    "Plotline.C47_shape",
    "Plotline.C47_max_exact_after_insertions"
   ],
   "note": ""
  },
  {
   "property": "C48",
   "status": "proved",
   "theorems": [
    "Plotline.C48_inorder",
    "Plotline.C48_maxima"
   ],
   "note": ""
  },
  {
   "property": "C49",
   "status": "proved",
   "theorems": [
    "Plotline.C49_little_endian_total",
    "Plotline.C49_big_endian_total",
    "Plotline.C49_consistent_with_eq"
   ],
   "note": ""
  },
  {
   "property": "C50",
   "status": "proved",
   "theorems": [
    "Plotline.C50_big_endian",
    "Plotline.C50_little_endian",
    "Plotline.C50_reversal"
   ],
   "note": ""
  },
  {
   "property": "C51",
   "status": "partial",
   "theorems": [
    "Plotline.C51_inert",
    "Plotline.C51_saves_partial",
    "Plotline.C51_exact_partial",
    "Plotline.C51_built_partial",
    "Plotline.C51_complete_partial",
    "Plotline.C51_queries_partial",
    "Plotline.C51_refuted",
    "Plotline.C51_stale",
    "Plotline.C51_hangs",
    "Plotline.C51_aborted"
   ],
   "note": "False of the pinned code: install registers the tree under another type than the triggers ask for, so for every node type that is not its own id type the index never exists (C51_refuted, C51_inert for every history). Where it exists, saves over a node leave stale intervals (C51_stale), so do transactions that fail, which also lose intervals of nodes that stay (C51_aborted), and deletions may hang (C51_hangs). Proved where it exists, for every history whose operations return: it is what the insertions and deletions of the intervals of the saved and deleted nodes make (C51_built_partial), it never lacks an interval of a saved node in the graph and holds nothing but intervals of nodes saved at some time (C51_complete_partial), and so do its reports (C51_queries_partial); any history of saves, and exactness for histories that do not overwrite, return, and have intervals told apart by their low bound."
  },
  {
   "property": "C52",
   "status": "partial",
   "theorems": [
    "Plotline.C52_list_partial",
    "Plotline.C52_list_exact_partial",
    "Plotline.C52_walk_order",
    "Plotline.C52_refuted",
    "Plotline.C52_context_itself",
    "Plotline.C52_path_order"
   ],
   "note": "False of the code: a directory, or a link that leads nowhere, whose name has the extension is listed as a document (C52_refuted), and so is a context named by nothing but the extension (C52_context_itself); with the context - nothing is listed (C72_stdin). Proved: apart from these the listing is exact, ascending, and independent of the walk (C52_list_exact_partial)."
  },
  {
   "property": "C53",
   "status": "partial",
   "theorems": [
    "Plotline.C53_never_durable",
    "Plotline.C53_refuted"
   ],
   "note": "False of the code for every input: no command writes to disk (C53_never_durable, C53_refuted)."
  },
  {
   "property": "C54",
   "status": "partial",
   "theorems": [
    "Plotline.C54_iff_partial",
    "Plotline.C54_refuted"
   ],
   "note": "False of the code for names with another dot (C54_refuted). Proved: it holds exactly for the names without one."
  },
  {
   "property": "C55",
   "status": "proved",
   "theorems": [
    "Plotline.C55_listed",
    "Plotline.C55_any_extension"
   ],
   "note": ""
  },
  {
   "property": "C56",
   "status": "proved",
   "theorems": [
    "Plotline.C56_no_id"
   ],
   "note": ""
  },
  {
   "property": "C57",
   "status": "partial",
   "theorems": [
    "Plotline.C57_refuted",
    "Plotline.C57_rotate_right",
    "Plotline.C57_rotate_left_partial",
    "Plotline.C57_rotate_left_iff_partial"
   ],
   "note": "Refuted for rotate_left with equal lower bounds (C57_refuted). Proved for rotate_right, and exactly when rotate_left keeps it (C57_rotate_left_iff_partial)."
  },
  {
   "property": "C58",
   "status": "proved",
   "theorems": [
    "Plotline.C58_dates_are_points"
   ],
   "note": ""
  },
  {
   "property": "C59",
   "status": "proved",
   "theorems": [
    "Plotline.C59_save",
    "Plotline.C59_delete"
   ],
   "note": ""
  },
  {
   "property": "C60",
   "status": "proved",
   "theorems": [
    "Plotline.C60_holder_goes_on",
    "Plotline.C60_no_deadlock",
    "Plotline.C60_reenter_blocks"
   ],
   "note": ""
  },
  {
   "property": "C61",
   "status": "proved",
   "theorems": [
    "Plotline.C61_layered_ends",
    "Plotline.C61_no_triggers",
    "Plotline.C61_save_in_before_save",
    "Plotline.C61_save_in_after_save",
    "Plotline.C61_delete_in_before_delete",
    "Plotline.C61_gets_to_save_before",
    "Plotline.C61_gets_to_save_after",
    "Plotline.C61_gets_to_delete_before"
   ],
   "note": ""
  },
  {
   "property": "C62",
   "status": "proved",
   "theorems": [
    "Plotline.C62_released",
    "Plotline.C62_locked_iff_open",
    "Plotline.C62_read_waits",
    "Plotline.C62_write_waits",
    "Plotline.C62_own_cells",
    "Plotline.C62_never_waits",
    "Plotline.C62_reader_sees_no_change",
    "Plotline.C62_writer_is_alone",
    "Plotline.C62_panic_in_with_mut",
    "Plotline.C62_panic_in_with",
    "Plotline.C62_save_inside_waits",
    "Plotline.C62_scope_is_write"
   ],
   "note": ""
  },
  {
   "property": "C63",
   "status": "proved",
   "theorems": [
    "Plotline.C63_reads_only_what_it_looks_up",
    "Plotline.C63_same_afterwards"
   ],
   "note": ""
  },
  {
   "property": "C64",
   "status": "proved",
   "theorems": [
    "Plotline.C64_changes_only_what_it_writes",
    "Plotline.C64_to_what_it_wrote"
   ],
   "note": ""
  },
  {
   "property": "C65",
   "status": "proved",
   "theorems": [
    "Plotline.C65_disjoint_transactions_commute",
    "Plotline.C65_disjoint_resources"
   ],
   "note": ""
  },
  {
   "property": "C66",
   "status": "proved",
   "theorems": [
    "Plotline.C66_lookups_determine_iteration",
    "Plotline.C66_iteration_determines_lookups",
    "Plotline.C66_rebuild"
   ],
   "note": ""
  },
  {
   "property": "C67",
   "status": "proved",
   "theorems": [
    "Plotline.C67_get",
    "Plotline.C67_contains",
    "Plotline.C67_commit_root",
    "Plotline.C67_graph",
    "Plotline.C67_possible",
    "Plotline.C67_write_independent",
    "Plotline.C67_commit_child",
    "Plotline.C67_no_trace"
   ],
   "note": ""
  },
  {
   "property": "C68",
   "status": "proved",
   "theorems": [
    "Plotline.C68_read",
    "Plotline.C68_write",
    "Plotline.C68_set_keeps_handles",
    "Plotline.C68_new_context"
   ],
   "note": ""
  },
  {
   "property": "C69",
   "status": "proved",
   "theorems": [
    "Plotline.C69_waits",
    "Plotline.C69_enter",
    "Plotline.C69_inside",
    "Plotline.C69_panic",
    "Plotline.C69_for_good"
   ],
   "note": ""
  },
  {
   "property": "C70",
   "status": "proved",
   "theorems": [
    "Plotline.C70_whatever_else",
    "Plotline.C70_other_trigger",
    "Plotline.C70_other_resource",
    "Plotline.C70_depends_on_resources_it_uses"
   ],
   "note": ""
  },
  {
   "property": "C71",
   "status": "proved",
   "theorems": [
    "Plotline.C71_changes_only_resources_it_writes",
    "Plotline.C71_old_handles"
   ],
   "note": ""
  },
  {
   "property": "C72",
   "status": "proved",
   "theorems": [
    "Plotline.C72_grammar",
    "Plotline.C72_not_written",
    "Plotline.C72_list",
    "Plotline.C72_stdin",
    "Plotline.C72_dots",
    "Plotline.C72_plain",
    "Plotline.C72_classes",
    "Plotline.C72_alternatives",
    "Plotline.C72_counted",
    "Plotline.C72_invalid",
    "Plotline.C72_parentheses",
    "Plotline.C72_load_literal",
    "Plotline.C72_dots_lead_back",
    "Plotline.C72_two_extensions",
    "Plotline.C72_unanchored",
    "Plotline.C72_wildcard"
   ],
   "note": ""
  },
  {
   "property": "C73",
   "status": "partial",
   "theorems": [
    "Plotline.C73_confined_partial",
    "Plotline.C73_link",
    "Plotline.C73_listed_partial",
    "Plotline.C73_absolute",
    "Plotline.C73_parent",
    "Plotline.C73_empty",
    "Plotline.C73_refuted",
    "Plotline.C73_where_partial",
    "Plotline.C73_dot"
   ],
   "note": "False of the code: absolute ids, ids with .., the empty id and ids through a link load files outside of the context (C73_refuted). Proved: ids that end with a name and do not leave the context on their way load only files under it if there are no links under it (C73_confined_partial), which listed ids do (C73_listed_partial); without links on the way, exactly which file every relative id loads and exactly when it is under the context (C73_where_partial); what the others load (C73_dot, C73_absolute, C73_parent, C73_empty, C73_link)."
  },
  {
   "property": "C74",
   "status": "proved",
   "theorems": [
    "Plotline.C74_history",
    "Plotline.C74_read",
    "Plotline.C74_scope",
    "Plotline.C74_lost",
    "Plotline.C74_stays_lost"
   ],
   "note": ""
  },
  {
   "property": "C75",
   "status": "proved",
   "theorems": [
    "Plotline.C75_spelling",
    "Plotline.C75_one_path",
    "Plotline.C75_same",
    "Plotline.C75_save",
    "Plotline.C75_delete"
   ],
   "note": ""
  },
  {
   "property": "C76",
   "status": "partial",
   "theorems": [
    "Plotline.C76_dot",
    "Plotline.C76_iff_partial",
    "Plotline.C76_no_dots_partial",
    "Plotline.C76_all_partial",
    "Plotline.C76_refuted"
   ],
   "note": "false of the code (C76_refuted): with_extension replaces what follows the last dot of an id and join drops a leading ./, so b, ./b and b.txt load the same file but are different nodes. C76_all_partial says for all pairs of ids exactly when they load the same path: they stand for the same path under the context, or for paths in one directory whose last names have the same stem; C76_iff_partial is this for ids that start with a name, in terms of the ids themselves; C76_no_dots_partial proves the property for ids without dots in the last name."
  },
  {
   "property": "C77",
   "status": "proved",
   "theorems": [
    "Plotline.C77_indistinguishable",
    "Plotline.C77_same_courses",
    "Plotline.C77_resource_order",
    "Plotline.C77_replaces",
    "Plotline.C77_trigger_order",
    "Plotline.C77_trigger_resource",
    "Plotline.C77_failed"
   ],
   "note": ""
  },
  {
   "property": "C78",
   "status": "proved",
   "theorems": [
    "Plotline.C78_get",
    "Plotline.C78_contains",
    "Plotline.C78_iter",
    "Plotline.C78_insert",
    "Plotline.C78_remove",
    "Plotline.C78_replace",
    "Plotline.C78_tx_get",
    "Plotline.C78_tx_contains"
   ],
   "note": ""
  },
  {
   "property": "C79",
   "status": "proved",
   "theorems": [
    "Plotline.C79_possible",
    "Plotline.C79_stuck",
    "Plotline.C79_forgotten_guard",
    "Plotline.C79_forgotten_tx"
   ],
   "note": ""
  },
  {
   "property": "C80",
   "status": "proved",
   "theorems": [
    "Plotline.C80_peek",
    "Plotline.C80_assign",
    "Plotline.C80_forgotten",
    "Plotline.C80_commute",
    "Plotline.C80_commute"
   ],
   "note": ""
  },
  {
   "property": "C81",
   "status": "proved",
   "theorems": [
    "Plotline.C81_closure",
    "Plotline.C81_effect",
    "Plotline.C81_reads"
   ],
   "note": ""
  },
  {
   "property": "C82",
   "status": "partial",
   "theorems": [
    "Plotline.C82_possible",
    "Plotline.C82_deref",
    "Plotline.C82_agree",
    "Plotline.C82_id",
    "Plotline.C82_is_virtual",
    "Plotline.C82_successors",
    "Plotline.C82_own_id_partial",
    "Plotline.C82_refuted"
   ],
   "note": "The last sentence is false of the code (C82_refuted): id is a public field, and assigning it after the first look leaves the node of the old id. Proved for proxies whose id was not assigned (C82_own_id_partial); the rest is proved for all sequences."
  },
  {
   "property": "C83",
   "status": "proved",
   "theorems": [
    "Plotline.C83_agreement",
    "Plotline.C83_once",
    "Plotline.C83_graph",
    "Plotline.C83_waits",
    "Plotline.C83_done",
    "Plotline.C83_panic"
   ],
   "note": ""
  },
  {
   "property": "C84",
   "status": "proved",
   "theorems": [
    "Plotline.C84_lines",
    "Plotline.C84_one_reading",
    "Plotline.C84_printable",
    "Plotline.C84_verbatim",
    "Plotline.C84_plain",
    "Plotline.C84_handle",
    "Plotline.C84_silent"
   ],
   "note": ""
  },
  {
   "property": "C85",
   "status": "proved",
   "theorems": [
    "Plotline.C85_erase",
    "Plotline.C85_insert",
    "Plotline.C85_transaction",
    "Plotline.C85_from_graph",
    "Plotline.C85_plugin"
   ],
   "note": ""
  },
  {
   "property": "C86",
   "status": "partial",
   "theorems": [
    "Plotline.C86_refuted",
    "Plotline.C86_sound_partial",
    "Plotline.C86_reported_partial",
    "Plotline.C86_answer_partial",
    "Plotline.C86_exact_partial"
   ],
   "note": "False of the code (C86_refuted): both queries miss an inverted interval, and miss intervals if the query is inverted, where comparing one by one finds them. Proved for all intervals: no false positives (C86_sound_partial); what for_each_intersection misses ends before the query begins (C86_reported_partial); intersects misses nothing that begins no later than the query ends and ends no sooner than it begins (C86_answer_partial); and exactly what both queries find after any insertions, from their order (C86_exact_partial). For proper intervals it is C42 and C43."
  },
  {
   "property": "C87",
   "status": "proved",
   "theorems": [
    "Plotline.C87_grammar",
    "Plotline.C87_one_reading",
    "Plotline.C87_usage",
    "Plotline.C87_save",
    "Plotline.C87_delete",
    "Plotline.C87_any_content"
   ],
   "note": ""
  },
  {
   "property": "C88",
   "status": "partial",
   "theorems": [
    "Plotline.C88_nameable_partial",
    "Plotline.C88_listed_partial",
    "Plotline.C88_refuted",
    "Plotline.C88_reserved"
   ],
   "note": "False of the tool (C88_refuted): a document whose path begins with - is listed but no command line names it. Proved: a path can be named exactly if it does not begin with -, or is - (C88_nameable_partial); every other listed document can be deleted (C88_listed_partial). Those named like an action need a trailing separator (C88_reserved)."
  },
  {
   "property": "C89",
   "status": "proved",
   "theorems": [
    "Plotline.C89_subtransaction",
    "Plotline.C89_such_a_schema",
    "Plotline.C89_together",
    "Plotline.C89_together_ends",
    "Plotline.C89_operations"
   ],
   "note": ""
  },
  {
   "property": "C90",
   "status": "proved",
   "theorems": [
    "Plotline.C90_list",
    "Plotline.C90_save",
    "Plotline.C90_delete",
    "Plotline.C90_no_id",
    "Plotline.C90_no_pattern",
    "Plotline.C90_status"
   ],
   "note": ""
  },
  {
   "property": "C91",
   "status": "partial",
   "theorems": [
    "Plotline.C91_panics_partial",
    "Plotline.C91_history_partial",
    "Plotline.C91_again",
    "Plotline.C91_lost",
    "Plotline.C91_queries_partial",
    "Plotline.C91_refuted"
   ],
   "note": "False of the code (C91_refuted): insert and delete take the root out first, so a panic in between loses every interval. Proved: when a call panics, and that an insertion or deletion that does leaves the empty tree while queries leave it as it was (C91_panics_partial, C91_lost); any history of panicking and other calls leaves what the insertions and deletions since the last panicking one build (C91_history_partial, C91_again); queries that panic change nothing and have reported the first of what they report (C91_queries_partial)."
  },
  {
   "property": "C92",
   "status": "partial",
   "theorems": [
    "Plotline.C92_insert",
    "Plotline.C92_levels",
    "Plotline.C92_shape_partial",
    "Plotline.C92_sorted",
    "Plotline.C92_enumeration",
    "Plotline.C92_refuted"
   ],
   "note": "False of the code (C92_refuted): the tree is never balanced; inserting in the order of low bounds makes as many levels as intervals, and insert, delete and intersects go through all of them (C92_sorted); for_each_intersection examines every interval for a query before all of them, although it reports nothing (C92_enumeration). Proved: insert, delete and intersects call user code a bounded number of times per level, for_each_intersection per interval (C92_levels, C92_insert); how many levels there may be (C92_shape_partial)."
  },
  {
   "property": "C93",
   "status": "proved",
   "theorems": [
    "Plotline.C93_transaction",
    "Plotline.C93_session",
    "Plotline.C93_index"
   ],
   "note": ""
  },
  {
   "property": "C94",
   "status": "proved",
   "theorems": [
    "Plotline.C94_plugin",
    "Plotline.C94_or_hangs"
   ],
   "note": ""
  },
  {
   "property": "C95",
   "status": "partial",
   "theorems": [
    "Plotline.C95_load_partial",
    "Plotline.C95_agree",
    "Plotline.C95_list_partial",
    "Plotline.C95_refuted",
    "Plotline.C95_stdin_refuted"
   ],
   "note": "False of the code for the empty id and after 40 links (C95_refuted), and for the context -, which lists nothing (C95_stdin_refuted). Proved: contexts that lead to the same directory never load different contents under any other id (C95_agree), the one with no more links loads all that the other loads (C95_load_partial), and they list the same ids unless one is - or the pattern matches the name of a context (C95_list_partial)."
  },
  {
   "property": "C96",
   "status": "partial",
   "theorems": [
    "Plotline.C96_listed_partial",
    "Plotline.C96_iff_partial",
    "Plotline.C96_loaded_partial",
    "Plotline.C96_refuted"
   ],
   "note": "False of the code (C96_refuted): what is listed need not be a file, and links to directories are not followed by the walk. Proved: what loading a listed id gives, for every kind of thing listed (C96_listed_partial); of what can be loaded, exactly what is listed: all but what is hidden, ignored or reached through a link to a directory (C96_loaded_partial); and the equivalence where there are no links (C96_iff_partial)."
  },
  {
   "property": "C97",
   "status": "proved",
   "theorems": [
    "Plotline.C97_any_order",
    "Plotline.C97_setup",
    "Plotline.C97_plugin"
   ],
   "note": ""
  },
  {
   "property": "C98",
   "status": "proved",
   "theorems": [
    "Plotline.C98_bounded",
    "Plotline.C98_layered",
    "Plotline.C98_every_call_ends",
    "Plotline.C98_runaway"
   ],
   "note": ""
  },
  {
   "property": "C99",
   "status": "proved",
   "theorems": [
    "Plotline.C99_defined",
    "Plotline.C99_kept",
    "Plotline.C99_only_leaks",
    "Plotline.C99_only_panics",
    "Plotline.C99_quiet",
    "Plotline.C99_graph",
    "Plotline.C99_after_panic",
    "Plotline.C99_careful",
    "Plotline.C99_resource",
    "Plotline.C99_target",
    "Plotline.C99_missing",
    "Plotline.C99_delete"
   ],
   "note": ""
  },
  {
   "property": "C100",
   "status": "proved",
   "theorems": [
    "Plotline.C100_list",
    "Plotline.C100_delete",
    "Plotline.C100_others",
    "Plotline.C100_no_pattern",
    "Plotline.C100_no_context",
    "Plotline.C100_usage",
    "Plotline.C100_silent",
    "Plotline.C100_documents",
    "Plotline.C100_not_found"
   ],
   "note": ""
  },
  {
   "property": "C101",
   "status": "proved",
   "theorems": [
    "Plotline.C101_at_rest",
    "Plotline.C101_possible",
    "Plotline.C101_call",
    "Plotline.C101_blame",
    "Plotline.C101_as_if_not_made",
    "Plotline.C101_writes",
    "Plotline.C101_crash"
   ],
   "note": ""
  },
  {
   "property": "C102",
   "status": "proved",
   "theorems": [
    "Plotline.C102_get",
    "Plotline.C102_contains",
    "Plotline.C102_none",
    "Plotline.C102_target",
    "Plotline.C102_commit"
   ],
   "note": ""
  },
  {
   "property": "C103",
   "status": "partial",
   "theorems": [
    "Plotline.C103_get",
    "Plotline.C103_tx_get",
    "Plotline.C103_load",
    "Plotline.C103_once_partial",
    "Plotline.C103_target",
    "Plotline.C103_asked_again",
    "Plotline.C103_refuted"
   ],
   "note": "The first and the last sentence are false of the code (C103_refuted): get returns clones, so what is found on loading one is not remembered, and whoever gets the document again asks again, any number of times (C103_asked_again). Proved: what the document is and when the repository is asked, for every way to reach it (C103_get, C103_tx_get, C103_load, C103_target), and that documents reached by iteration are found at most once (C103_once_partial)."
  },
  {
   "property": "C104",
   "status": "partial",
   "theorems": [
    "Plotline.C104_never_wrong_partial",
    "Plotline.C104_sheltered_partial",
    "Plotline.C104_gone_for_good",
    "Plotline.C104_outside_partial",
    "Plotline.C104_save_loses",
    "Plotline.C104_delete_loses",
    "Plotline.C104_silent",
    "Plotline.C104_logged",
    "Plotline.C104_refuted"
   ],
   "note": "False of the code (C104_refuted): a panic in any call made while the tree is being changed poisons the index (C104_save_loses, C104_delete_loses), it is never readable again (C104_gone_for_good), and later operations succeed (C104_silent), each logging one line about it (C104_logged). Proved: the operation ends with the panic and stores nothing; panics in the extractor, the id and its first clone leave the index as it was (C104_outside_partial) and, if there are no others, it is exact after any course of uses (C104_sheltered_partial); an index that can be read is never wrong, whatever panicked (C104_never_wrong_partial)."
  },
  {
   "property": "C105",
   "status": "proved",
   "theorems": [
    "Plotline.C105_once",
    "Plotline.C105_end",
    "Plotline.C105_nothing_left",
    "Plotline.C105_in_use",
    "Plotline.C105_only",
    "Plotline.C105_commit",
    "Plotline.C105_abandon",
    "Plotline.C105_forgotten",
    "Plotline.C105_context",
    "Plotline.C105_handle",
    "Plotline.C105_target",
    "Plotline.C105_lock",
    "Plotline.C105_as_without",
    "Plotline.C105_possible"
   ],
   "note": ""
  },
  {
   "property": "C106",
   "status": "partial",
   "theorems": [
    "Plotline.C106_commit",
    "Plotline.C106_same",
    "Plotline.C106_target",
    "Plotline.C106_ends",
    "Plotline.C106_poison",
    "Plotline.C106_lock_refuted",
    "Plotline.C106_atomic_refuted"
   ],
   "note": "False of the code, both sentences. Saving a node with the id of one in the graph destroys the old one with the lock held (C106_lock_refuted; exactly when destructors run so is C105_lock). A destructor that panics during a commit leaves the operations up to that one applied and the others not (C106_atomic_refuted, C106_commit). Proved: what panics of destructors do to every call (C106_commit, C106_same, C106_target), when they end the process (C106_ends) and when they poison the schema (C106_poison)."
  },
  {
   "property": "C107",
   "status": "proved",
   "theorems": [
    "Plotline.C107_transaction",
    "Plotline.C107_endless",
    "Plotline.C107_session",
    "Plotline.C107_same_courses",
    "Plotline.C107_writes",
    "Plotline.C107_look_first",
    "Plotline.C107_save",
    "Plotline.C107_delete"
   ],
   "note": ""
  },
  {
   "property": "C108",
   "status": "proved",
   "theorems": [
    "Plotline.C108_parameter",
    "Plotline.C108_execute",
    "Plotline.C108_scheduled",
    "Plotline.C108_library",
    "Plotline.C108_client",
    "Plotline.C108_blind",
    "Plotline.C108_save_panics"
   ],
   "note": ""
  },
  {
   "property": "C109",
   "status": "proved",
   "theorems": [
    "Plotline.C109_three_programs",
    "Plotline.C109_complete",
    "Plotline.C109_without_triggers"
   ],
   "note": ""
  },
  {
   "property": "C110",
   "status": "proved",
   "theorems": [
    "Plotline.C110_one_by_one",
    "Plotline.C110_get",
    "Plotline.C110_peek",
    "Plotline.C110_alone",
    "Plotline.C110_shared",
    "Plotline.C110_resource",
    "Plotline.C110_at_once",
    "Plotline.C110_now",
    "Plotline.C110_stuck_for_ever",
    "Plotline.C110_otherwise",
    "Plotline.C110_served_iff",
    "Plotline.C110_at_rest",
    "Plotline.C110_ordered"
   ],
   "note": ""
  },
  {
   "property": "C111",
   "status": "proved",
   "theorems": [
    "Plotline.C111_runs",
    "Plotline.C111_shown",
    "Plotline.C111_wrong",
    "Plotline.C111_not_both",
    "Plotline.C111_main",
    "Plotline.C111_help",
    "Plotline.C111_complaint",
    "Plotline.C111_nowhere",
    "Plotline.C111_status",
    "Plotline.C111_first",
    "Plotline.C111_asked",
    "Plotline.C111_after_escape"
   ],
   "note": ""
  },
  {
   "property": "C112",
   "status": "partial",
   "theorems": [
    "Plotline.C112_eq",
    "Plotline.C112_equivalence",
    "Plotline.C112_bounds",
    "Plotline.C112_cmp_same",
    "Plotline.C112_order",
    "Plotline.C112_contract_partial",
    "Plotline.C112_refuted",
    "Plotline.C112_node"
   ],
   "note": "The last sentence is false of the code (C112_refuted): Ord is derived and compares the addresses of the functions, == what they return. Proved: what compares equal is equal, and when the converse holds (C112_contract_partial); everything else in full."
  },
  {
   "property": "C113",
   "status": "proved",
   "theorems": [
    "Plotline.C113_destroyed",
    "Plotline.C113_with",
    "Plotline.C113_when",
    "Plotline.C113_panics",
    "Plotline.C113_replaced",
    "Plotline.C113_register_panics",
    "Plotline.C113_lost",
    "Plotline.C113_read",
    "Plotline.C113_write",
    "Plotline.C113_possible",
    "Plotline.C113_nothing_leaks",
    "Plotline.C113_forgotten"
   ],
   "note": ""
  },
  {
   "property": "C114",
   "status": "proved",
   "theorems": [
    "Plotline.C114_lossy",
    "Plotline.C114_lossy_text",
    "Plotline.C114_list",
    "Plotline.C114_plain",
    "Plotline.C114_load",
    "Plotline.C114_replacement",
    "Plotline.C114_lines",
    "Plotline.C114_one_reading",
    "Plotline.C114_grammar",
    "Plotline.C114_usage",
    "Plotline.C114_nameable",
    "Plotline.C114_content",
    "Plotline.C114_text",
    "Plotline.C114_text_read",
    "Plotline.C114_text_lines",
    "Plotline.C114_text_walk"
   ],
   "note": ""
  },
  {
   "property": "C115",
   "status": "proved",
   "theorems": [
    "Plotline.C115_read",
    "Plotline.C115_less",
    "Plotline.C115_open",
    "Plotline.C115_list",
    "Plotline.C115_loads",
    "Plotline.C115_loaded",
    "Plotline.C115_log",
    "Plotline.C115_all_seen",
    "Plotline.C115_silent",
    "Plotline.C115_example"
   ],
   "note": ""
  },
  {
   "property": "C116",
   "status": "proved",
   "theorems": [
    "Plotline.C116_destroyed",
    "Plotline.C116_kept",
    "Plotline.C116_order",
    "Plotline.C116_nothing_leaks",
    "Plotline.C116_possible",
    "Plotline.C116_leaked",
    "Plotline.C116_no_circles",
    "Plotline.C116_moves",
    "Plotline.C116_panics"
   ],
   "note": ""
  },
  {
   "property": "C117",
   "status": "proved",
   "theorems": [
    "Plotline.C117_disabled",
    "Plotline.C117_called",
    "Plotline.C117_late",
    "Plotline.C117_destructors",
    "Plotline.C117_torn",
    "Plotline.C117_careful",
    "Plotline.C117_bare",
    "Plotline.C117_others",
    "Plotline.C117_aborts",
    "Plotline.C117_waits",
    "Plotline.C117_ends"
   ],
   "note": ""
  },
  {
   "property": "C118",
   "status": "proved",
   "theorems": [
    "Plotline.C118_context",
    "Plotline.C118_transaction",
    "Plotline.C118_history",
    "Plotline.C118_nodes",
    "Plotline.C118_links",
    "Plotline.C118_last",
    "Plotline.C118_unchecked",
    "Plotline.C118_around",
    "Plotline.C118_diverted"
   ],
   "note": ""
  },
  {
   "property": "C119",
   "status": "proved",
   "theorems": [
    "Plotline.C119_glimpsed",
    "Plotline.C119_lasts",
    "Plotline.C119_context",
    "Plotline.C119_still",
    "Plotline.C119_goes_on",
    "Plotline.C119_ends",
    "Plotline.C119_finishes",
    "Plotline.C119_list",
    "Plotline.C119_delete",
    "Plotline.C119_loads",
    "Plotline.C119_moved",
    "Plotline.C119_twice",
    "Plotline.C119_link",
    "Plotline.C119_path_order"
   ],
   "note": ""
  },
  {
   "property": "C120",
   "status": "proved",
   "theorems": [
    "Plotline.C120_session",
    "Plotline.C120_back",
    "Plotline.C120_start",
    "Plotline.C120_in_order",
    "Plotline.C120_needed",
    "Plotline.C120_other_order"
   ],
   "note": ""
  },
  {
   "property": "C121",
   "status": "proved",
   "theorems": [
    "Plotline.C121_session",
    "Plotline.C121_back",
    "Plotline.C121_content",
    "Plotline.C121_needed"
   ],
   "note": ""
  },
  {
   "property": "C122",
   "status": "proved",
   "theorems": [
    "Plotline.C122_session",
    "Plotline.C122_transact",
    "Plotline.C122_needed",
    "Plotline.C122_schedulers"
   ],
   "note": ""
  },
  {
   "property": "C123",
   "status": "proved",
   "theorems": [
    "Plotline.C123_session",
    "Plotline.C123_returns",
    "Plotline.C123_scale",
    "Plotline.C123_needed"
   ],
   "note": ""
  },
  {
   "property": "C124",
   "status": "proved",
   "theorems": [
    "Plotline.C124_session",
    "Plotline.C124_back",
    "Plotline.C124_history"
   ],
   "note": ""
  },
  {
   "property": "C125",
   "status": "proved",
   "theorems": [
    "Plotline.C125_run",
    "Plotline.C125_process",
    "Plotline.C125_load",
    "Plotline.C125_plain",
    "Plotline.C125_outside"
   ],
   "note": ""
  }
 ]
}