{
 "claims": [
  {
   "property": "C01",
   "status": "proved",
   "theorems": [
    "Cru.Net.C01_finished_only_when_idle"
   ],
   "note": "All lanes, tasks and interleavings without spurious wake-ups."
  },
  {
   "property": "C02",
   "status": "proved",
   "theorems": [
    "Cru.Net.C02_refines_bag",
    "Cru.Net.C02_nothing_lost_or_duplicated",
    "Cru.Net.C02_all_handled_at_end"
   ],
   "note": "Refinement to the bag machine, and a ledger of sent, handled and deferred packets."
  },
  {
   "property": "C03",
   "status": "proved",
   "theorems": [
    "Cru.Net.C03_no_deadlock"
   ],
   "note": ""
  },
  {
   "property": "C04",
   "status": "proved",
   "theorems": [
    "Cru.Net.C04_every_schedule_terminates",
    "Cru.Net.C04_completion_reachable"
   ],
   "note": "Hypothesis: the job itself generates finitely many handlings."
  },
  {
   "property": "C05",
   "status": "proved",
   "theorems": [
    "Cru.Net.C05_any_operation_hangs",
    "Cru.Net.C05_any_operation_does_nothing",
    "Cru.Net.C05_spurious_wakeup_loses_packets",
    "Cru.Net.C05_spurious_wakeup_hangs",
    "Cru.Net.C05_no_loss_without_spurious_wakeups",
    "Cru.Net.C02_all_handled_at_end"
   ],
   "note": "The defect, for every operation, and the absence of losses without spurious wake-ups."
  },
  {
   "property": "C06",
   "status": "proved",
   "theorems": [
    "Cru.Build.C06_vertices",
    "Cru.Build.C06_connector_vertices"
   ],
   "note": "Up to the user's equality, for connectors and subconnectors; the callback must treat equal arguments equally (Respects)."
  },
  {
   "property": "C07",
   "status": "proved",
   "theorems": [
    "Cru.Build.C07_edges",
    "Cru.Build.C07_connector_edges"
   ],
   "note": "The connector version needs no assumption on how the connector treats equal vertices."
  },
  {
   "property": "C08",
   "status": "proved",
   "theorems": [
    "Cru.Build.C08_same_graph"
   ],
   "note": "Also independent of the table implementation (with or without Judy arrays)."
  },
  {
   "property": "C09",
   "status": "proved",
   "theorems": [
    "Cru.Build.C09_called_at_most_once",
    "Cru.Build.C09_called_exactly_once"
   ],
   "note": "At most once at every moment of every execution; exactly once on success."
  },
  {
   "property": "C10",
   "status": "proved",
   "theorems": [
    "Cru.Build.C10_vertices_accounted_for",
    "Cru.Build.C10_labels_accounted_for"
   ],
   "note": "Vertices for both kinds of callback; labels for connectors."
  },
  {
   "property": "C11",
   "status": "proved",
   "theorems": [
    "Cru.Build.C11_limit_respected",
    "Cru.Build.C11_overflow_only_if_exceeded",
    "Cru.Build.C11_exact_with_one_lane"
   ],
   "note": ""
  },
  {
   "property": "C12",
   "status": "proved",
   "theorems": [
    "Cru.Build.C12_error_has_a_cause",
    "Cru.Build.C12_callback_error_fails",
    "Cru.Build.C12_no_error_succeeds"
   ],
   "note": ""
  },
  {
   "property": "C13",
   "status": "proved",
   "theorems": [
    "Cru.Build.C13_subconnector_calls",
    "Cru.Build.C13_edges_are_the_union"
   ],
   "note": ""
  },
  {
   "property": "C14",
   "status": "proved",
   "theorems": [
    "Cru.Count.C14_count",
    "Cru.Count.C14_returns",
    "Cru.Build.C14_built"
   ],
   "note": "Provided the count can be represented in a machine word."
  },
  {
   "property": "C15",
   "status": "proved",
   "theorems": [
    "Cru.Count.C15_singleton",
    "Cru.Count.C15_singleton_count"
   ],
   "note": ""
  },
  {
   "property": "C16",
   "status": "proved",
   "theorems": [
    "Cru.Fab.C16_copy",
    "Cru.Fab.C16_killed",
    "Cru.Fab.C16_error",
    "Cru.Fab.C16_terminates"
   ],
   "note": "The given graph is only read by the model, as by the code."
  },
  {
   "property": "C17",
   "status": "proved",
   "theorems": [
    "Cru.Cross.C17_product",
    "Cru.Cross.C17_pairs",
    "Cru.Cross.C17_terminates"
   ],
   "note": ""
  },
  {
   "property": "C18",
   "status": "proved",
   "theorems": [
    "Cru.MapReduce.C18_concurrent",
    "Cru.MapReduce.C18_terminates",
    "Cru.MapReduce.C18_returns",
    "Cru.MapReduce.C18_vacuous_case_counts",
    "Cru.MapReduce.C18_zone_ignored",
    "Cru.MapReduce.C18_lanes_disagree",
    "Cru.MapReduce.C18_zones_disagree"
   ],
   "note": "The last four are about the exception."
  },
  {
   "property": "C19",
   "status": "proved",
   "theorems": [
    "Cru.Induce.C19_value",
    "Cru.Induce.C19_once",
    "Cru.Induce.C19_ends",
    "Cru.Induce.C19_exists"
   ],
   "note": "The initial node is a parameter; allocation failures are not modelled."
  },
  {
   "property": "C20",
   "status": "proved",
   "theorems": [
    "Cru.Mutate.C20_order",
    "Cru.Mutate.C20_determined",
    "Cru.Mutate.C20_once",
    "Cru.Mutate.C20_error",
    "Cru.Mutate.C20_ends",
    "Cru.Mutate.C20_exists"
   ],
   "note": "The initial node is a parameter; allocation failures are not modelled."
  },
  {
   "property": "C21",
   "status": "proved",
   "theorems": [
    "Cru.Mutate.C21_remote_first",
    "Cru.Mutate.C21_stall",
    "Cru.Mutate.C21_escape",
    "Cru.Mutate.C21_ignored"
   ],
   "note": "Three of the theorems are about defects."
  },
  {
   "property": "C22",
   "status": "proved",
   "theorems": [
    "Cru.Classify.C22_groups",
    "Cru.Classify.C22_terminates",
    "Cru.Partition.C22_partition"
   ],
   "note": "The incident fold of the classifier is taken to be empty here; C156 is about classifiers with one."
  },
  {
   "property": "C23",
   "status": "proved",
   "theorems": [
    "Cru.Classes.C23_united"
   ],
   "note": ""
  },
  {
   "property": "C24",
   "status": "proved",
   "theorems": [
    "Cru.Classes.C24_stale",
    "Cru.Classes.C24_wrong",
    "Cru.Classes.C24_unmodified"
   ],
   "note": "The first two are the defect."
  },
  {
   "property": "C25",
   "status": "proved",
   "theorems": [
    "Cru.Fold.C25_edge_fold",
    "Cru.Fold.C25_edge_reduction",
    "Cru.Fold.C25_no_vacuous_case",
    "Cru.Fold.C25_order_irrelevant",
    "Cru.Fold.C25_order_irrelevant_reduction",
    "Cru.Fold.C25_vertex_map",
    "Cru.Fold.C25_vertex_fold"
   ],
   "note": ""
  },
  {
   "property": "C26",
   "status": "proved",
   "theorems": [
    "Cru.Fold.C26_edge_fold",
    "Cru.Fold.C26_vertex_fold",
    "Cru.Fold.C26_vertex_map",
    "Cru.Fold.C26_vacuous_case_returned_with_error"
   ],
   "note": "Whatever errors the callbacks raise."
  },
  {
   "property": "C27",
   "status": "proved",
   "theorems": [
    "Cru.C27_deduplicated_edges",
    "Cru.C27_deduplicated_edges_no_judy",
    "Cru.C27_connections"
   ],
   "note": ""
  },
  {
   "property": "C28",
   "status": "proved",
   "theorems": [
    "Cru.C28_minimum_edge",
    "Cru.C28_individually_filtered",
    "Cru.C28_individually_thinned",
    "Cru.C28_jointly_filtered",
    "Cru.C28_jointly_thinned",
    "Cru.C28_filtered_complete"
   ],
   "note": ""
  },
  {
   "property": "C29",
   "status": "proved",
   "theorems": [
    "Cru.Filter.C29_filtered",
    "Cru.Filter.C29_nodes",
    "Cru.Filter.C29_pass",
    "Cru.Filter.C29_wf",
    "Cru.Filter.C29_reclaimed",
    "Cru.Filter.C29_error",
    "Cru.Filter.C29_error_reported",
    "Cru.Filter.C29_correct",
    "Cru.Filter.C29_terminates",
    "Cru.Filter.C29_exists"
   ],
   "note": "Allocation failures are not modelled."
  },
  {
   "property": "C30",
   "status": "proved",
   "theorems": [
    "Cru.Dedup.C30_fused",
    "Cru.Dedup.C30_complete_iff",
    "Cru.Dedup.C30_error",
    "Cru.Dedup.C30_error_reported",
    "Cru.Dedup.C30_correct",
    "Cru.Dedup.C30_terminates",
    "Cru.Dedup.C30_exists"
   ],
   "note": "Allocation failures and the distribution of nodes to ports are left out."
  },
  {
   "property": "C31",
   "status": "proved",
   "theorems": [
    "Cru.Duplex.C31_exact",
    "Cru.Duplex.C31_duplex",
    "Cru.Duplex.C31_removed",
    "Cru.Duplex.C31_restored",
    "Cru.Duplex.C31_terminates",
    "Cru.Duplex.C31_recognized",
    "Cru.Duplex.C31_prepared",
    "Cru.Duplex.C31_backwards"
   ],
   "note": "Allocation failures are not modelled."
  },
  {
   "property": "C32",
   "status": "proved",
   "theorems": [
    "Cru.Merge.C32_flag",
    "Cru.Merge.C32_pruner"
   ],
   "note": ""
  },
  {
   "property": "C33",
   "status": "proved",
   "theorems": [
    "Cru.Merge.C33_quotient",
    "Cru.Merge.C33_terminates"
   ],
   "note": "The incident fold of the classifier is taken to be empty here, and the conversion of the given graph to half duplex form is left out; C157 covers both."
  },
  {
   "property": "C34",
   "status": "proved",
   "theorems": [
    "Cru.Compose.C34_extends",
    "Cru.Compose.C34_terminates"
   ],
   "note": "The adjacent property passed to the user's functions is the one the code passes (C66)."
  },
  {
   "property": "C35",
   "status": "proved",
   "theorems": [
    "Cru.Compose.C35_by_label",
    "Cru.Compose.C35_default_labeler",
    "Cru.Compose.C35_unrelated_deleted",
    "Cru.Compose.C35_distinct"
   ],
   "note": "The first three are the defect, the last the positive part."
  },
  {
   "property": "C36",
   "status": "proved",
   "theorems": [
    "Cru.Stretch.C36_stretched",
    "Cru.Stretch.C36_pass",
    "Cru.Stretch.C36_overflow",
    "Cru.Stretch.C36_terminates",
    "Cru.Stretch.C36_exists"
   ],
   "note": "Allocation failures and errors of property functions are left out."
  },
  {
   "property": "C37",
   "status": "proved",
   "theorems": [
    "Cru.Split.C37_split",
    "Cru.Split.C37_wf",
    "Cru.Split.C37_intact",
    "Cru.Split.C37_default",
    "Cru.Split.C37_terminates",
    "Cru.Split.C37_exists"
   ],
   "note": "Errors of user functions and allocation failures are not modelled."
  },
  {
   "property": "C38",
   "status": "proved",
   "theorems": [
    "Cru.Split.C38_overflow",
    "Cru.Split.C38_extra"
   ],
   "note": "This is the defect."
  },
  {
   "property": "C39",
   "status": "proved",
   "theorems": [
    "Cru.Spread.C39_spread",
    "Cru.Spread.C39_succeeds",
    "Cru.Spread.C39_calls",
    "Cru.Spread.C39_complete",
    "Cru.Spread.C39_same_graph",
    "Cru.Spread.C39_idle",
    "Cru.Spread.C39_terminates",
    "Cru.Spread.C39_exists"
   ],
   "note": "Connectors only; see C104 and C105 for subconnectors. Allocation failures and errors of equality predicates are left out."
  },
  {
   "property": "C40",
   "status": "proved",
   "theorems": [
    "Cru.Postpone.C40_postponed",
    "Cru.Postpone.C40_idle",
    "Cru.Postpone.C40_terminates"
   ],
   "note": "Errors in user-supplied functions and allocation failures are not modelled."
  },
  {
   "property": "C41",
   "status": "proved",
   "theorems": [
    "Cru.Errs.C41_first_error_sticks",
    "Cru.Errs.C41_first_error_wins",
    "Cru.Errs.C41_destructors_always_called"
   ],
   "note": "About the macros every callback goes through."
  },
  {
   "property": "C42",
   "status": "proved",
   "theorems": [
    "Cru.Errs.C42_router_status",
    "Cru.Errs.C42_no_error_lost",
    "Cru.Errs.C42_reported",
    "Cru.Errs.C42_reported_containers",
    "Cru.Errs.C42_success"
   ],
   "note": ""
  },
  {
   "property": "C43",
   "status": "proved",
   "theorems": [
    "Cru.Kill.C43_remembered",
    "Cru.Kill.C43_during",
    "Cru.Kill.C43_no_spurious_kill"
   ],
   "note": ""
  },
  {
   "property": "C44",
   "status": "proved",
   "theorems": [
    "Cru.Kill.C44_request_lost",
    "Cru.Kill.C44_wrong_operation_killed",
    "Cru.Kill.C44_write_after_free"
   ],
   "note": "The defect, with reachable witnesses."
  },
  {
   "property": "C45",
   "status": "proved",
   "theorems": [
    "Cru.Kill.C45_noticed_within_32",
    "Cru.Kill.C45_bound_is_exact",
    "Cru.Kill.C45_not_without_cause"
   ],
   "note": ""
  },
  {
   "property": "C46",
   "status": "proved",
   "theorems": [
    "Cru.Errs.C46_global_log",
    "Cru.Errs.C46_reads_past_the_end",
    "Cru.Errs.C46_defect_reachable"
   ],
   "note": "The property states both the safe case and the defect, and both are proved."
  },
  {
   "property": "C47",
   "status": "proved",
   "theorems": [
    "Cru.Errs.C47_total",
    "Cru.Errs.C47_int_min_undefined",
    "Cru.Errs.C47_distinct",
    "Cru.Errs.C47_documented",
    "Cru.Errs.C47_numbered",
    "Cru.Errs.C47_named"
   ],
   "note": "The least int is the exception, stated in the property."
  },
  {
   "property": "C48",
   "status": "proved",
   "theorems": [
    "Cru.Pack.C48_counter",
    "Cru.Pack.C48_bound",
    "Cru.Pack.C48_one_thread",
    "Cru.Pack.C48_bound_reached",
    "Cru.Pack.C48_packet_kept_or_returned",
    "Cru.Pack.C48_every_packet_kept_or_returned"
   ],
   "note": ""
  },
  {
   "property": "C49",
   "status": "proved",
   "theorems": [
    "Cru.Router.C49_lives",
    "Cru.Router.C49_destroyed_by_last",
    "Cru.Router.C49_destroyed_exactly",
    "Cru.Router.C49_kill_reported"
   ],
   "note": ""
  },
  {
   "property": "C50",
   "status": "proved",
   "theorems": [
    "Cru.Hash.C50_injective"
   ],
   "note": ""
  },
  {
   "property": "C51",
   "status": "proved",
   "theorems": [
    "Cru.Infer.C51_builder",
    "Cru.Infer.C51_crosser",
    "Cru.Infer.C51_mapreducer",
    "Cru.Infer.C51_inducer",
    "Cru.Infer.C51_composer",
    "Cru.Infer.C51_stretcher",
    "Cru.Infer.C51_splitter",
    "Cru.Infer.C51_classifier",
    "Cru.Infer.C51_no_classifier",
    "Cru.Infer.C51_merger",
    "Cru.Infer.C51_mutator",
    "Cru.Infer.C51_filter",
    "Cru.Infer.C51_deduplicator",
    "Cru.Infer.C51_postponer",
    "Cru.Infer.C51_fabricator",
    "Cru.Infer.C51_map_not_inferred",
    "Cru.Infer.C51_reduction_not_inferred",
    "Cru.Infer.C51_filter_reduction",
    "Cru.Infer.C51_inducer_bmap",
    "Cru.Infer.C51_filter_bmap",
    "Cru.Infer.C51_inducer_boundary"
   ],
   "note": "One equation per specification type; the last six are the disagreements with the manual pages."
  },
  {
   "property": "C52",
   "status": "proved",
   "theorems": [
    "Cru.Infer.C52_builder",
    "Cru.Infer.C52_crosser",
    "Cru.Infer.C52_stretcher",
    "Cru.Infer.C52_postponer",
    "Cru.Infer.C52_classifier",
    "Cru.Infer.C52_fold",
    "Cru.Infer.C52_fold_map",
    "Cru.Infer.C52_mutator_edges",
    "Cru.Infer.C52_mutator_vertices",
    "Cru.Infer.C52_merger_vertices",
    "Cru.Infer.C52_merger_edges",
    "Cru.Infer.C52_fabricator",
    "Cru.Infer.C52_filter_vertices",
    "Cru.Infer.C52_filter_thinner",
    "Cru.Infer.C52_filter_order"
   ],
   "note": ""
  },
  {
   "property": "C53",
   "status": "proved",
   "theorems": [
    "Cru.Table.C53_multiplicity",
    "Cru.Table.C53_recorded",
    "Cru.Table.C53_record",
    "Cru.Table.C53_merge",
    "Cru.Table.C53_index_irrelevant"
   ],
   "note": ""
  },
  {
   "property": "C54",
   "status": "proved",
   "theorems": [
    "Cru.Queue.C54_append",
    "Cru.Queue.C54_enqueued",
    "Cru.Queue.C54_queueOf",
    "Cru.Queue.C54_nodesOf",
    "Cru.Queue.C54_union",
    "Cru.Queue.C54_union_base"
   ],
   "note": "On a heap of linked nodes."
  },
  {
   "property": "C55",
   "status": "proved",
   "theorems": [
    "Cru.Entry.C55_failure_undefined",
    "Cru.Entry.C55_undefined_iff",
    "Cru.Entry.C55_success",
    "Cru.Entry.C55_rejected"
   ],
   "note": "The defect, with what holds otherwise. The statement says when the behaviour is undefined; before it was found it demanded that it never is."
  },
  {
   "property": "C56",
   "status": "proved",
   "theorems": [
    "Cru.Build.C56_finite_builds_terminate",
    "Cru.Build.C56_limited_builds_terminate"
   ],
   "note": ""
  },
  {
   "property": "C57",
   "status": "proved",
   "theorems": [
    "Cru.MapReduce.C57_operands",
    "Cru.MapReduce.C57_error_cleared"
   ],
   "note": "The second is the defect."
  },
  {
   "property": "C58",
   "status": "proved",
   "theorems": [
    "Cru.Table.C58_member",
    "Cru.Table.C58_testAndSet",
    "Cru.Table.C58_no_duplicates",
    "Cru.Table.C58_setMembership",
    "Cru.Table.C58_setMembership_twice"
   ],
   "note": "The last one is the defect without Judy arrays."
  },
  {
   "property": "C59",
   "status": "proved",
   "theorems": [
    "Cru.Table.C59_image",
    "Cru.Table.C59_duplicates_reported",
    "Cru.Table.C59_classes_accounted"
   ],
   "note": ""
  },
  {
   "property": "C60",
   "status": "proved",
   "theorems": [
    "Cru.Build.C60_built_wf"
   ],
   "note": ""
  },
  {
   "property": "C61",
   "status": "proved",
   "theorems": [
    "Cru.MapReduce.C61_held",
    "Cru.MapReduce.C61_end",
    "Cru.MapReduce.C61_sequential"
   ],
   "note": " C61_sequential is for the version without workers that one lane uses."
  },
  {
   "property": "C62",
   "status": "proved",
   "theorems": [
    "Cru.Classify.C62_killed",
    "Cru.Classify.C62_predicate"
   ],
   "note": "Both are the defect."
  },
  {
   "property": "C63",
   "status": "proved",
   "theorems": [
    "Cru.Partition.C63_kill_lost"
   ],
   "note": "This is the defect."
  },
  {
   "property": "C64",
   "status": "proved",
   "theorems": [
    "Cru.Partition.C64_freed"
   ],
   "note": "The incident fold of the classifier is taken to be empty here; C156 is about classifiers with one."
  },
  {
   "property": "C65",
   "status": "proved",
   "theorems": [
    "Cru.Merge.C65_kill_lost"
   ],
   "note": "This is the defect."
  },
  {
   "property": "C66",
   "status": "proved",
   "theorems": [
    "Cru.Compose.C66_adjacent_property"
   ],
   "note": "This is the defect."
  },
  {
   "property": "C67",
   "status": "proved",
   "theorems": [
    "Cru.Compose.C67_kill_lost"
   ],
   "note": "This is the defect."
  },
  {
   "property": "C68",
   "status": "proved",
   "theorems": [
    "Cru.Compose.C68_closed",
    "Cru.Compose.C68_stops_early"
   ],
   "note": "The second is the exception."
  },
  {
   "property": "C69",
   "status": "proved",
   "theorems": [
    "Cru.Compose.C69_freed_visited"
   ],
   "note": "This is the defect."
  },
  {
   "property": "C70",
   "status": "proved",
   "theorems": [
    "Cru.Postpone.C70_fixed",
    "Cru.Postpone.C70_stops_early"
   ],
   "note": "The second is the exception."
  },
  {
   "property": "C71",
   "status": "proved",
   "theorems": [
    "Cru.Postpone.C71_kill_lost"
   ],
   "note": "This is the defect."
  },
  {
   "property": "C72",
   "status": "proved",
   "theorems": [
    "Cru.Postpone.C72_freed"
   ],
   "note": "This is the defect."
  },
  {
   "property": "C73",
   "status": "proved",
   "theorems": [
    "Cru.Duplex.C73_stale"
   ],
   "note": "This is the defect."
  },
  {
   "property": "C74",
   "status": "proved",
   "theorems": [
    "Cru.Cross.C74_within",
    "Cru.Cross.C74_beyond",
    "Cru.Cross.C74_verdict",
    "Cru.Cross.C74_bound"
   ],
   "note": ""
  },
  {
   "property": "C75",
   "status": "proved",
   "theorems": [
    "Cru.Split.C75_kill_lost"
   ],
   "note": "This is the defect."
  },
  {
   "property": "C76",
   "status": "proved",
   "theorems": [
    "Cru.Split.C76_kill_lost"
   ],
   "note": "This is the defect."
  },
  {
   "property": "C77",
   "status": "proved",
   "theorems": [
    "Cru.Split.C77_dangling"
   ],
   "note": "This is the defect."
  },
  {
   "property": "C78",
   "status": "proved",
   "theorems": [
    "Cru.Split.C78_race"
   ],
   "note": "This is the defect."
  },
  {
   "property": "C79",
   "status": "proved",
   "theorems": [
    "Cru.Split.C79_properties"
   ],
   "note": "This is the defect."
  },
  {
   "property": "C80",
   "status": "proved",
   "theorems": [
    "Cru.Induce.C80_cyclic"
   ],
   "note": ""
  },
  {
   "property": "C81",
   "status": "proved",
   "theorems": [
    "Cru.Induce.C81_unreported",
    "Cru.Induce.C81_kill_lost"
   ],
   "note": "This is the defect."
  },
  {
   "property": "C82",
   "status": "proved",
   "theorems": [
    "Cru.Induce.C82_wrong"
   ],
   "note": "This is the defect."
  },
  {
   "property": "C83",
   "status": "proved",
   "theorems": [
    "Cru.Induce.C83_disposal"
   ],
   "note": ""
  },
  {
   "property": "C84",
   "status": "proved",
   "theorems": [
    "Cru.Mutate.C84_simultaneous",
    "Cru.Mutate.C84_determined"
   ],
   "note": ""
  },
  {
   "property": "C85",
   "status": "proved",
   "theorems": [
    "Cru.Mutate.C85_shape",
    "Cru.Mutate.C85_full"
   ],
   "note": ""
  },
  {
   "property": "C86",
   "status": "proved",
   "theorems": [
    "Cru.Mutate.C86_cyclic"
   ],
   "note": "This is the defect."
  },
  {
   "property": "C87",
   "status": "proved",
   "theorems": [
    "Cru.Mutate.C87_kill_lost"
   ],
   "note": "This is the defect."
  },
  {
   "property": "C88",
   "status": "proved",
   "theorems": [
    "Cru.Mutate.C88_modified"
   ],
   "note": "This is the defect."
  },
  {
   "property": "C89",
   "status": "proved",
   "theorems": [
    "Cru.Filter.C89_thinned",
    "Cru.Filter.C89_sub",
    "Cru.Filter.C89_correct"
   ],
   "note": ""
  },
  {
   "property": "C90",
   "status": "proved",
   "theorems": [
    "Cru.Filter.C90_ignored"
   ],
   "note": "This is the disagreement with the documentation."
  },
  {
   "property": "C91",
   "status": "proved",
   "theorems": [
    "Cru.Filter.C91_edges",
    "Cru.Filter.C91_thinned"
   ],
   "note": ""
  },
  {
   "property": "C92",
   "status": "proved",
   "theorems": [
    "Cru.Filter.C92_kill_lost"
   ],
   "note": "This is the defect."
  },
  {
   "property": "C93",
   "status": "proved",
   "theorems": [
    "Cru.Filter.C93_conserved"
   ],
   "note": ""
  },
  {
   "property": "C94",
   "status": "proved",
   "theorems": [
    "Cru.Filter.C94_dangling"
   ],
   "note": "This is the defect."
  },
  {
   "property": "C95",
   "status": "proved",
   "theorems": [
    "Cru.Filter.C95_survivor",
    "Cru.Filter.C95_internal"
   ],
   "note": "These are the defects."
  },
  {
   "property": "C96",
   "status": "proved",
   "theorems": [
    "Cru.Dedup.C96_lossy",
    "Cru.Dedup.C96_redundant"
   ],
   "note": "These are the defects."
  },
  {
   "property": "C97",
   "status": "proved",
   "theorems": [
    "Cru.Dedup.C97_dangling",
    "Cru.Dedup.C97_single"
   ],
   "note": "This is the defect."
  },
  {
   "property": "C98",
   "status": "proved",
   "theorems": [
    "Cru.Dedup.C98_conserved"
   ],
   "note": ""
  },
  {
   "property": "C99",
   "status": "proved",
   "theorems": [
    "Cru.Stretch.C99_equal"
   ],
   "note": "This is the defect."
  },
  {
   "property": "C100",
   "status": "proved",
   "theorems": [
    "Cru.Stretch.C100_overflow"
   ],
   "note": "This is the defect."
  },
  {
   "property": "C101",
   "status": "proved",
   "theorems": [
    "Cru.Stretch.C101_safe",
    "Cru.Stretch.C101_freed"
   ],
   "note": "The latter is the defect."
  },
  {
   "property": "C102",
   "status": "proved",
   "theorems": [
    "Cru.Stretch.C102_dangling"
   ],
   "note": "This is the defect."
  },
  {
   "property": "C103",
   "status": "proved",
   "theorems": [
    "Cru.Spread.C103_equal"
   ],
   "note": "This is the defect."
  },
  {
   "property": "C104",
   "status": "proved",
   "theorems": [
    "Cru.Spread.C104_lone"
   ],
   "note": "This is the defect."
  },
  {
   "property": "C105",
   "status": "proved",
   "theorems": [
    "Cru.Spread.C105_more_edges",
    "Cru.Spread.C105_label_skipped"
   ],
   "note": "These are the defects."
  },
  {
   "property": "C106",
   "status": "proved",
   "theorems": [
    "Cru.Spread.C106_kill_lost",
    "Cru.Spread.C106_undefined"
   ],
   "note": "These are the defects."
  },
  {
   "property": "C107",
   "status": "proved",
   "theorems": [
    "Cru.Free.C107_now",
    "Cru.Free.C107_later",
    "Cru.Free.C107_ends",
    "Cru.Free.C107_resumes",
    "Cru.Free.C107_exists"
   ],
   "note": ""
  },
  {
   "property": "C108",
   "status": "proved",
   "theorems": [
    "Cru.Free.C108_leak",
    "Cru.Free.C108_later"
   ],
   "note": "This is the defect."
  },
  {
   "property": "C109",
   "status": "proved",
   "theorems": [
    "Cru.Locate.C109_unique",
    "Cru.Locate.C109_none",
    "Cru.Locate.C109_found",
    "Cru.Locate.C109_base",
    "Cru.Locate.C109_error",
    "Cru.Locate.C109_ends",
    "Cru.Locate.C109_exists"
   ],
   "note": "Search for the initial vertex of a zone, on every schedule. Allocation failures are left out."
  },
  {
   "property": "C110",
   "status": "proved",
   "theorems": [
    "Cru.Locate.C110_same",
    "Cru.Locate.C110_alone",
    "Cru.Locate.C110_fails"
   ],
   "note": "The code fails with internal error 750 if two workers find a duplicated initial vertex; proved when it doesn't and that it can."
  },
  {
   "property": "C111",
   "status": "proved",
   "theorems": [
    "Cru.History.C111_history",
    "Cru.History.C111_counted",
    "Cru.History.C111_freed",
    "Cru.History.C111_backwards",
    "Cru.History.C111_mutable"
   ],
   "note": "By induction on the history. Killed operations are left out, and so are subconnectors in cru_spread."
  },
  {
   "property": "C112",
   "status": "proved",
   "theorems": [
    "Cru.Local.C112_attribute",
    "Cru.Local.C112_polled",
    "Cru.Local.C112_polled_during",
    "Cru.Local.C112_deprived",
    "Cru.Local.C112_caller",
    "Cru.Local.C112_nested",
    "Cru.Local.C112_connect",
    "Cru.Local.C112_stretch",
    "Cru.Local.C112_places"
   ],
   "note": "The exceptions are part of the statement."
  },
  {
   "property": "C113",
   "status": "proved",
   "theorems": [
    "Cru.Reclaim.C113_safe",
    "Cru.Reclaim.C113_references",
    "Cru.Reclaim.C113_freed"
   ],
   "note": "Overflow of reference counts is left out."
  },
  {
   "property": "C114",
   "status": "proved",
   "theorems": [
    "Cru.Merge.C114_map",
    "Cru.Merge.C114_follow",
    "Cru.Merge.C114_happens",
    "Cru.Merge.C114_only"
   ],
   "note": "This is the defect."
  },
  {
   "property": "C115",
   "status": "proved",
   "theorems": [
    "Cru.Merge.C115_dangling"
   ],
   "note": "This is the defect."
  },
  {
   "property": "C116",
   "status": "proved",
   "theorems": [
    "Cru.MergeAcc.C116_once",
    "Cru.MergeAcc.C116_wrong_destructor",
    "Cru.MergeAcc.C116_wrong_happens"
   ],
   "note": "Allocation failures are left out. C116_wrong_destructor is the defect."
  },
  {
   "property": "C117",
   "status": "proved",
   "theorems": [
    "Cru.Request.C117_connect",
    "Cru.Request.C117_connect_call",
    "Cru.Request.C117_stretch",
    "Cru.Request.C117_stretch_once",
    "Cru.Request.C117_stretch_lost",
    "Cru.Request.C117_context"
   ],
   "note": "C117_stretch_lost is the defect."
  },
  {
   "property": "C118",
   "status": "proved",
   "theorems": [
    "Cru.MapReduce.C118_reported",
    "Cru.MapReduce.C118_cause",
    "Cru.MapReduce.C118_sequential"
   ],
   "note": "The reduction phase is a relation covering every order of pairing. C118_sequential is for the version without workers that one lane uses, and includes the vacuous case."
  },
  {
   "property": "C119",
   "status": "proved",
   "theorems": [
    "Cru.SpawnAcc.C119_account",
    "Cru.SpawnAcc.C119_status",
    "Cru.SpawnAcc.C119_lost"
   ],
   "note": "The defect (a vertex returned along with an error is lost) is C119_lost; otherwise C119_account."
  },
  {
   "property": "C120",
   "status": "proved",
   "theorems": [
    "Cru.SpawnAcc.C120_account",
    "Cru.SpawnAcc.C120_status"
   ],
   "note": "Everything is accounted for at any time and at the end of any execution."
  },
  {
   "property": "C121",
   "status": "proved",
   "theorems": [
    "Cru.SplitAcc.C121_account",
    "Cru.SplitAcc.C121_status",
    "Cru.SplitAcc.C121_lost"
   ],
   "note": "The defect (a vertex returned along with an error is lost) is C121_lost; otherwise C121_account."
  },
  {
   "property": "C122",
   "status": "proved",
   "theorems": [
    "Cru.Wrap.C122_performed",
    "Cru.Wrap.C122_accepted",
    "Cru.Wrap.C122_hard",
    "Cru.Wrap.C122_soft"
   ],
   "note": "Histories of calls, which are serialized by a lock."
  },
  {
   "property": "C123",
   "status": "proved",
   "theorems": [
    "Cru.Wrap.C123_clear",
    "Cru.Wrap.C123_masked"
   ],
   "note": "The defect is C123_masked."
  },
  {
   "property": "C124",
   "status": "proved",
   "theorems": [
    "Cru.PostponeAcc.C124_graph",
    "Cru.PostponeAcc.C124_failed",
    "Cru.PostponeAcc.C124_killed",
    "Cru.PostponeAcc.C124_lost"
   ],
   "note": "The defect is C124_lost."
  },
  {
   "property": "C125",
   "status": "proved",
   "theorems": [
    "Cru.PostponeAcc.C125_converted",
    "Cru.PostponeAcc.C125_twice",
    "Cru.PostponeAcc.C125_unstarted"
   ],
   "note": "The defect is C125_twice; C125_unstarted shows that it's possible. Allocation failures within the conversion are left out."
  },
  {
   "property": "C126",
   "status": "proved",
   "theorems": [
    "Cru.Mutate.C126_refused",
    "Cru.Mutate.C126_unchecked",
    "Cru.Mutate.C126_covered",
    "Cru.Mutate.C126_destructors",
    "Cru.Mutate.C126_exists",
    "Cru.Mutate.C126_mistaken"
   ],
   "note": "The documented behaviour is false: refusal when destructors are unchanged, none when they change. What is proved is what the code does, and a graph with wrong destructors is exhibited."
  },
  {
   "property": "C127",
   "status": "proved",
   "theorems": [
    "Cru.MutateAcc.C127_returned",
    "Cru.MutateAcc.C127_whole",
    "Cru.MutateAcc.C127_failed",
    "Cru.MutateAcc.C127_abandoned",
    "Cru.MutateAcc.C127_late",
    "Cru.MutateAcc.C127_lost",
    "Cru.MutateAcc.C127_unsafe"
   ],
   "note": "The defects are C127_abandoned with C127_late, C127_lost and C127_unsafe."
  },
  {
   "property": "C128",
   "status": "proved",
   "theorems": [
    "Cru.MutateAcc.C128_returned",
    "Cru.MutateAcc.C127_whole",
    "Cru.MutateAcc.C128_killed",
    "Cru.MutateAcc.C128_abandoned",
    "Cru.MutateAcc.C127_late",
    "Cru.MutateAcc.C128_unstarted",
    "Cru.MutateAcc.C128_lost",
    "Cru.MutateAcc.C128_mismatch"
   ],
   "note": "The defects are C128_abandoned with C127_late, C128_lost and C128_mismatch."
  },
  {
   "property": "C129",
   "status": "proved",
   "theorems": [
    "Cru.Gather.C129_gathered",
    "Cru.Gather.C129_intact",
    "Cru.Gather.C129_ends",
    "Cru.Gather.C129_resumes",
    "Cru.Gather.C129_disposed",
    "Cru.Gather.C129_unstarted"
   ],
   "note": ""
  },
  {
   "property": "C130",
   "status": "proved",
   "theorems": [
    "Cru.Gather.C130_leak",
    "Cru.Gather.C130_properties"
   ],
   "note": "These are defects. The witness for the second is an example beside it."
  },
  {
   "property": "C131",
   "status": "proved",
   "theorems": [
    "Cru.ComposeAcc.C131_returned",
    "Cru.ComposeAcc.C131_failed",
    "Cru.ComposeAcc.C131_before",
    "Cru.ComposeAcc.C131_divided"
   ],
   "note": ""
  },
  {
   "property": "C132",
   "status": "proved",
   "theorems": [
    "Cru.ComposeAcc.C132_converted",
    "Cru.ComposeAcc.C132_twice",
    "Cru.ComposeAcc.C132_which",
    "Cru.ComposeAcc.C132_unstarted",
    "Cru.ComposeAcc.C132_doubled"
   ],
   "note": "The defect is C132_twice; C132_doubled is a witness."
  },
  {
   "property": "C133",
   "status": "proved",
   "theorems": [
    "Cru.Launch.C133_usual",
    "Cru.Launch.C133_untouched",
    "Cru.Launch.C133_returns",
    "Cru.Launch.C133_ended",
    "Cru.Launch.C133_hangs"
   ],
   "note": "The defect is C133_hangs."
  },
  {
   "property": "C134",
   "status": "proved",
   "theorems": [
    "Cru.Crew.C134_internal",
    "Cru.Crew.C134_exclusive",
    "Cru.Crew.C134_closed",
    "Cru.Crew.C134_entry",
    "Cru.Crew.C134_ample"
   ],
   "note": ""
  },
  {
   "property": "C135",
   "status": "proved",
   "theorems": [
    "Cru.Startup.C135_all_or_nothing",
    "Cru.Startup.C135_torn_down",
    "Cru.Startup.C135_once",
    "Cru.Startup.C135_succeeds"
   ],
   "note": ""
  },
  {
   "property": "C136",
   "status": "proved",
   "theorems": [
    "Cru.Sweep.C136_once",
    "Cru.Sweep.C136_order",
    "Cru.Sweep.C136_returns",
    "Cru.Sweep.C136_swept",
    "Cru.Sweep.C136_ping"
   ],
   "note": ""
  },
  {
   "property": "C137",
   "status": "proved",
   "theorems": [
    "Cru.Pad.C137_distinct"
   ],
   "note": ""
  },
  {
   "property": "C138",
   "status": "proved",
   "theorems": [
    "Cru.BuildAcc.C138_account",
    "Cru.BuildAcc.C138_end",
    "Cru.BuildAcc.C138_status",
    "Cru.BuildAcc.C138_unstarted"
   ],
   "note": "user functions are arbitrary functions of time; the destinations of edges are left out"
  },
  {
   "property": "C139",
   "status": "proved",
   "theorems": [
    "Cru.BuildAcc.C139_account",
    "Cru.BuildAcc.C139_end",
    "Cru.BuildAcc.C139_unstarted",
    "Cru.BuildAcc.C139_kept",
    "Cru.BuildAcc.C139_leak",
    "Cru.BuildAcc.C139_lost"
   ],
   "note": "termini of a failing subconnector applied to a vertex without outgoing edges are leaked, as stated; prespreading is C106's"
  },
  {
   "property": "C140",
   "status": "proved",
   "theorems": [
    "Cru.Stretch.C140_account",
    "Cru.Stretch.C140_once",
    "Cru.Stretch.C140_pass",
    "Cru.Stretch.C140_every",
    "Cru.Stretch.C140_leak",
    "Cru.Stretch.C140_killed",
    "Cru.Stretch.C140_killable"
   ],
   "note": "Conservation of vertices and labels over all passes, no double free within a pass, and the two leaks (defects) as theorems for every graph that meets the conditions. Errors of user functions and allocation failures are left out."
  },
  {
   "property": "C141",
   "status": "proved",
   "theorems": [
    "Cru.Resource.C141_made",
    "Cru.Resource.C141_refused",
    "Cru.Resource.C141_verdict",
    "Cru.Resource.C141_workers",
    "Cru.Resource.C141_freed",
    "Cru.Resource.C141_shared",
    "Cru.Resource.C141_balanced",
    "Cru.Resource.C141_reported",
    "Cru.Resource.C141_switch",
    "Cru.Resource.C141_switched"
   ],
   "note": "failures to destroy a mutex or condition are left out; what the workers do is given by the outcome of each stage"
  },
  {
   "property": "C142",
   "status": "proved",
   "theorems": [
    "Cru.Resource.C142_made",
    "Cru.Resource.C142_freed",
    "Cru.Resource.C142_lock",
    "Cru.Resource.C142_refused",
    "Cru.Resource.C142_classifying"
   ],
   "note": "the lock left behind is stated as a defect"
  },
  {
   "property": "C143",
   "status": "proved",
   "theorems": [
    "Cru.BuildAcc.C143_built",
    "Cru.BuildAcc.C143_spread",
    "Cru.SpawnAcc.C143_fabricated",
    "Cru.SpawnAcc.C143_crossed",
    "Cru.SplitAcc.C143_split",
    "Cru.PostponeAcc.C143_postponed",
    "Cru.MutateAcc.C143_mutated",
    "Cru.ComposeAcc.C143_composed",
    "Cru.MergeAcc.C143_merged"
   ],
   "note": "In each: if anything has failed when the operation is over (the ghost field `upset` of the history), no graph is returned and the error is non-zero. Merging: from the end of the traversal that classifies vertices on."
  },
  {
   "property": "C144",
   "status": "proved",
   "theorems": [
    "Cru.Pool.C144_live",
    "Cru.Pool.C144_ends",
    "Cru.Pool.C144_polite",
    "Cru.Pool.C144_mutation",
    "Cru.Pool.C144_atomic",
    "Cru.Pool.C144_guarded",
    "Cru.Pool.C144_doomed",
    "Cru.Pool.C144_nested",
    "Cru.Pool.C144_deadlock"
   ],
   "note": "Threads at the level of single memory accesses and lock operations, with any programs. C144_live, C144_ends: no deadlock and termination if nobody waits while having a lock; C144_atomic: no data race at a place accessed only with its lock; C144_polite, C144_guarded, C144_mutation: the library's operations and the workers of cru_mutated are like that. C144_doomed, C144_nested, C144_deadlock: the defect in nested calls."
  },
  {
   "property": "C145",
   "status": "proved",
   "theorems": [
    "Cru.Pool.C145_race_free",
    "Cru.Pool.C145_marked",
    "Cru.Pool.C145_unmarked",
    "Cru.Pool.C145_determined",
    "Cru.Pool.C145_exception",
    "Cru.Pool.C145_race",
    "Cru.Pool.C145_differs"
   ],
   "note": "Workers at the level of single memory accesses, with pure operators. The exception is stated as a defect (C145_race, C145_differs), and C145_exception says that there's no other. That all nodes are mutated in the end is C20 and C144_ends; arrivals are given as lists here."
  },
  {
   "property": "C146",
   "status": "proved",
   "theorems": [
    "Cru.Links.C146_pushed",
    "Cru.Links.C146_refused",
    "Cru.Links.C146_severed",
    "Cru.Links.C146_unlisted",
    "Cru.Links.C146_catenated",
    "Cru.Links.C146_joined",
    "Cru.Links.C146_cyclic",
    "Cru.Links.C146_edge_pushed",
    "Cru.Links.C146_edge_popped",
    "Cru.Links.C146_enqueued",
    "Cru.Links.C146_taken"
   ],
   "note": "Pointer level model of linked lists."
  },
  {
   "property": "C147",
   "status": "proved",
   "theorems": [
    "Cru.Mail.C147_refines",
    "Cru.Mail.C147_ended",
    "Cru.Mail.C147_race_free",
    "Cru.Mail.C147_ends",
    "Cru.Mail.C147_fetch"
   ],
   "note": "C147_fetch is about code that isn't enabled by default."
  },
  {
   "property": "C148",
   "status": "proved",
   "theorems": [
    "Cru.PoolInduce.C148_race_free",
    "Cru.PoolInduce.C148_visited",
    "Cru.PoolInduce.C148_result",
    "Cru.PoolInduce.C148_determined",
    "Cru.PoolInduce.C148_ends"
   ],
   "note": "That there is a result if nothing goes wrong is C19."
  },
  {
   "property": "C149",
   "status": "proved",
   "theorems": [
    "Cru.PoolClasses.C149_race_free",
    "Cru.PoolClasses.C149_linear",
    "Cru.PoolClasses.C149_final",
    "Cru.PoolClasses.C149_unions",
    "Cru.PoolClasses.C149_ends"
   ],
   "note": "The vertex maps, which are not modified meanwhile, are left out."
  },
  {
   "property": "C150",
   "status": "proved",
   "theorems": [
    "Cru.Infer.C150_present",
    "Cru.Infer.C150_created",
    "Cru.Infer.C150_scalars",
    "Cru.Infer.C150_search",
    "Cru.Infer.C150_spread",
    "Cru.Infer.C150_lost",
    "Cru.Infer.C150_fabricated",
    "Cru.Infer.C150_merge",
    "Cru.Infer.C150_merge_order",
    "Cru.Infer.C150_merge_default",
    "Cru.Infer.C150_search_default",
    "Cru.Infer.C150_mutation_default",
    "Cru.Infer.C150_merge_crossed"
   ],
   "note": "The signatures of graphs after any history of accepted operations, and the functions found in them by each operation; the calls of a task are listed by the fields they are found in, not by execution."
  },
  {
   "property": "C151",
   "status": "proved",
   "theorems": [
    "Cru.Infer.C151_explained",
    "Cru.Infer.C151_bmap",
    "Cru.Infer.C151_created",
    "Cru.Infer.C151_fabricated",
    "Cru.Infer.C151_texts"
   ],
   "note": "Errors in the user's functions and of memory are left out."
  },
  {
   "property": "C152",
   "status": "proved",
   "theorems": [
    "Cru.Abort.C152_no_deadlock",
    "Cru.Abort.C152_terminates",
    "Cru.Abort.C152_built_account",
    "Cru.Abort.C152_built_end",
    "Cru.Abort.C152_spread_end",
    "Cru.Abort.C152_read_first",
    "Cru.Abort.C152_removed_first"
   ],
   "note": "C152_removed_first is the defect. Workers that fail are given beforehand."
  },
  {
   "property": "C153",
   "status": "proved",
   "theorems": [
    "Cru.Infer.C153_present",
    "Cru.Infer.C153_mutated",
    "Cru.Infer.C153_created",
    "Cru.Infer.C153_fabricated",
    "Cru.Infer.C153_errors",
    "Cru.Infer.C153_vacuous",
    "Cru.Infer.C153_classless",
    "Cru.Infer.C153_mapless"
   ],
   "note": "Functions of orders are in C150. Destructors are left out."
  },
  {
   "property": "C154",
   "status": "proved",
   "theorems": [
    "Cru.Infer.C154_inferred",
    "Cru.Merge.C154_classes",
    "Cru.Merge.C154_error",
    "Cru.Merge.C154_returned",
    "Cru.Merge.C154_quotient",
    "Cru.Merge.C154_ends"
   ],
   "note": "C154_error is the defect. Errors of memory are left out."
  },
  {
   "property": "C155",
   "status": "proved",
   "theorems": [
    "Cru.Repl.C155_edges",
    "Cru.Repl.C155_mapreduced",
    "Cru.Repl.C155_nothing",
    "Cru.Repl.C155_filtered",
    "Cru.Repl.C155_deleted",
    "Cru.Repl.C155_undefined"
   ],
   "note": "The user's functions raise no errors, and storage isn't considered, as defaults are for scalars."
  },
  {
   "property": "C156",
   "status": "proved",
   "theorems": [
    "Cru.Partition.C156_partition",
    "Cru.Partition.C156_left",
    "Cru.Partition.C156_ends",
    "Cru.Partition.C156_stale"
   ],
   "note": "The property and the predicate raise no errors in C156_partition, whereas C156_left allows for any. The kill in C156_stale comes while incoming edges are derived."
  },
  {
   "property": "C157",
   "status": "proved",
   "theorems": [
    "Cru.Merge.C157_quotient",
    "Cru.Merge.C157_ends"
   ],
   "note": "Executions with errors or kills are left out."
  },
  {
   "property": "C158",
   "status": "proved",
   "theorems": [
    "Cru.Compose.C158_closure",
    "Cru.Compose.C158_transitive",
    "Cru.Compose.C158_ends",
    "Cru.Compose.C158_duplicates"
   ],
   "note": "The given graph is half duplex, and kills and errors are left out."
  },
  {
   "property": "C159",
   "status": "proved",
   "theorems": [
    "Cru.Cross.C159_words",
    "Cru.Cross.C159_intersection",
    "Cru.Cross.C159_default",
    "Cru.Fab.C159_copy"
   ],
   "note": "for functions that raise no errors and depend only on their operands"
  },
  {
   "property": "C160",
   "status": "proved",
   "theorems": [
    "Cru.Postpone.C160_default",
    "Cru.Postpone.C160_path",
    "Cru.Postpone.C160_fixed"
   ],
   "note": "for a predicate that raises no errors and depends only on its operands"
  },
  {
   "property": "C161",
   "status": "proved",
   "theorems": [
    "Cru.Repl.C161_minimum",
    "Cru.Repl.C161_class",
    "Cru.Repl.C161_walk",
    "Cru.Repl.C161_returns",
    "Cru.Repl.C161_class_returns"
   ],
   "note": "for graphs of scalars and functions that raise no errors and depend only on their operands"
  },
  {
   "property": "C162",
   "status": "proved",
   "theorems": [
    "Cru.Count.C162_copied",
    "Cru.Count.C162_crossed",
    "Cru.Count.C162_filtered",
    "Cru.Count.C162_mutated",
    "Cru.Count.C162_merged"
   ],
   "note": "The user's functions raise no errors and aren't killed; filters are without thinners and mergers without pruners."
  },
  {
   "property": "C163",
   "status": "proved",
   "theorems": [
    "Cru.Merge.C163_preserved",
    "Cru.Merge.C163_exact",
    "Cru.Filter.C163_filtered",
    "Cru.Filter.C163_labels"
   ],
   "note": "For functions that raise no errors, and operations that aren't killed."
  },
  {
   "property": "C164",
   "status": "proved",
   "theorems": [
    "Cru.Repl.C164_vertices",
    "Cru.Repl.C164_edges",
    "Cru.Repl.C164_labels",
    "Cru.Repl.C164_classes",
    "Cru.Repl.C164_inconsistent"
   ],
   "note": "Filters with a map of vertices only, a ternary or binary map of edges only, a map of edges with an ordering, and an ordering only. The user's functions raise no errors; no zone."
  },
  {
   "property": "C165",
   "status": "proved",
   "theorems": [
    "Cru.Repl.C165_copies",
    "Cru.Repl.C165_words",
    "Cru.Repl.C165_returns",
    "Cru.Repl.C165_undefined",
    "Cru.Repl.C165_given",
    "Cru.Repl.C165_vertices"
   ],
   "note": "The functions given raise no errors; the operation is not killed; allocation failures are in C121 and C143."
  },
  {
   "property": "C166",
   "status": "proved",
   "theorems": [
    "Cru.Fab.C166_copy",
    "Cru.Fab.C166_shared",
    "Cru.Fab.C166_undefined"
   ],
   "note": "The user's functions raise no errors, and return vertices and labels of the types given; allocation failures are in C119 and C143."
  },
  {
   "property": "C167",
   "status": "proved",
   "theorems": [
    "Cru.Mutate.C167_words",
    "Cru.Mutate.C167_same",
    "Cru.Mutate.C167_vertices"
   ],
   "note": "A graph is returned, so user functions raise no errors; kills while finding out where to start are in C87, and zones in C126."
  },
  {
   "property": "C168",
   "status": "proved",
   "theorems": [
    "Cru.Stretch.C168_paths",
    "Cru.Stretch.C168_subdivided"
   ],
   "note": "A graph is returned, so user functions raise no errors. Execution isn't killed unless there is one lane (C102). More than one pass (st_fix) is in C36."
  },
  {
   "property": "C169",
   "status": "proved",
   "theorems": [
    "Cru.Dedup.C169_preserved",
    "Cru.Dedup.C169_sound",
    "Cru.Dedup.C169_same"
   ],
   "note": "A graph is returned and there's no kill; killed executions are in C97. Graphs that aren't regular are in C30 and C96."
  },
  {
   "property": "C170",
   "status": "proved",
   "theorems": [
    "Cru.Build.C170_complete",
    "Cru.Build.C170_sound",
    "Cru.Build.C170_subconnector",
    "Cru.Build.C170_more"
   ],
   "note": "A graph is returned, so there are no errors or kills."
  },
  {
   "property": "C171",
   "status": "proved",
   "theorems": [
    "Cru.Build.C171_built",
    "Cru.Build.C171_intersection"
   ],
   "note": "Both graphs are built with the same number of lanes, and the product is made with any; graphs are returned, so there are no errors or kills."
  },
  {
   "property": "C172",
   "status": "proved",
   "theorems": [
    "Cru.Spread.C172_kept",
    "Cru.Spread.C172_extended",
    "Cru.Spread.C172_sound",
    "Cru.Spread.C172_complete"
   ],
   "note": "Connectors only; subconnectors behave otherwise (C105), and kills before the connector is called are in C106."
  },
  {
   "property": "C173",
   "status": "proved",
   "theorems": [
    "Cru.Compose.C173_kept",
    "Cru.Compose.C173_sound",
    "Cru.Compose.C173_single",
    "Cru.Compose.C173_halved"
   ],
   "note": "Destructive composition deletes edges (C35); kills are in C67 and C69."
  },
  {
   "property": "C174",
   "status": "proved",
   "theorems": [
    "Cru.Split.C174_sound",
    "Cru.Split.C174_kept",
    "Cru.Split.C174_ana"
   ],
   "note": "The functions given raise no errors; kills are in C75, C76 and C77."
  },
  {
   "property": "C175",
   "status": "proved",
   "theorems": [
    "Cru.Lanes.C175_threads",
    "Cru.Lanes.C175_unknown",
    "Cru.Lanes.C175_failed",
    "Cru.Lanes.C175_exact",
    "Cru.Lanes.C175_excess",
    "Cru.Lanes.C175_small",
    "Cru.Lanes.C175_wrapped"
   ],
   "note": "The number of processors is taken to be constant during a call."
  }
 ]
}