{
 "claims": [
  {
   "property": "C01",
   "status": "proved",
   "theorems": [
    "Verif.Scheduler.c01_permits_bounded_and_exclusive",
    "Verif.Scheduler.c01_no_assertion_fires",
    "Verif.Scheduler.c01_release"
   ],
   "note": "All reachable states of the scheduler state machine, any limit."
  },
  {
   "property": "C02",
   "status": "proved",
   "theorems": [
    "Verif.Scheduler.c02_permits_come_from_the_queue",
    "Verif.Scheduler.c02_effective_priority",
    "Verif.Scheduler.c02_prioritize",
    "Verif.Scheduler.c02_grant_order",
    "Verif.Scheduler.c02_tickets_in_arrival_order"
   ],
   "note": "Grant order stated against the history of grants, not the scheduler's own counter."
  },
  {
   "property": "C03",
   "status": "proved",
   "theorems": [
    "Verif.Scheduler.c03_no_lost_wakeup",
    "Verif.Scheduler.c03_progress",
    "Verif.Scheduler.c03_queue_matches_tasks",
    "Verif.Scheduler.c03_cancelled_or_dropped_leaves"
   ],
   "note": "Safety of the wakeup protocol plus progress: a blocked sleeping task always has a pending notification or is not grantable."
  },
  {
   "property": "C04",
   "status": "proved",
   "theorems": [
    "Verif.Governor.c04_accounting",
    "Verif.Governor.c04_never_overcommitted",
    "Verif.Governor.c04_peaks_monotone",
    "Verif.Governor.c04_no_assertion_fires",
    "Verif.Governor.c04_release_gives_back"
   ],
   "note": "All reachable states of the governor, any policy."
  },
  {
   "property": "C05",
   "status": "partial",
   "theorems": [
    "Verif.Governor.c05_no_two_bypasses_in_a_row_partial",
    "Verif.Governor.c05_unbounded_bypass",
    "Verif.Governor.c05_navigation_blocks_other_projects",
    "Verif.Governor.c05_navigation_marking",
    "Verif.Governor.c05_navigation_pending_until_completed"
   ],
   "note": "The bypass bound as stated is false of the code: c05_unbounded_bypass builds, for every n, an execution with n bypasses of one background request. What holds is c05_no_two_bypasses_in_a_row_partial; the navigation half is proved in full."
  },
  {
   "property": "C06",
   "status": "partial",
   "theorems": [
    "Verif.Governor.c06_not_work_conserving",
    "Verif.Governor.c06_never_idle_partial",
    "Verif.Governor.c06_release_wakes_everyone_partial"
   ],
   "note": "Work conservation as stated is false: c06_not_work_conserving is the witness. The release-wakes-everyone and never-idle parts hold."
  },
  {
   "property": "C07",
   "status": "proved",
   "theorems": [
    "Verif.SingleFlight.c07_one_producer",
    "Verif.SingleFlight.c07_result",
    "Verif.SingleFlight.c07_joined",
    "Verif.SingleFlight.c07_completed_once",
    "Verif.SingleFlight.c07_never_panics",
    "Verif.SingleFlight.c07_no_lost_wakeup",
    "Verif.SingleFlight.c07_no_deadlock",
    "Verif.SingleFlight.c07_work_decreases",
    "Verif.SingleFlight.c07_terminates"
   ],
   "note": "All interleavings of the three caches; result sharing, single completion, no lost wake-up, deadlock freedom and termination."
  },
  {
   "property": "C08",
   "status": "proved",
   "theorems": [
    "Verif.SingleFlight.c08_within_limits",
    "Verif.SingleFlight.c08_ephemeral",
    "Verif.SingleFlight.c08_removed"
   ],
   "note": "Order of creation is relative to the entries completed when an eviction iteration begins (cells may complete while it scans)."
  },
  {
   "property": "C09",
   "status": "proved",
   "theorems": [
    "Verif.SingleFlight.c09_failure_not_served",
    "Verif.SingleFlight.c09_fresh_producer",
    "Verif.SingleFlight.c09_counters"
   ],
   "note": "producers = misses once every created computation has started; the equation in the theorem counts those not yet started."
  },
  {
   "property": "C10",
   "status": "proved",
   "theorems": [
    "Verif.NavDemand.c10_bounded",
    "Verif.NavDemand.c10_disjoint",
    "Verif.NavDemand.c10_handed_once",
    "Verif.NavDemand.c10_handed_requested",
    "Verif.NavDemand.c10_drain",
    "Verif.NavDemand.c10_never_panics",
    "Verif.NavDemand.c10_complete_keys_iff",
    "Verif.NavDemand.c10_complete_keys",
    "Verif.NavDemand.c10_saturated_only_full",
    "Verif.NavDemand.c10_example_panic"
   ],
   "note": "Controller of navigation_demand.rs as a state machine; any number of callers, requests and generations. Key normalization check modelled separately (C41)."
  },
  {
   "property": "C11",
   "status": "proved",
   "theorems": [
    "Verif.NavDemand.c11_not_lost",
    "Verif.NavDemand.c11_outcome_stays",
    "Verif.NavDemand.c11_final",
    "Verif.NavDemand.c11_truthful",
    "Verif.NavDemand.c11_no_lost_wakeup",
    "Verif.NavDemand.c11_stale_ignored",
    "Verif.NavDemand.c11_can_return",
    "Verif.NavDemand.c11_example"
   ],
   "note": "Tickets with the watch channel (revision, seen value) and the notification sent after the lock is released; liveness as no lost wake-up plus a path to the answer by the pending notification and the ticket's own steps."
  },
  {
   "property": "C12",
   "status": "proved",
   "theorems": [
    "Verif.Status.c12_sequence",
    "Verif.Status.c12_accepted",
    "Verif.Status.c12_forward",
    "Verif.Status.c12_generation",
    "Verif.Status.c12_stale_ignored",
    "Verif.Status.c12_wellformed",
    "Verif.Status.c12_progress",
    "Verif.Status.c12_panics_iff",
    "Verif.Status.c12_example",
    "Verif.Status.c12_progress_can_go_back",
    "Verif.Status.c12_failed_without_reason"
   ],
   "note": "All methods of ProjectIndexingStatus; also two counterexamples to what the code's messages promise (progress can go back through a call without counters; transition to Failed leaves no reason)."
  },
  {
   "property": "C13",
   "status": "proved",
   "theorems": [
    "Verif.Status.c13_older_cancelled",
    "Verif.Status.c13_current_run",
    "Verif.Status.c13_cancel_named",
    "Verif.Status.c13_cancel_current",
    "Verif.Status.c13_begin",
    "Verif.Status.c13_cancelled_stays"
   ],
   "note": "Tokens of all runs as a list; anybody may cancel a token at any time."
  },
  {
   "property": "C14",
   "status": "proved",
   "theorems": [
    "Verif.SymbolStore.c14_index_reflects_latest",
    "Verif.SymbolStore.c14_other_files_unchanged",
    "Verif.SymbolStore.c14_independent_of_file_order",
    "Verif.SymbolStore.c14_foreign_fact_panics",
    "Verif.SymbolStore.c14_example"
   ],
   "note": "All histories of add, replace and remove; arena ids are unbounded (u32 overflow not modelled)."
  },
  {
   "property": "C15",
   "status": "proved",
   "theorems": [
    "Verif.MethodStore.c15_index_reflects_latest",
    "Verif.MethodStore.c15_effective_method",
    "Verif.MethodStore.c15_method_names",
    "Verif.MethodStore.c15_example"
   ],
   "note": "All histories and all iteration orders of the internal hash sets; arena ids are unbounded."
  },
  {
   "property": "C16",
   "status": "proved",
   "theorems": [
    "Verif.GraphStore.c16_resolution_spec",
    "Verif.GraphStore.c16_independent_of_history",
    "Verif.GraphStore.c16_example"
   ],
   "note": "Against a specification over the set of edges only; independence of history follows from uniqueness of the specified answer."
  },
  {
   "property": "C17",
   "status": "proved",
   "theorems": [
    "Verif.GraphStore.c17_graph_reflects_latest",
    "Verif.GraphStore.c17_foreign_edge_panics",
    "Verif.GraphStore.c17_example"
   ],
   "note": "All histories of add, replace, remove and retry; arena ids are unbounded."
  },
  {
   "property": "C18",
   "status": "proved",
   "theorems": [
    "Verif.ReferenceStore.c18_references_reflect_latest",
    "Verif.ReferenceStore.c18_other_files_unchanged",
    "Verif.ReferenceStore.c18_foreign_fact_panics",
    "Verif.ReferenceStore.c18_unsorted_repeats",
    "Verif.ReferenceStore.c18_example",
    "Verif.ReferenceStore.c18_candidates_reflect_latest"
   ],
   "note": "All histories; the once-only and ordering parts hold unless references were added since the last sort (c18_unsorted_repeats shows that this is needed)."
  },
  {
   "property": "C19",
   "status": "proved",
   "theorems": [
    "Verif.SymbolStore.c19_place_eq_full_sort",
    "Verif.SymbolStore.c19_place_ordered",
    "Verif.SymbolStore.c19_stale_file_panics",
    "Verif.SymbolStore.c19_example"
   ],
   "note": "For every previously ordered index; a stale file is refused by a panic."
  },
  {
   "property": "C20",
   "status": "proved",
   "theorems": [
    "Verif.TypeStore.c20_type_at_spec",
    "Verif.TypeStore.c20_ambiguous_distinct",
    "Verif.TypeStore.c20_facts_reflect_latest",
    "Verif.TypeStore.c20_named_type_before_spec",
    "Verif.TypeStore.c20_independent_of_history",
    "Verif.TypeStore.c20_foreign_expression_panics",
    "Verif.TypeStore.c20_example",
    "Verif.TypeStore.c20_same_text_repeats"
   ],
   "note": "All histories including in-place retyping; agreement is on type and provenance, as in the code. Interning is modelled as the identity."
  },
  {
   "property": "C21",
   "status": "proved",
   "theorems": [
    "Verif.Types.c21_union_depends_on_alternatives",
    "Verif.Types.c21_union_order",
    "Verif.Types.c21_union_grouping",
    "Verif.Types.c21_unknown_iff",
    "Verif.Types.c21_alternatives",
    "Verif.Types.c21_two_levels_nest",
    "Verif.Types.c21_join_own_member",
    "Verif.Types.c21_union_with_semilattice",
    "Verif.Types.c21_union_with_raw",
    "Verif.Types.c21_optional",
    "Verif.Types.c21_union_from_proven",
    "Verif.Types.c21_canonical_members",
    "Verif.Types.c21_subtract",
    "Verif.Types.c21_example"
   ],
   "note": "For all finite lists of types. Grouping is one level, as in the code: c21_two_levels_nest shows that a union of unions of unions nests; c21_union_with_raw that equal non-canonical types are returned as they are."
  },
  {
   "property": "C22",
   "status": "partial",
   "theorems": [
    "Verif.Types.c22_literal_free",
    "Verif.Types.c22_idempotent",
    "Verif.Types.c22_canonical",
    "Verif.Types.c22_widening_total_partial",
    "Verif.Types.c22_empty_argument_panics",
    "Verif.Types.c22_example"
   ],
   "note": "Literal-free, canonical and idempotent whenever widening returns. It always returns for types without shapes, and for built shapes whose field types have no empty argument list and at most eight shapes per list of alternatives (c22_widening_total_partial). False in general: c22_empty_argument_panics is a shape the constructor accepts and widening panics on."
  },
  {
   "property": "C23",
   "status": "proved",
   "theorems": [
    "Verif.Types.c23_try_new",
    "Verif.Types.c23_well_formed",
    "Verif.Types.c23_depth_exact",
    "Verif.Types.c23_field_lookup",
    "Verif.Types.c23_example"
   ],
   "note": "Success of the constructor is characterised exactly; lookup is the standard library's binary search."
  },
  {
   "property": "C24",
   "status": "proved",
   "theorems": [
    "Verif.Owners.c24_valid_components",
    "Verif.Owners.c24_unambiguous",
    "Verif.Owners.c24_decode_encode",
    "Verif.Owners.c24_only_canonical",
    "Verif.Owners.c24_no_collision",
    "Verif.Owners.c24_display_injective",
    "Verif.Owners.c24_qualified_round_trip",
    "Verif.Owners.c24_example"
   ],
   "note": "Unicode classification and trimming are parameters; the theorems assume only that they reject the separators used in the encoding. usize is 64 bits."
  },
  {
   "property": "C25",
   "status": "proved",
   "theorems": [
    "Verif.Envelope.c25_accepted_iff",
    "Verif.Envelope.c25_round_trip",
    "Verif.Envelope.c25_publishable",
    "Verif.Envelope.c25_prefix_free",
    "Verif.Envelope.c25_torn_rejected",
    "Verif.Envelope.c25_header_determined",
    "Verif.Envelope.c25_kinds_apart",
    "Verif.Envelope.c25_example"
   ],
   "note": "SHA-256 and zstd are parameters, assumed to give 32-byte digests and to be lossless on what the encoder wrote; usize is 64 bits. Acceptance is characterised exactly, including every torn or extended file."
  },
  {
   "property": "C26",
   "status": "proved",
   "theorems": [
    "Verif.Envelope.c26_accepted_iff",
    "Verif.Envelope.c26_round_trip",
    "Verif.Envelope.c26_bound_to_key",
    "Verif.Envelope.c26_prefix_free",
    "Verif.Envelope.c26_key_identity",
    "Verif.Envelope.c26_example"
   ],
   "note": "Key binding is exact on the 92-byte header; the only appeal to the digest is its length."
  },
  {
   "property": "C27",
   "status": "proved",
   "theorems": [
    "Verif.CacheFs.c27_product_complete",
    "Verif.CacheFs.c27_lookup",
    "Verif.CacheFs.c27_only_published",
    "Verif.CacheFs.c27_before_or_after",
    "Verif.CacheFs.c27_temp_not_served",
    "Verif.CacheFs.c27_durable",
    "Verif.CacheFs.c27_example"
   ],
   "note": "Any number of processes and threads, no locks assumed, process crash and power loss at every step with arbitrary subsets of pending directory changes. Trusted: POSIX rename/unlink/fsync semantics as modelled. Not modelled: durability of a newly created shard directory itself, and Windows, where the directory sync is a no-op; both can only lose a product, not expose a partial one."
  },
  {
   "property": "C28",
   "status": "proved",
   "theorems": [
    "Verif.Dependency.c28_unambiguous",
    "Verif.Dependency.c28_key_unambiguous",
    "Verif.Dependency.c28_accepted_iff",
    "Verif.Dependency.c28_order_independent",
    "Verif.Dependency.c28_identity",
    "Verif.Dependency.c28_path_inside",
    "Verif.Dependency.c28_not_normalized",
    "Verif.Dependency.c28_example"
   ],
   "note": "SHA-256 is a parameter with 32-byte digests; collision freedom is an explicit hypothesis of c28_identity. Package name, version and physical path are not part of the hashed identity in the code. c28_not_normalized shows that the logical path check accepts a//b and a/./b."
  },
  {
   "property": "C29",
   "status": "proved",
   "theorems": [
    "Verif.Positions.c29_round_trip",
    "Verif.Positions.c29_position_to_offset",
    "Verif.Positions.c29_engine_agrees"
   ],
   "note": "Both directions, the document's and the engine's copies."
  },
  {
   "property": "C30",
   "status": "partial",
   "theorems": [
    "Verif.Positions.c30_false_at_unterminated_end",
    "Verif.Positions.c30_line_partial"
   ],
   "note": "False at the end of a text without trailing newline: c30_false_at_unterminated_end gives the reported line for every such text. Everywhere else it holds (c30_line_partial)."
  },
  {
   "property": "C31",
   "status": "proved",
   "theorems": [
    "Verif.Erb.c31_never_panics",
    "Verif.Erb.c31_ranges",
    "Verif.Erb.c31_ordered",
    "Verif.Erb.c31_offsets_kept",
    "Verif.Erb.c31_ruby_verbatim",
    "Verif.Erb.c31_outside_blank",
    "Verif.Erb.c31_separated"
   ],
   "note": "All templates; a relational grammar of ERB tags is the specification."
  },
  {
   "property": "C32",
   "status": "proved",
   "theorems": [
    "Verif.Solver.c32_total",
    "Verif.Solver.c32_proven",
    "Verif.Solver.c32_least",
    "Verif.Solver.c32_unknown",
    "Verif.Solver.c32_obstacle",
    "Verif.Solver.c32_order",
    "Verif.Solver.c32_example",
    "Verif.Solver.c32_ring",
    "Verif.Solver.c32_unknown_member_panics"
   ],
   "note": "For every finite system of equations whose proven bases have no unknown member: exactly the methods with an equation get an outcome; a proven type is the union of the proven bases and of the outcomes of all dependencies, all of them proven; with canonical bases it is the least solution, an unknown outcome has a cause (missing equation, unknown base, no base in reach, too many shapes, or a cycle of at least eight methods), and types do not depend on the order of the equations. c32_ring shows that a cycle of eight methods is given up although it has a solution; c32_unknown_member_panics shows the panic outside the precondition. The reasons of unknown outcomes are not specified."
  },
  {
   "property": "C33",
   "status": "proved",
   "theorems": [
    "Verif.Mro.c33_walk",
    "Verif.Mro.c33_walk_continues",
    "Verif.Mro.c33_prepends_first",
    "Verif.Mro.c33_order",
    "Verif.Mro.c33_later_include_first",
    "Verif.Mro.c33_later_prepend_first",
    "Verif.Mro.c33_chain",
    "Verif.Mro.c33_doubt",
    "Verif.Mro.c33_example"
   ],
   "note": "Method lookup chains: every chain is the list of namespaces reachable by the links that are followed, in Ruby's order (prepends first, later includes first, then the class, then the superclass), never loops, and is flagged in doubt exactly when an unresolved or conflicting link can matter. Relative to the links in the graph store."
  },
  {
   "property": "C34",
   "status": "proved",
   "theorems": [
    "Verif.Constants.c34_innermost",
    "Verif.Constants.c34_none_iff",
    "Verif.Constants.c34_sound",
    "Verif.Constants.c34_absolute"
   ],
   "note": "Lookup through every lexical scope; ancestors are an arbitrary function."
  },
  {
   "property": "C35",
   "status": "partial",
   "theorems": [
    "Verif.EngineGraph.c35_runs",
    "Verif.EngineGraph.c35_links_partial",
    "Verif.EngineGraph.c35_one_resolution_partial",
    "Verif.EngineGraph.c35_same_links_partial",
    "Verif.EngineGraph.c35_idempotent",
    "Verif.EngineGraph.c35_example",
    "Verif.EngineGraph.c35_nearer_definition",
    "Verif.EngineGraph.c35_removed_definition"
   ],
   "note": "False in general: a resolved link is never reconsidered (c35_nearer_definition, c35_removed_definition). Proved: no history panics; the links are exactly those the current facts stand for whenever intermediate resolutions agree with the final facts, in particular with one resolution at the end; two such histories with the same facts agree; resolving twice changes nothing."
  },
  {
   "property": "C36",
   "status": "proved",
   "theorems": [
    "Verif.Sources.c36_commit_iff_unchanged",
    "Verif.Sources.c36_conditional_registration",
    "Verif.Sources.c36_registration_if_absent",
    "Verif.Sources.c36_registration_is_current",
    "Verif.Sources.c36_same_record_same_content",
    "Verif.Sources.c36_ids_stable_and_distinct",
    "Verif.Sources.c36_clone_rejects_snapshots"
   ],
   "note": "All executions of the store. Content identity is up to what the code compares: hash, length and line index."
  },
  {
   "property": "C37",
   "status": "proved",
   "theorems": [
    "Verif.Jvm.c37_field",
    "Verif.Jvm.c37_method",
    "Verif.Jvm.c37_no_panic",
    "Verif.Jvm.c37_names_valid",
    "Verif.Jvm.c37_print_injective"
   ],
   "note": "For all byte strings against a grammar given as a printer; recursion depth of the parser is not modelled."
  },
  {
   "property": "C38",
   "status": "partial",
   "theorems": [
    "Verif.Implementors.c38_sound",
    "Verif.Implementors.c38_exact_partial",
    "Verif.Implementors.c38_descendants",
    "Verif.Implementors.c38_module_includers",
    "Verif.Implementors.c38_mixed_in_class_missed",
    "Verif.Implementors.c38_example",
    "Verif.Implementors.c38_includers_example"
   ],
   "note": "Every reported implementor really is one; the search is exact when nothing that is mixed in has a superclass link. Otherwise descendants of a mixed-in class are missed (c38_mixed_in_class_missed)."
  },
  {
   "property": "C39",
   "status": "proved",
   "theorems": [
    "Verif.Selection.c39_one_chain_per_cursor",
    "Verif.Selection.c39_strictly_expanding",
    "Verif.Selection.c39_covers_cursor",
    "Verif.Selection.c39_no_level_skipped"
   ],
   "note": "For all range lists and cursors."
  },
  {
   "property": "C40",
   "status": "partial",
   "theorems": [
    "Verif.VarScopes.c40_lookup",
    "Verif.VarScopes.c40_unique",
    "Verif.VarScopes.c40_places",
    "Verif.VarScopes.c40_assignment_kept",
    "Verif.VarScopes.c40_visible",
    "Verif.VarScopes.c40_reported",
    "Verif.VarScopes.c40_boundary",
    "Verif.VarScopes.c40_type_added",
    "Verif.VarScopes.c40_owner",
    "Verif.VarScopes.c40_references_partial",
    "Verif.VarScopes.c40_type",
    "Verif.VarScopes.c40_scope_at",
    "Verif.VarScopes.c40_innermost",
    "Verif.VarScopes.c40_example",
    "Verif.VarScopes.c40_shadowed_outer_reported",
    "Verif.VarScopes.c40_block_assignment_missed"
   ],
   "note": "Lookup, visibility, owner and type parts are proved for all scope trees; the reference set is proved only without shadowing and block assignments (c40_references_partial), and false otherwise (c40_shadowed_outer_reported, c40_block_assignment_missed)."
  },
  {
   "property": "C41",
   "status": "proved",
   "theorems": [
    "Verif.NavKey.c41_accepted_iff",
    "Verif.NavKey.c41_dotted_i_panics",
    "Verif.NavKey.c41_empty_key_rejected",
    "Verif.NavKey.c41_separators_ignored"
   ],
   "note": "Unicode tables are parameters; the facts about U+0130 and U+0307 are hypotheses of c41_dotted_i_panics."
  },
  {
   "property": "C42",
   "status": "proved",
   "theorems": [
    "Verif.Workspace.c42_panics_iff",
    "Verif.Workspace.c42_serial_never_panics",
    "Verif.Workspace.c42_overlap_panics",
    "Verif.Workspace.c42_cancel_misses_controller"
   ],
   "note": "Composition of the status and controller models with the two-step callers of server.rs."
  },
  {
   "property": "C43",
   "status": "partial",
   "theorems": [
    "Verif.Types.c43_widening_sound",
    "Verif.Types.c43_generic_hash_sound",
    "Verif.Types.c43_sound_partial",
    "Verif.Types.c43_ends",
    "Verif.Types.c43_reflexive",
    "Verif.Types.c43_exact_optional_unsound",
    "Verif.Types.c43_rest_key_unsound",
    "Verif.Types.c43_stability_ignored",
    "Verif.Types.c43_example"
   ],
   "note": "c43_sound_partial needs two restrictions on shapes (no optional field in an exact shape, rest key types in which no class or module other than String and Symbol has string or symbol instances, and no literal types as rest keys). Without them the property is false: c43_exact_optional_unsound and c43_rest_key_unsound are counterexamples built by try_new. Frozen shapes are not told apart (c43_stability_ignored)."
  },
  {
   "property": "C44",
   "status": "proved",
   "theorems": [
    "Verif.CacheLocks.c44_one_owner",
    "Verif.CacheLocks.c44_one_reservation",
    "Verif.CacheLocks.c44_no_maintenance",
    "Verif.CacheLocks.c44_one_maintainer",
    "Verif.CacheLocks.c44_no_valid_product",
    "Verif.CacheLocks.c44_removes_only_corrupt",
    "Verif.CacheLocks.c44_lock_file_current",
    "Verif.CacheLocks.c44_produced_once",
    "Verif.CacheLocks.c44_valid_kept",
    "Verif.CacheLocks.c44_no_deadlock",
    "Verif.CacheLocks.c44_invalidate_never_blocked",
    "Verif.CacheLocks.c44_example"
   ],
   "note": "flock is modelled as ideal shared and exclusive locks on inodes that are released when their process ends; the 180 s time limit appears as the abort step."
  },
  {
   "property": "C45",
   "status": "proved",
   "theorems": [
    "Verif.Dependency.c45_product_iff",
    "Verif.Dependency.c45_restore",
    "Verif.Dependency.c45_restore_sound",
    "Verif.Dependency.c45_all_or_nothing",
    "Verif.Dependency.c45_bind_succeeds",
    "Verif.Dependency.c45_example"
   ],
   "note": "The postcard encoding and the conversion of a snapshot into a template are outside the model."
  },
  {
   "property": "C46",
   "status": "partial",
   "theorems": [
    "Verif.EngineGraph.c46_fresh_partial",
    "Verif.EngineGraph.c46_stale"
   ],
   "note": "False in general: a resolution adds links without clearing the caches (c46_stale). Proved when no lookup happens between a replacement and the next resolution."
  },
  {
   "property": "C47",
   "status": "partial",
   "theorems": [
    "Verif.Rename.c47_rename_partial",
    "Verif.Rename.c47_example",
    "Verif.Rename.c47_superclass_missed",
    "Verif.Rename.c47_keyword_missed"
   ],
   "note": "Proved for all files without keyword parameters, block-local variables and outer local variables in a class's superclass, class << object or definition receiver; false with them (c47_superclass_missed, c47_keyword_missed)."
  },
  {
   "property": "C48",
   "status": "partial",
   "theorems": [
    "Verif.ControlFlow.c48_diverges_partial",
    "Verif.ControlFlow.c48_unreachable_partial",
    "Verif.ControlFlow.c48_exit_set_partial",
    "Verif.ControlFlow.c48_exits_method_partial",
    "Verif.ControlFlow.c48_blocks_partial",
    "Verif.ControlFlow.c48_example",
    "Verif.ControlFlow.c48_exit_example",
    "Verif.ControlFlow.c48_stop_iteration",
    "Verif.ControlFlow.c48_own_method",
    "Verif.ControlFlow.c48_earlier_exit",
    "Verif.ControlFlow.c48_loop_return",
    "Verif.ControlFlow.c48_nested_return"
   ],
   "note": "Divergence and unreachable statements are proved for every tree and every run in which no StopIteration is raised and Kernel's terminating methods are not redefined (counterexamples c48_stop_iteration, c48_own_method); exit sets for code whose leaving statements come last (counterexamples c48_earlier_exit, c48_loop_return); blocks up to returns from nested blocks (c48_nested_return)."
  },
  {
   "property": "C49",
   "status": "partial",
   "theorems": [
    "Verif.Arity.c49_no_panic",
    "Verif.Arity.c49_wrong_arity_partial",
    "Verif.Arity.c49_wrong_arity_ruby2_partial",
    "Verif.Arity.c49_unknown_keyword",
    "Verif.Arity.c49_missing_keyword_partial",
    "Verif.Arity.c49_complete",
    "Verif.Arity.c49_example",
    "Verif.Arity.c49_destructuring",
    "Verif.Arity.c49_computed_key",
    "Verif.Arity.c49_ruby2_keywords"
   ],
   "note": "Unknown keywords, absence of panics and completeness for written-out calls are proved. Wrong numbers are proved for definitions without destructuring parameters (counterexample c49_destructuring) in Ruby 3, and in Ruby 2 for calls without keywords (c49_ruby2_keywords); missing keywords for calls without computed keys (c49_computed_key)."
  },
  {
   "property": "C50",
   "status": "partial",
   "theorems": [
    "Verif.Suggest.c50_distance",
    "Verif.Suggest.c50_closest",
    "Verif.Suggest.c50_none",
    "Verif.Suggest.c50_method_partial",
    "Verif.Suggest.c50_example",
    "Verif.Suggest.c50_wide_character_missed"
   ],
   "note": "The distance and the nearest keyword are proved for all names; the nearest method for names of one-byte characters, because the length filter counts bytes (counterexample c50_wide_character_missed)."
  },
  {
   "property": "C51",
   "status": "proved",
   "theorems": [
    "Verif.SemanticTokens.c51_client_sees_tokens",
    "Verif.SemanticTokens.c51_panics_iff_out_of_order",
    "Verif.SemanticTokens.c51_release_right_iff_in_order",
    "Verif.SemanticTokens.c51_client_sees_written_code",
    "Verif.SemanticTokens.c51_negation_fails",
    "Verif.SemanticTokens.c51_while_modifier_fails",
    "Verif.SemanticTokens.c51_named_capture_fails",
    "Verif.SemanticTokens.c51_heredoc_fails"
   ],
   "note": "proved for all texts and tokens, as an equivalence with the order of the tokens, and for all code written in the order of the visit; for four constructs that are not, the failure is proved"
  },
  {
   "property": "C52",
   "status": "partial",
   "theorems": [
    "Verif.FlowTypes.c52_variables_and_value",
    "Verif.FlowTypes.c52_method_type",
    "Verif.FlowTypes.c52_method_without_type_never_returns",
    "Verif.FlowTypes.c52_read_type",
    "Verif.FlowTypes.c52_variables_in_rescue",
    "Verif.FlowTypes.c52_exchange_in_loop_fails",
    "Verif.FlowTypes.c52_read_in_loop_fails",
    "Verif.FlowTypes.c52_value_of_loop_fails",
    "Verif.FlowTypes.c52_break_fails",
    "Verif.FlowTypes.c52_loop_condition_fails",
    "Verif.FlowTypes.c52_untyped_parameter_fails",
    "Verif.FlowTypes.c52_operator_assignment_fails",
    "Verif.FlowTypes.c52_assignment_in_argument_fails",
    "Verif.FlowTypes.c52_narrowing_after_assignment_fails",
    "Verif.FlowTypes.c52_instance_of_fails",
    "Verif.FlowTypes.c52_narrowing_before_rescue_fails",
    "Verif.FlowTypes.c52_read_in_ensure_fails",
    "Verif.FlowTypes.c52_truthiness_of_object_fails"
   ],
   "note": "Proved for the code described by Supported (Spec/FlowTypes): loops whose assignments have the same type in every round and without break or next, tests of variables that are not assigned in the branch, no operator assignments, no assignments in arguments. For the other constructs counterexamples are proven. Shapes, blocks and recursive methods are not modelled."
  },
  {
   "property": "C53",
   "status": "proved",
   "theorems": [
    "Verif.FlowShapes.c53_safe_code_completes",
    "Verif.FlowShapes.c53_plain_code_completes",
    "Verif.FlowShapes.c53_array_literal_panics_iff",
    "Verif.FlowShapes.c53_narrowed_array_panics",
    "Verif.FlowShapes.c53_invalidation",
    "Verif.FlowShapes.c53_few_aliases",
    "Verif.FlowShapes.c53_narrowed_array_fails",
    "Verif.FlowShapes.c53_large_hash_in_array_fails"
   ],
   "note": "proved for all code of the modelled form that avoids the two causes of panics, which are themselves proved to panic; loops, rescue and blocks are not modelled here"
  },
  {
   "property": "C54",
   "status": "proved",
   "theorems": [
    "Verif.FlowShapes.c54_aliases_agree",
    "Verif.FlowShapes.c54_same_hashes_same_shapes",
    "Verif.FlowShapes.c54_write_reaches_aliases",
    "Verif.FlowShapes.c54_change_reaches_aliases",
    "Verif.FlowShapes.c54_shapes_belong_to_hashes",
    "Verif.FlowShapes.c54_join_covers",
    "Verif.FlowShapes.c54_write_to_either_fails",
    "Verif.FlowShapes.c54_write_stops_fails",
    "Verif.FlowShapes.c54_agreement_fails",
    "Verif.FlowShapes.c54_guard_of_another_fails",
    "Verif.FlowShapes.c54_join_of_mixed_fails",
    "Verif.FlowShapes.c54_write_to_mixed_fails",
    "Verif.FlowShapes.c54_write_under_guard_fails",
    "Verif.FlowShapes.c54_escape_in_generic_fails"
   ],
   "note": "proved for all code of the modelled form under the stated conditions (Safe, Regular, Tame); the failures outside of them are proved as counterexamples; loops, rescue and blocks are not modelled here"
  },
  {
   "property": "C55",
   "status": "proved",
   "theorems": [
    "Verif.FlowShapes.c55_types_describe_values",
    "Verif.FlowShapes.c55_unset_is_nil",
    "Verif.FlowShapes.c55_shapes_are_hashes",
    "Verif.FlowShapes.c55_fields_are_there",
    "Verif.FlowShapes.c55_flat_code_completes",
    "Verif.FlowShapes.c55_write_to_either_fails"
   ],
   "note": "proved for all bodies that satisfy Flat (hashes contain no hashes, mutations and conditions concern variables with at most one known hash, no loops, rescue, blocks or arrays) and all executions of Spec/FlowShapesHeap; calls whose type is a shape are assumed to return new hashes"
  },
  {
   "property": "C56",
   "status": "proved",
   "theorems": [
    "Verif.Visibility.c56_index_completes",
    "Verif.Visibility.c56_bodies_do_not_leak",
    "Verif.Visibility.c56_definitions_are_recorded",
    "Verif.Visibility.c56_changes_are_recorded",
    "Verif.Visibility.c56_visibility_is_rubys",
    "Verif.Visibility.c56_private_def_fails",
    "Verif.Visibility.c56_self_method_in_private_section_fails",
    "Verif.Visibility.c56_constructor_in_private_section_fails",
    "Verif.Visibility.c56_top_level_def_fails",
    "Verif.Visibility.c56_module_function_fails",
    "Verif.Visibility.c56_absolute_path_fails",
    "Verif.Visibility.c56_def_on_another_constant"
   ],
   "note": "for the code of the modelled syntax; the forms for which it is false are excluded by Plain and Tame and shown as counterexamples"
  },
  {
   "property": "C57",
   "status": "proved",
   "theorems": [
    "Verif.MethodLookup.c57_self_call_runs",
    "Verif.MethodLookup.c57_call_runs",
    "Verif.MethodLookup.c57_self_callee_is_run",
    "Verif.MethodLookup.c57_callee_is_run",
    "Verif.MethodLookup.c57_rejected_call",
    "Verif.MethodLookup.c57_missing_call",
    "Verif.MethodLookup.c57_method_missing_of_other_classes",
    "Verif.MethodLookup.c57_includers_are_searched",
    "Verif.MethodLookup.c57_applications_are_searched",
    "Verif.MethodLookup.c57_super",
    "Verif.MethodLookup.c57_hidden_private_fails",
    "Verif.MethodLookup.c57_redefinition_fails",
    "Verif.MethodLookup.c57_idle_change_fails",
    "Verif.MethodLookup.c57_rejected_call_with_method_missing_fails"
   ],
   "note": "over the index of plain programs with ancestor chains as parameter; conditions for calls on other objects are stated and shown to be needed"
  },
  {
   "property": "C58",
   "status": "proved",
   "theorems": [
    "Verif.ClassFile.c58_exact",
    "Verif.ClassFile.c58_limits_monotone",
    "Verif.ClassFile.c58_no_prefix",
    "Verif.ClassFile.c58_truncated_and_extended",
    "Verif.ClassFile.c58_strings",
    "Verif.ClassFile.c58_strings_injective",
    "Verif.ClassFile.c58_parameters",
    "Verif.ClassFile.c58_parameter_names",
    "Verif.ClassFile.c58_within_limits",
    "Verif.ClassFile.c58_fuel",
    "Verif.ClassFile.c58_kind",
    "Verif.ClassFile.c58_array_nesting_fails",
    "Verif.ClassFile.c58_array_nesting_in_attributes_fails",
    "Verif.ClassFile.c58_two_tables_fails",
    "Verif.ClassFile.c58_empty_record_fails"
   ],
   "note": "for all byte sequences and limits; three counterexamples are theorems ending in _fails"
  },
  {
   "property": "C59",
   "status": "proved",
   "theorems": [
    "Verif.Archive.c59_directory",
    "Verif.Archive.c59_exact",
    "Verif.Archive.c59_unique",
    "Verif.Archive.c59_order",
    "Verif.Archive.c59_release",
    "Verif.Archive.c59_safe",
    "Verif.Archive.c59_malformed",
    "Verif.Archive.c59_one_bad_class",
    "Verif.Archive.c59_release_names_fails",
    "Verif.Archive.c59_manifest_sections_fails",
    "Verif.Archive.c59_ignored_entries_fails",
    "Verif.Archive.c59_prepended_fails",
    "Verif.Archive.c59_comment_fails"
   ],
   "note": "parse is proved equivalent to the declarative specification for every ZIP reader; the deviations from the JAR specification are counterexample theorems"
  },
  {
   "property": "C60",
   "status": "proved",
   "theorems": [
    "Verif.Yard.c60_fuel",
    "Verif.Yard.c60_exact",
    "Verif.Yard.c60_split",
    "Verif.Yard.c60_tag",
    "Verif.Yard.c60_union",
    "Verif.Yard.c60_nested",
    "Verif.Yard.c60_covers",
    "Verif.Yard.c60_root",
    "Verif.Yard.c60_reported",
    "Verif.Yard.c60_none",
    "Verif.Yard.c60_names",
    "Verif.Yard.c60_comma_fails",
    "Verif.Yard.c60_wrong_fails",
    "Verif.Yard.c60_values_fails",
    "Verif.Yard.c60_nested_fails",
    "Verif.Yard.c60_void_fails",
    "Verif.Yard.c60_case_fails"
   ],
   "note": "c60_exact, c60_split, c60_tag, c60_union for hashes with braces on the outside or last; c60_nested and c60_covers for any nesting in braces; c60_fuel and c60_names for all texts; c60_comma_fails, c60_wrong_fails, c60_values_fails, c60_nested_fails, c60_void_fails and c60_case_fails are what does not hold"
  },
  {
   "property": "C61",
   "status": "proved",
   "theorems": [
    "Verif.Yard.c61_block",
    "Verif.Yard.c61_tag",
    "Verif.Yard.c61_doc",
    "Verif.Yard.c61_source",
    "Verif.Yard.c61_columns",
    "Verif.Yard.c61_at",
    "Verif.Yard.c61_outside",
    "Verif.Yard.c61_anywhere_fails",
    "Verif.Yard.c61_yield_fails",
    "Verif.Yard.c61_modifier_fails",
    "Verif.Yard.c61_blank_fails",
    "Verif.Yard.c61_bytes_fails",
    "Verif.Yard.c61_braces_fails"
   ],
   "note": "Comment block, tags, ranges and the type at a position, with counterexamples for tags inside descriptions, block tags, modifiers, blank lines, bytes and braces"
  },
  {
   "property": "C62",
   "status": "proved",
   "theorems": [
    "Verif.MethodReference.c62_cache",
    "Verif.MethodReference.c62_pass",
    "Verif.MethodReference.c62_receiver_in_chain",
    "Verif.MethodReference.c62_refers",
    "Verif.MethodReference.c62_no_panic",
    "Verif.MethodReference.c62_ends",
    "Verif.MethodReference.c62_fuel",
    "Verif.MethodReference.c62_barrier",
    "Verif.MethodReference.c62_core",
    "Verif.MethodReference.c62_found",
    "Verif.MethodReference.c62_cycle_fails",
    "Verif.MethodReference.c62_includer_first_fails",
    "Verif.MethodReference.c62_reopened_fails",
    "Verif.MethodReference.c62_handler_order_fails"
   ],
   "note": "Chains, unresolved dependencies and metaclasses are parameters with one hypothesis, which c62_receiver_in_chain proves for the engine's chains. The theorems ending in _fails show where resolving goes wrong."
  },
  {
   "property": "C63",
   "status": "proved",
   "theorems": [
    "Verif.Snapshot.c63_accepted_iff",
    "Verif.Snapshot.c63_foreign",
    "Verif.Snapshot.c63_instantiate",
    "Verif.Snapshot.c63_check_iff",
    "Verif.Snapshot.c63_saved_iff",
    "Verif.Snapshot.c63_round_trip",
    "Verif.Snapshot.c63_same_facts",
    "Verif.Snapshot.c63_any_snapshot",
    "Verif.Snapshot.c63_stable",
    "Verif.Snapshot.c63_panic",
    "Verif.Snapshot.c63_saved_no_panic",
    "Verif.Snapshot.c63_saved_comes_back_fails",
    "Verif.Snapshot.c63_no_generated_owner_fails",
    "Verif.Snapshot.c63_no_generated_owner_in_body_fails",
    "Verif.Snapshot.c63_no_panic_fails"
   ],
   "note": "Acceptance, moving, saving, the round trip and arbitrary snapshots, with counterexamples for deep types, generated owners in signatures and bodies, and empty parameter names"
  },
  {
   "property": "C64",
   "status": "proved",
   "theorems": [
    "Verif.HigherOrder.c64_block_input",
    "Verif.HigherOrder.c64_exact",
    "Verif.HigherOrder.c64_proven",
    "Verif.HigherOrder.c64_self",
    "Verif.HigherOrder.c64_positional",
    "Verif.HigherOrder.c64_sound",
    "Verif.HigherOrder.c64_sound_disjoint",
    "Verif.HigherOrder.c64_subtype_honest",
    "Verif.HigherOrder.c64_wide_iff",
    "Verif.HigherOrder.c64_valid_iff",
    "Verif.HigherOrder.c64_refused",
    "Verif.HigherOrder.c64_count_iff",
    "Verif.HigherOrder.c64_map",
    "Verif.HigherOrder.c64_block_again_fails",
    "Verif.HigherOrder.c64_block_never_called_fails",
    "Verif.HigherOrder.c64_trailing_parameter_fails",
    "Verif.HigherOrder.c64_wider_argument_fails",
    "Verif.HigherOrder.c64_array_in_union_fails",
    "Verif.HigherOrder.c64_example"
   ],
   "note": "Exactness and soundness of the types of calls with a block; the conditions of soundness are shown necessary by counterexamples."
  },
  {
   "property": "C65",
   "status": "proved",
   "theorems": [
    "Verif.ShapeReads.c65_index",
    "Verif.ShapeReads.c65_fetch",
    "Verif.ShapeReads.c65_fetch_default",
    "Verif.ShapeReads.c65_dig",
    "Verif.ShapeReads.c65_keys",
    "Verif.ShapeReads.c65_values",
    "Verif.ShapeReads.c65_key",
    "Verif.ShapeReads.c65_no_panic",
    "Verif.ShapeReads.c65_key_exact",
    "Verif.ShapeReads.c65_index_precise",
    "Verif.ShapeReads.c65_fetch_precise",
    "Verif.ShapeReads.c65_example",
    "Verif.ShapeReads.c65_example_value",
    "Verif.ShapeReads.c65_rest_key_fails"
   ],
   "note": "Sound for types whose rest keys are plain; c65_rest_key_fails shows the reads are wrong for a rest key like Object."
  },
  {
   "property": "C66",
   "status": "proved",
   "theorems": [
    "Verif.CallableBody.c66_sound",
    "Verif.CallableBody.c66_params",
    "Verif.CallableBody.c66_limits",
    "Verif.CallableBody.c66_answer_limits",
    "Verif.CallableBody.c66_example",
    "Verif.CallableBody.c66_example_refused",
    "Verif.CallableBody.c66_example_value",
    "Verif.CallableBody.c66_proc_array_fails"
   ],
   "note": "Sound for lambdas, and for procs that are not called with a single array; c66_proc_array_fails shows the remaining case is wrong. Resolvers are assumed right."
  },
  {
   "property": "C67",
   "status": "proved",
   "theorems": [
    "Verif.Lowering.c67_lowered",
    "Verif.Lowering.c67_sound",
    "Verif.Lowering.c67_valid",
    "Verif.Lowering.c67_captures",
    "Verif.Lowering.c67_example",
    "Verif.Lowering.c67_example_value",
    "Verif.Lowering.c67_early_return_fails",
    "Verif.Lowering.c67_early_next_fails",
    "Verif.Lowering.c67_condition_fails",
    "Verif.Lowering.c67_safe_navigation_fails",
    "Verif.Lowering.c67_block_local_fails",
    "Verif.Lowering.c67_dropped_branch_fails",
    "Verif.Lowering.c67_interpolation_fails",
    "Verif.Lowering.c67_default_fails"
   ],
   "note": "proved for neat literals; each condition is needed, with counterexample theorems: early return and next, assignments in conditions, interpolations and defaults, safe navigation, block-local variables, dropped branches"
  },
  {
   "property": "C68",
   "status": "partial",
   "theorems": [
    "Verif.RbsTypes.c68_sound",
    "Verif.RbsTypes.c68_exact",
    "Verif.RbsTypes.c68_bound_sound",
    "Verif.RbsTypes.c68_bound_exact",
    "Verif.RbsTypes.c68_name",
    "Verif.RbsTypes.c68_record",
    "Verif.RbsTypes.c68_parameters",
    "Verif.RbsTypes.c68_index",
    "Verif.RbsTypes.c68_return_partial",
    "Verif.RbsTypes.c68_declared",
    "Verif.RbsTypes.c68_readings",
    "Verif.RbsTypes.c68_example",
    "Verif.RbsTypes.c68_tuple_fails",
    "Verif.RbsTypes.c68_method_parameter_fails",
    "Verif.RbsTypes.c68_overload_fails",
    "Verif.RbsTypes.c68_several_elements_fails",
    "Verif.RbsTypes.c68_unbound_fails",
    "Verif.RbsTypes.c68_void_fails",
    "Verif.RbsTypes.c68_reopened_fails",
    "Verif.RbsTypes.c68_relative_fails"
   ],
   "note": "Proved: conversion of RBS types sound and exact under stated conditions, names, records, type arguments, index of declarations; c68_return_partial is for methods with one signature. Missing: the original claim is false for several signatures, tuples, method type parameters, void, reopened classes, relative names (c68_*_fails)."
  },
  {
   "property": "C69",
   "status": "partial",
   "theorems": [
    "Verif.MethodReturn.c69_sound_partial",
    "Verif.MethodReturn.c69_branches",
    "Verif.MethodReturn.c69_known",
    "Verif.MethodReturn.c69_no_panic",
    "Verif.MethodReturn.c69_union",
    "Verif.MethodReturn.c69_sources",
    "Verif.MethodReturn.c69_literal",
    "Verif.MethodReturn.c69_receiver",
    "Verif.MethodReturn.c69_shapes",
    "Verif.MethodReturn.c69_arguments",
    "Verif.MethodReturn.c69_access",
    "Verif.MethodReturn.c69_example",
    "Verif.MethodReturn.c69_last_name_fails",
    "Verif.MethodReturn.c69_own_new_fails",
    "Verif.MethodReturn.c69_arrays_fails",
    "Verif.MethodReturn.c69_elements_fails",
    "Verif.MethodReturn.c69_name",
    "Verif.MethodReturn.c69_hypotheses"
   ],
   "note": "Sound if the project and RBS are right about the calls and RBS is asked the right question; counterexamples for classes found by the last name of their path, own new, arrays and hashes changed by the project, several element types"
  },
  {
   "property": "C70",
   "status": "proved",
   "theorems": [
    "Verif.RbsAncestors.c70_found",
    "Verif.RbsAncestors.c70_only",
    "Verif.RbsAncestors.c70_ruby",
    "Verif.RbsAncestors.c70_bindings",
    "Verif.RbsAncestors.c70_complete",
    "Verif.RbsAncestors.c70_once",
    "Verif.RbsAncestors.c70_listed",
    "Verif.RbsAncestors.c70_entry",
    "Verif.RbsAncestors.c70_exists",
    "Verif.RbsAncestors.c70_example",
    "Verif.RbsAncestors.c70_example_spec",
    "Verif.RbsAncestors.c70_example_listed",
    "Verif.RbsAncestors.c70_tuple_fails",
    "Verif.RbsAncestors.c70_alias_fails",
    "Verif.RbsAncestors.c70_include_order_fails",
    "Verif.RbsAncestors.c70_prepend_fails",
    "Verif.RbsAncestors.c70_class_object_fails",
    "Verif.RbsAncestors.c70_last_name_fails",
    "Verif.RbsAncestors.c70_missing_include_fails",
    "Verif.RbsAncestors.c70_singleton_fails",
    "Verif.RbsAncestors.c70_alias_kind_fails"
   ],
   "note": "Order, bindings, completeness, lists and catalogues, under the conditions of the statement; counterexamples show that they are needed."
  },
  {
   "property": "C71",
   "status": "proved",
   "theorems": [
    "Verif.RbsTemplates.c71_template_sound",
    "Verif.RbsTemplates.c71_template_exact",
    "Verif.RbsTemplates.c71_supported",
    "Verif.RbsTemplates.c71_conforms",
    "Verif.RbsTemplates.c71_sound",
    "Verif.RbsTemplates.c71_generic",
    "Verif.RbsTemplates.c71_readings",
    "Verif.RbsTemplates.c71_example",
    "Verif.RbsTemplates.c71_void_block_fails",
    "Verif.RbsTemplates.c71_void_fails",
    "Verif.RbsTemplates.c71_bot_fails",
    "Verif.RbsTemplates.c71_rooted_fails",
    "Verif.RbsTemplates.c71_record_fails",
    "Verif.RbsTemplates.c71_overload_fails",
    "Verif.RbsTemplates.c71_hash_fails"
   ],
   "note": "End-to-end soundness of calls with a block under the stated conditions on the written types (Neat); the statement lists where the conditions fail, with counterexample theorems."
  },
  {
   "property": "C72",
   "status": "proved",
   "theorems": [
    "Verif.CacheLimits.c72_cleanup",
    "Verif.CacheLimits.c72_unique",
    "Verif.CacheLimits.c72_newest_stays",
    "Verif.CacheLimits.c72_cleanup_ends",
    "Verif.CacheLimits.c72_bound",
    "Verif.CacheLimits.c72_single",
    "Verif.CacheLimits.c72_recovers",
    "Verif.CacheLimits.c72_example",
    "Verif.CacheLimits.c72_vanished_fails",
    "Verif.CacheLimits.c72_clock_fails",
    "Verif.CacheLimits.c72_two_processes_fails",
    "Verif.CacheLimits.c72_clear_fails",
    "Verif.CacheLimits.c72_rejection_fails",
    "Verif.CacheLimits.c72_timeout_fails",
    "Verif.CacheLimits.c72_temporaries",
    "Verif.CacheLimits.c72_clear"
   ],
   "note": "The limits, the order of eviction, the bound for all interleavings, the single process and the recovery are proved; what does not hold is shown by counterexamples."
  },
  {
   "property": "C73",
   "status": "proved",
   "theorems": [
    "Verif.Edits.c73_document_end",
    "Verif.Edits.c73_format",
    "Verif.Edits.c73_format_fails",
    "Verif.Edits.c73_position",
    "Verif.Edits.c73_position_complete",
    "Verif.Edits.c73_report",
    "Verif.Edits.c73_characters_fails",
    "Verif.Edits.c73_one_lost_fails",
    "Verif.Edits.c73_empty_fails",
    "Verif.Edits.c73_example",
    "Verif.Edits.c73_return_example",
    "Verif.Edits.c73_tree",
    "Verif.Edits.c73_end",
    "Verif.Edits.c73_everywhere_fails",
    "Verif.Edits.c73_comment",
    "Verif.Edits.c73_needless_fails",
    "Verif.Edits.c73_missing_fails",
    "Verif.Edits.c73_keywords"
   ],
   "note": "Characterises exactly when whole-document edits are right; positions of linters are right as byte columns, which is not what RuboCop reports; wrong insertions of end are counterexamples."
  },
  {
   "property": "C74",
   "status": "proved",
   "theorems": [
    "Verif.DocSync.c74_text",
    "Verif.DocSync.c74_facts",
    "Verif.DocSync.c74_closed",
    "Verif.DocSync.c74_ends",
    "Verif.DocSync.c74_settles",
    "Verif.DocSync.c74_lock",
    "Verif.DocSync.c74_save_resolves_fails",
    "Verif.DocSync.c74_example",
    "Verif.DocSync.c74_refresh_stale_fails",
    "Verif.DocSync.c74_refresh_closed_fails",
    "Verif.DocSync.c74_refresh_reopened_fails",
    "Verif.DocSync.c74_watch_stale_fails",
    "Verif.DocSync.c74_order_fails",
    "Verif.DocSync.c74_discard_fails",
    "Verif.DocSync.c74_failed_fails"
   ],
   "note": "For executions in which nothing without the lock overlaps the storing of a new text; c74_*_fails show what happens otherwise."
  },
  {
   "property": "C75",
   "status": "proved",
   "theorems": [
    "Verif.ProjectFiles.c75_walk",
    "Verif.ProjectFiles.c75_policy",
    "Verif.ProjectFiles.c75_signatures",
    "Verif.ProjectFiles.c75_log_fails",
    "Verif.ProjectFiles.c75_link_fails",
    "Verif.ProjectFiles.c75_walk_example",
    "Verif.ProjectFiles.c75_require",
    "Verif.ProjectFiles.c75_scan_ascii",
    "Verif.ProjectFiles.c75_scan_panics_fails",
    "Verif.ProjectFiles.c75_comment_fails",
    "Verif.ProjectFiles.c75_parentheses_fails",
    "Verif.ProjectFiles.c75_require_example",
    "Verif.ProjectFiles.c75_select",
    "Verif.ProjectFiles.c75_once",
    "Verif.ProjectFiles.c75_unreadable_fails",
    "Verif.ProjectFiles.c75_run_example",
    "Verif.ProjectFiles.c75_overlap_fails",
    "Verif.ProjectFiles.c75_locked",
    "Verif.ProjectFiles.c75_demanded",
    "Verif.ProjectFiles.c75_twins_fails",
    "Verif.ProjectFiles.c75_matches",
    "Verif.ProjectFiles.c75_matches_example"
   ],
   "note": "For files without duplicates, which is what the walk finds; c75_*_fails show what does not hold."
  },
  {
   "property": "C76",
   "status": "proved",
   "theorems": [
    "Verif.Outline.c76_shape",
    "Verif.Outline.c76_complete",
    "Verif.Outline.c76_ranges",
    "Verif.Outline.c76_tree",
    "Verif.Outline.c76_detail",
    "Verif.Outline.c76_example",
    "Verif.Outline.c76_order_fails",
    "Verif.Outline.c76_named_fails",
    "Verif.Outline.c76_private_def_fails",
    "Verif.Outline.c76_receiver_fails",
    "Verif.Outline.c76_constant_fails",
    "Verif.Outline.c76_invalid_fails",
    "Verif.Outline.c76_attribute_fails"
   ],
   "note": "All declarations once and in their places, ranges nested, visibilities for plain modifiers, for all syntax trees; the reversed order of children and the wrong visibilities are shown as counterexamples."
  },
  {
   "property": "C77",
   "status": "proved",
   "theorems": [
    "Verif.SymbolSearch.c77_matches",
    "Verif.SymbolSearch.c77_dead",
    "Verif.SymbolSearch.c77_rank",
    "Verif.SymbolSearch.c77_search",
    "Verif.SymbolSearch.c77_top",
    "Verif.SymbolSearch.c77_names",
    "Verif.SymbolSearch.c77_key",
    "Verif.SymbolSearch.c77_answer",
    "Verif.SymbolSearch.c77_all",
    "Verif.SymbolSearch.c77_exact",
    "Verif.SymbolSearch.c77_once",
    "Verif.SymbolSearch.c77_example",
    "Verif.SymbolSearch.c77_camel_fails",
    "Verif.SymbolSearch.c77_order_fails",
    "Verif.SymbolSearch.c77_qualified_fails",
    "Verif.SymbolSearch.c77_once_fails"
   ],
   "note": "The matching, ranking, limits and merging of the search for symbols; four expectations are refuted by counterexamples."
  },
  {
   "property": "C78",
   "status": "proved",
   "theorems": [
    "Verif.NamespaceTree.c78_tree",
    "Verif.NamespaceTree.c78_order",
    "Verif.NamespaceTree.c78_items",
    "Verif.NamespaceTree.c78_sections",
    "Verif.NamespaceTree.c78_project",
    "Verif.NamespaceTree.c78_mixins",
    "Verif.NamespaceTree.c78_fields",
    "Verif.NamespaceTree.c78_includers",
    "Verif.NamespaceTree.c78_example",
    "Verif.NamespaceTree.c78_twice_fails",
    "Verif.NamespaceTree.c78_ties_fails",
    "Verif.NamespaceTree.c78_cache_fails",
    "Verif.NamespaceTree.c78_kind_fails",
    "Verif.NamespaceTree.c78_place",
    "Verif.NamespaceTree.c78_own"
   ],
   "note": "Tree, sections, mixins and includers for all graphs and iteration orders; four expectations are refuted by counterexamples."
  },
  {
   "property": "C79",
   "status": "proved",
   "theorems": [
    "Verif.Lens.c79_modules",
    "Verif.Lens.c79_names",
    "Verif.Lens.c79_usages",
    "Verif.Lens.c79_classes",
    "Verif.Lens.c79_right",
    "Verif.Lens.c79_places",
    "Verif.Lens.c79_lenses",
    "Verif.Lens.c79_handle",
    "Verif.Lens.c79_folds",
    "Verif.Lens.c79_example",
    "Verif.Lens.c79_nested_fails",
    "Verif.Lens.c79_absolute_fails",
    "Verif.Lens.c79_reopened_fails",
    "Verif.Lens.c79_extend_fails",
    "Verif.Lens.c79_singleton_fails",
    "Verif.Lens.c79_folds_fails"
   ],
   "note": "Modules, usages, classes, lenses and folding ranges characterised for all documents and graphs; the parts that do not hold have counterexamples."
  },
  {
   "property": "C80",
   "status": "proved",
   "theorems": [
    "Verif.SignatureHelp.c80_call",
    "Verif.SignatureHelp.c80_innermost",
    "Verif.SignatureHelp.c80_argument",
    "Verif.SignatureHelp.c80_keyword_at",
    "Verif.SignatureHelp.c80_positional",
    "Verif.SignatureHelp.c80_keyword",
    "Verif.SignatureHelp.c80_bound",
    "Verif.SignatureHelp.c80_labels",
    "Verif.SignatureHelp.c80_distinct",
    "Verif.SignatureHelp.c80_help",
    "Verif.SignatureHelp.c80_example",
    "Verif.SignatureHelp.c80_closed_fails",
    "Verif.SignatureHelp.c80_operator_fails",
    "Verif.SignatureHelp.c80_comma_fails",
    "Verif.SignatureHelp.c80_post_fails",
    "Verif.SignatureHelp.c80_anonymous_fails",
    "Verif.SignatureHelp.c80_next_fails",
    "Verif.SignatureHelp.c80_overload_fails",
    "Verif.SignatureHelp.c80_highlight_fails",
    "Verif.SignatureHelp.c80_ambiguous_fails"
   ],
   "note": "Call, argument, keyword, parameter, labels and answer characterised for all inputs; the parts that do not hold have counterexamples."
  },
  {
   "property": "C81",
   "status": "proved",
   "theorems": [
    "Verif.RequirePaths.c81_strings",
    "Verif.RequirePaths.c81_at",
    "Verif.RequirePaths.c81_content",
    "Verif.RequirePaths.c81_resolve",
    "Verif.RequirePaths.c81_ruby",
    "Verif.RequirePaths.c81_load_paths",
    "Verif.RequirePaths.c81_diagnostics",
    "Verif.RequirePaths.c81_range",
    "Verif.RequirePaths.c81_end",
    "Verif.RequirePaths.c81_example",
    "Verif.RequirePaths.c81_bare_fails",
    "Verif.RequirePaths.c81_root_fails",
    "Verif.RequirePaths.c81_dot_fails",
    "Verif.RequirePaths.c81_slash_fails",
    "Verif.RequirePaths.c81_case_fails",
    "Verif.RequirePaths.c81_load_path_fails",
    "Verif.RequirePaths.c81_absolute",
    "Verif.RequirePaths.c81_upwards"
   ],
   "note": "strings, cursor, ranges, roots, load paths, diagnostics and agreement with Ruby's require under stated conditions; counterexamples for the conditions"
  },
  {
   "property": "C82",
   "status": "proved",
   "theorems": [
    "Verif.Hierarchy.c82_namespace_name",
    "Verif.Hierarchy.c82_method_names",
    "Verif.Hierarchy.c82_method_name",
    "Verif.Hierarchy.c82_distinct",
    "Verif.Hierarchy.c82_incoming",
    "Verif.Hierarchy.c82_outgoing",
    "Verif.Hierarchy.c82_calls",
    "Verif.Hierarchy.c82_supertypes",
    "Verif.Hierarchy.c82_order",
    "Verif.Hierarchy.c82_subtypes",
    "Verif.Hierarchy.c82_sorted",
    "Verif.Hierarchy.c82_types",
    "Verif.Hierarchy.c82_example",
    "Verif.Hierarchy.c82_operators",
    "Verif.Hierarchy.c82_generated",
    "Verif.Hierarchy.c82_item",
    "Verif.Hierarchy.c82_file_fails",
    "Verif.Hierarchy.c82_top_fails",
    "Verif.Hierarchy.c82_kind_fails",
    "Verif.Hierarchy.c82_reopened_fails",
    "Verif.Hierarchy.c82_singleton_fails",
    "Verif.Hierarchy.c82_operator_fails"
   ],
   "note": "texts of names, calls from both sides, supertypes and subtypes from both sides, orders; counterexamples for what does not hold"
  },
  {
   "property": "C83",
   "status": "proved",
   "theorems": [
    "Verif.JavaSource.c83_limits",
    "Verif.JavaSource.c83_name",
    "Verif.JavaSource.c83_package",
    "Verif.JavaSource.c83_class",
    "Verif.JavaSource.c83_erased",
    "Verif.JavaSource.c83_clean",
    "Verif.JavaSource.c83_parameters",
    "Verif.JavaSource.c83_type",
    "Verif.JavaSource.c83_overloads",
    "Verif.JavaSource.c83_static",
    "Verif.JavaSource.c83_method",
    "Verif.JavaSource.c83_field",
    "Verif.JavaSource.c83_field_found",
    "Verif.JavaSource.c83_result",
    "Verif.JavaSource.c83_inside",
    "Verif.JavaSource.c83_example",
    "Verif.JavaSource.c83_local_fails",
    "Verif.JavaSource.c83_alone_fails",
    "Verif.JavaSource.c83_enum_fails",
    "Verif.JavaSource.c83_constant_fails",
    "Verif.JavaSource.c83_receiver_fails",
    "Verif.JavaSource.c83_compact_fails",
    "Verif.JavaSource.c83_annotation_fails",
    "Verif.JavaSource.c83_variable_fails",
    "Verif.JavaSource.c83_kinds",
    "Verif.JavaSource.c83_first",
    "Verif.JavaSource.c83_named",
    "Verif.JavaSource.c83_line",
    "Verif.JavaSource.c83_members"
   ],
   "note": "The tree is the input; which of several declarations is meant is proved from the whole list of declarations. Counterexamples show classes, members and words that are mistaken or not located."
  },
  {
   "property": "C84",
   "status": "proved",
   "theorems": [
    "Verif.JrubySignatures.c84_read",
    "Verif.JrubySignatures.c84_total",
    "Verif.JrubySignatures.c84_indent",
    "Verif.JrubySignatures.c84_name",
    "Verif.JrubySignatures.c84_fqn",
    "Verif.JrubySignatures.c84_lines",
    "Verif.JrubySignatures.c84_types",
    "Verif.JrubySignatures.c84_distinct",
    "Verif.JrubySignatures.c84_documented",
    "Verif.JrubySignatures.c84_example",
    "Verif.JrubySignatures.c84_collide_fails",
    "Verif.JrubySignatures.c84_distinct_fails",
    "Verif.JrubySignatures.c84_private_fails",
    "Verif.JrubySignatures.c84_constructor_fails",
    "Verif.JrubySignatures.c84_outer_fails",
    "Verif.JrubySignatures.c84_keyword_fails",
    "Verif.JrubySignatures.c84_field_fails",
    "Verif.JrubySignatures.c84_writer_fails",
    "Verif.JrubySignatures.c84_constant_fails",
    "Verif.JrubySignatures.c84_package_fails",
    "Verif.JrubySignatures.c84_dollar_fails",
    "Verif.JrubySignatures.c84_raise_fails",
    "Verif.JrubySignatures.c84_visibility"
   ],
   "note": "Reading of the generated lines, totality, layout, no smuggled lines, names, types and parameters for all class files; the exceptions are counterexample theorems."
  },
  {
   "property": "C85",
   "status": "proved",
   "theorems": [
    "Verif.Runtimes.c85_version",
    "Verif.Runtimes.c85_display",
    "Verif.Runtimes.c85_series",
    "Verif.Runtimes.c85_clean",
    "Verif.Runtimes.c85_marker",
    "Verif.Runtimes.c85_select",
    "Verif.Runtimes.c85_order",
    "Verif.Runtimes.c85_jruby",
    "Verif.Runtimes.c85_mri",
    "Verif.Runtimes.c85_kind",
    "Verif.Runtimes.c85_found",
    "Verif.Runtimes.c85_truffle",
    "Verif.Runtimes.c85_tool",
    "Verif.Runtimes.c85_files",
    "Verif.Runtimes.c85_example",
    "Verif.Runtimes.c85_preview_fails",
    "Verif.Runtimes.c85_snapshot_fails",
    "Verif.Runtimes.c85_equal_fails",
    "Verif.Runtimes.c85_comment_fails"
   ],
   "note": "Recognising and selecting runtimes for all texts and lists of runtimes; the cases that do not hold are shown by c85_*_fails."
  },
  {
   "property": "C86",
   "status": "proved",
   "theorems": [
    "Verif.CheckReport.c86_linear",
    "Verif.CheckReport.c86_before",
    "Verif.CheckReport.c86_path",
    "Verif.CheckReport.c86_root",
    "Verif.CheckReport.c86_diagnostics",
    "Verif.CheckReport.c86_types",
    "Verif.CheckReport.c86_solved",
    "Verif.CheckReport.c86_summary",
    "Verif.CheckReport.c86_unordered",
    "Verif.CheckReport.c86_one",
    "Verif.CheckReport.c86_positions",
    "Verif.CheckReport.c86_example",
    "Verif.CheckReport.c86_outside_fails",
    "Verif.CheckReport.c86_signature_fails",
    "Verif.CheckReport.c86_answers_fails"
   ],
   "note": "The part of check behind the indexing, for all inputs; the cases that do not hold are shown by c86_*_fails."
  },
  {
   "property": "C87",
   "status": "proved",
   "theorems": [
    "Verif.JavaCatalog.c87_accepted",
    "Verif.JavaCatalog.c87_precedence",
    "Verif.JavaCatalog.c87_duplicates",
    "Verif.JavaCatalog.c87_winner",
    "Verif.JavaCatalog.c87_apart",
    "Verif.JavaCatalog.c87_longer",
    "Verif.JavaCatalog.c87_identity",
    "Verif.JavaCatalog.c87_stored",
    "Verif.JavaCatalog.c87_build",
    "Verif.JavaCatalog.c87_example",
    "Verif.JavaCatalog.c87_order_fails"
   ],
   "note": "Classes of a class path, duplicates and identities of stored metadata; the hash is taken to have no collisions where said."
  },
  {
   "property": "C88",
   "status": "proved",
   "theorems": [
    "Verif.Telemetry.c88_merge",
    "Verif.Telemetry.c88_assoc",
    "Verif.Telemetry.c88_total",
    "Verif.Telemetry.c88_returns",
    "Verif.Telemetry.c88_type",
    "Verif.Telemetry.c88_seen",
    "Verif.Telemetry.c88_refresh",
    "Verif.Telemetry.c88_methods",
    "Verif.Telemetry.c88_once",
    "Verif.Telemetry.c88_fresh",
    "Verif.Telemetry.c88_example",
    "Verif.Telemetry.c88_file_fails",
    "Verif.Telemetry.c88_aliases_fails",
    "Verif.Telemetry.c88_constants_fails"
   ],
   "note": "Counts of inference for all histories of replacing and solving; three natural statements about single files shown not to hold."
  },
  {
   "property": "C89",
   "status": "proved",
   "theorems": [
    "Verif.RubyVersions.c89_parse",
    "Verif.RubyVersions.c89_marker",
    "Verif.RubyVersions.c89_words",
    "Verif.RubyVersions.c89_first",
    "Verif.RubyVersions.c89_output",
    "Verif.RubyVersions.c89_gemfile",
    "Verif.RubyVersions.c89_detect",
    "Verif.RubyVersions.c89_silent",
    "Verif.RubyVersions.c89_effective",
    "Verif.RubyVersions.c89_agree",
    "Verif.RubyVersions.c89_example",
    "Verif.RubyVersions.c89_requirement_fails",
    "Verif.RubyVersions.c89_engine_fails",
    "Verif.RubyVersions.c89_rvmrc_fails",
    "Verif.RubyVersions.c89_newer_fails"
   ],
   "note": "What markers, outputs, Gemfiles and the other sources say, exactly, for all texts, and the precedence of the sources; four expectations are shown not to hold"
  },
  {
   "property": "C90",
   "status": "proved",
   "theorems": [
    "Verif.RuntimeConfig.c90_family",
    "Verif.RuntimeConfig.c90_valid",
    "Verif.RuntimeConfig.c90_config",
    "Verif.RuntimeConfig.c90_select",
    "Verif.RuntimeConfig.c90_slashes",
    "Verif.RuntimeConfig.c90_names",
    "Verif.RuntimeConfig.c90_found",
    "Verif.RuntimeConfig.c90_version",
    "Verif.RuntimeConfig.c90_scoped",
    "Verif.RuntimeConfig.c90_jruby",
    "Verif.RuntimeConfig.c90_paths",
    "Verif.RuntimeConfig.c90_example",
    "Verif.RuntimeConfig.c90_roots_fails",
    "Verif.RuntimeConfig.c90_bytes_fails",
    "Verif.RuntimeConfig.c90_truffle_fails"
   ],
   "note": "Paths are those of Unix; what does not hold of duplicate roots, bytes and TruffleRuby is stated as counterexamples."
  },
  {
   "property": "C91",
   "status": "proved",
   "theorems": [
    "Verif.ProjectRoots.c91_projects",
    "Verif.ProjectRoots.c91_order",
    "Verif.ProjectRoots.c91_apart",
    "Verif.ProjectRoots.c91_entry",
    "Verif.ProjectRoots.c91_explicit",
    "Verif.ProjectRoots.c91_default",
    "Verif.ProjectRoots.c91_example"
   ],
   "note": "The file system is a tree or, for configured roots, two parameters."
  }
 ]
}