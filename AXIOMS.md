# Axioms of the property theorems

Generated by `tools/axioms.py` from `#print axioms`.

| Property | Theorem | Axioms |
|---|---|---|
| C01 | `Verif.Scheduler.c01_permits_bounded_and_exclusive` | propext, Classical.choice, Quot.sound |
| C01 | `Verif.Scheduler.c01_no_assertion_fires` | propext, Classical.choice, Quot.sound |
| C01 | `Verif.Scheduler.c01_release` | propext, Classical.choice, Quot.sound |
| C02 | `Verif.Scheduler.c02_permits_come_from_the_queue` | propext, Classical.choice, Quot.sound |
| C02 | `Verif.Scheduler.c02_effective_priority` | propext, Classical.choice, Quot.sound |
| C02 | `Verif.Scheduler.c02_prioritize` | propext, Classical.choice, Quot.sound |
| C02 | `Verif.Scheduler.c02_grant_order` | propext, Classical.choice, Quot.sound |
| C02 | `Verif.Scheduler.c02_tickets_in_arrival_order` | propext, Classical.choice, Quot.sound |
| C03 | `Verif.Scheduler.c03_no_lost_wakeup` | propext, Classical.choice, Quot.sound |
| C03 | `Verif.Scheduler.c03_progress` | propext, Classical.choice, Quot.sound |
| C03 | `Verif.Scheduler.c03_queue_matches_tasks` | propext, Classical.choice, Quot.sound |
| C03 | `Verif.Scheduler.c03_cancelled_or_dropped_leaves` | propext, Classical.choice, Quot.sound |
| C04 | `Verif.Governor.c04_accounting` | propext, Classical.choice, Quot.sound |
| C04 | `Verif.Governor.c04_never_overcommitted` | propext, Classical.choice, Quot.sound |
| C04 | `Verif.Governor.c04_peaks_monotone` | propext, Classical.choice, Quot.sound |
| C04 | `Verif.Governor.c04_no_assertion_fires` | propext, Classical.choice, Quot.sound |
| C04 | `Verif.Governor.c04_release_gives_back` | propext, Classical.choice, Quot.sound |
| C05 | `Verif.Governor.c05_no_two_bypasses_in_a_row_partial` | propext, Classical.choice, Quot.sound |
| C05 | `Verif.Governor.c05_unbounded_bypass` | propext, Classical.choice, Quot.sound |
| C05 | `Verif.Governor.c05_navigation_blocks_other_projects` | propext, Classical.choice, Quot.sound |
| C05 | `Verif.Governor.c05_navigation_marking` | propext, Quot.sound |
| C05 | `Verif.Governor.c05_navigation_pending_until_completed` | propext, Classical.choice, Quot.sound |
| C06 | `Verif.Governor.c06_not_work_conserving` | propext, Quot.sound |
| C06 | `Verif.Governor.c06_never_idle_partial` | propext, Classical.choice, Quot.sound |
| C06 | `Verif.Governor.c06_release_wakes_everyone_partial` | propext, Classical.choice, Quot.sound |
| C07 | `Verif.SingleFlight.c07_one_producer` | propext, Classical.choice, Quot.sound |
| C07 | `Verif.SingleFlight.c07_result` | propext, Classical.choice, Quot.sound |
| C07 | `Verif.SingleFlight.c07_joined` | propext, Classical.choice, Quot.sound |
| C07 | `Verif.SingleFlight.c07_completed_once` | propext, Classical.choice, Quot.sound |
| C07 | `Verif.SingleFlight.c07_never_panics` | propext, Classical.choice, Quot.sound |
| C07 | `Verif.SingleFlight.c07_no_lost_wakeup` | propext, Classical.choice, Quot.sound |
| C07 | `Verif.SingleFlight.c07_no_deadlock` | propext, Classical.choice, Quot.sound |
| C07 | `Verif.SingleFlight.c07_work_decreases` | propext, Classical.choice, Quot.sound |
| C07 | `Verif.SingleFlight.c07_terminates` | propext, Classical.choice, Quot.sound |
| C08 | `Verif.SingleFlight.c08_within_limits` | propext, Classical.choice, Quot.sound |
| C08 | `Verif.SingleFlight.c08_ephemeral` | propext, Classical.choice, Quot.sound |
| C08 | `Verif.SingleFlight.c08_removed` | propext, Classical.choice, Quot.sound |
| C09 | `Verif.SingleFlight.c09_failure_not_served` | propext, Classical.choice, Quot.sound |
| C09 | `Verif.SingleFlight.c09_fresh_producer` | propext, Classical.choice, Quot.sound |
| C09 | `Verif.SingleFlight.c09_counters` | propext, Classical.choice, Quot.sound |
| C10 | `Verif.NavDemand.c10_bounded` | propext, Classical.choice, Quot.sound |
| C10 | `Verif.NavDemand.c10_disjoint` | propext, Classical.choice, Quot.sound |
| C10 | `Verif.NavDemand.c10_handed_once` | propext, Classical.choice, Quot.sound |
| C10 | `Verif.NavDemand.c10_handed_requested` | propext, Classical.choice, Quot.sound |
| C10 | `Verif.NavDemand.c10_drain` | propext, Classical.choice, Quot.sound |
| C10 | `Verif.NavDemand.c10_never_panics` | propext, Classical.choice, Quot.sound |
| C10 | `Verif.NavDemand.c10_complete_keys_iff` | propext, Classical.choice, Quot.sound |
| C10 | `Verif.NavDemand.c10_complete_keys` | propext, Classical.choice, Quot.sound |
| C10 | `Verif.NavDemand.c10_saturated_only_full` | propext |
| C10 | `Verif.NavDemand.c10_example_panic` | propext, Quot.sound |
| C11 | `Verif.NavDemand.c11_not_lost` | propext, Classical.choice, Quot.sound |
| C11 | `Verif.NavDemand.c11_outcome_stays` | propext, Classical.choice, Quot.sound |
| C11 | `Verif.NavDemand.c11_final` | propext, Classical.choice, Quot.sound |
| C11 | `Verif.NavDemand.c11_truthful` | propext, Classical.choice, Quot.sound |
| C11 | `Verif.NavDemand.c11_no_lost_wakeup` | propext, Classical.choice, Quot.sound |
| C11 | `Verif.NavDemand.c11_stale_ignored` | propext |
| C11 | `Verif.NavDemand.c11_can_return` | propext, Classical.choice, Quot.sound |
| C11 | `Verif.NavDemand.c11_example` | propext |
| C12 | `Verif.Status.c12_sequence` | propext, Quot.sound |
| C12 | `Verif.Status.c12_accepted` | propext, Quot.sound |
| C12 | `Verif.Status.c12_forward` | propext, Classical.choice, Quot.sound |
| C12 | `Verif.Status.c12_generation` | propext, Quot.sound |
| C12 | `Verif.Status.c12_stale_ignored` | propext |
| C12 | `Verif.Status.c12_wellformed` | propext, Quot.sound |
| C12 | `Verif.Status.c12_progress` | propext, Classical.choice, Quot.sound |
| C12 | `Verif.Status.c12_panics_iff` | propext, Classical.choice, Quot.sound |
| C12 | `Verif.Status.c12_example` | propext |
| C12 | `Verif.Status.c12_progress_can_go_back` | propext |
| C12 | `Verif.Status.c12_failed_without_reason` | propext |
| C13 | `Verif.Status.c13_older_cancelled` | propext, Classical.choice, Quot.sound |
| C13 | `Verif.Status.c13_current_run` | propext |
| C13 | `Verif.Status.c13_cancel_named` | propext, Classical.choice, Quot.sound |
| C13 | `Verif.Status.c13_cancel_current` | propext, Classical.choice, Quot.sound |
| C13 | `Verif.Status.c13_begin` | propext, Classical.choice, Quot.sound |
| C13 | `Verif.Status.c13_cancelled_stays` | propext, Classical.choice, Quot.sound |
| C14 | `Verif.SymbolStore.c14_index_reflects_latest` | propext, Classical.choice, Quot.sound |
| C14 | `Verif.SymbolStore.c14_other_files_unchanged` | propext, Classical.choice, Quot.sound |
| C14 | `Verif.SymbolStore.c14_independent_of_file_order` | propext, Classical.choice, Quot.sound |
| C14 | `Verif.SymbolStore.c14_foreign_fact_panics` | propext |
| C14 | `Verif.SymbolStore.c14_example` | propext |
| C15 | `Verif.MethodStore.c15_index_reflects_latest` | propext, Classical.choice, Quot.sound |
| C15 | `Verif.MethodStore.c15_effective_method` | propext, Classical.choice, Quot.sound |
| C15 | `Verif.MethodStore.c15_method_names` | propext, Classical.choice, Quot.sound |
| C15 | `Verif.MethodStore.c15_example` | propext |
| C16 | `Verif.GraphStore.c16_resolution_spec` | propext, Classical.choice, Quot.sound |
| C16 | `Verif.GraphStore.c16_independent_of_history` | propext, Classical.choice, Quot.sound |
| C16 | `Verif.GraphStore.c16_example` | propext |
| C17 | `Verif.GraphStore.c17_graph_reflects_latest` | propext, Classical.choice, Quot.sound |
| C17 | `Verif.GraphStore.c17_foreign_edge_panics` | propext |
| C17 | `Verif.GraphStore.c17_example` | propext |
| C18 | `Verif.ReferenceStore.c18_references_reflect_latest` | propext, Classical.choice, Quot.sound |
| C18 | `Verif.ReferenceStore.c18_other_files_unchanged` | propext, Classical.choice, Quot.sound |
| C18 | `Verif.ReferenceStore.c18_foreign_fact_panics` | propext |
| C18 | `Verif.ReferenceStore.c18_unsorted_repeats` | propext, Classical.choice, Quot.sound |
| C18 | `Verif.ReferenceStore.c18_example` | propext |
| C18 | `Verif.ReferenceStore.c18_candidates_reflect_latest` | propext, Classical.choice, Quot.sound |
| C19 | `Verif.SymbolStore.c19_place_eq_full_sort` | propext, Classical.choice, Quot.sound |
| C19 | `Verif.SymbolStore.c19_place_ordered` | propext, Classical.choice, Quot.sound |
| C19 | `Verif.SymbolStore.c19_stale_file_panics` | propext, Classical.choice, Quot.sound |
| C19 | `Verif.SymbolStore.c19_example` | propext |
| C20 | `Verif.TypeStore.c20_type_at_spec` | propext, Classical.choice, Quot.sound |
| C20 | `Verif.TypeStore.c20_ambiguous_distinct` | propext, Quot.sound |
| C20 | `Verif.TypeStore.c20_facts_reflect_latest` | propext, Classical.choice, Quot.sound |
| C20 | `Verif.TypeStore.c20_named_type_before_spec` | propext, Classical.choice, Quot.sound |
| C20 | `Verif.TypeStore.c20_independent_of_history` | propext, Classical.choice, Quot.sound |
| C20 | `Verif.TypeStore.c20_foreign_expression_panics` | propext, Quot.sound |
| C20 | `Verif.TypeStore.c20_example` | propext |
| C20 | `Verif.TypeStore.c20_same_text_repeats` | propext, Quot.sound |
| C21 | `Verif.Types.c21_union_depends_on_alternatives` | propext, Classical.choice, Quot.sound |
| C21 | `Verif.Types.c21_union_order` | propext, Classical.choice, Quot.sound |
| C21 | `Verif.Types.c21_union_grouping` | propext, Classical.choice, Quot.sound |
| C21 | `Verif.Types.c21_unknown_iff` | propext, Classical.choice, Quot.sound |
| C21 | `Verif.Types.c21_alternatives` | propext, Classical.choice, Quot.sound |
| C21 | `Verif.Types.c21_two_levels_nest` | propext, Quot.sound |
| C21 | `Verif.Types.c21_join_own_member` | propext, Classical.choice, Quot.sound |
| C21 | `Verif.Types.c21_union_with_semilattice` | propext, Classical.choice, Quot.sound |
| C21 | `Verif.Types.c21_union_with_raw` | propext, Quot.sound |
| C21 | `Verif.Types.c21_optional` | propext, Classical.choice, Quot.sound |
| C21 | `Verif.Types.c21_union_from_proven` | propext, Quot.sound |
| C21 | `Verif.Types.c21_canonical_members` | propext, Classical.choice, Quot.sound |
| C21 | `Verif.Types.c21_subtract` | propext, Classical.choice, Quot.sound |
| C21 | `Verif.Types.c21_example` | propext, Classical.choice, Quot.sound |
| C22 | `Verif.Types.c22_literal_free` | propext, Classical.choice, Quot.sound |
| C22 | `Verif.Types.c22_idempotent` | propext, Classical.choice, Quot.sound |
| C22 | `Verif.Types.c22_canonical` | propext, Classical.choice, Quot.sound |
| C22 | `Verif.Types.c22_widening_total_partial` | propext, Classical.choice, Quot.sound |
| C22 | `Verif.Types.c22_empty_argument_panics` | propext, Classical.choice, Quot.sound |
| C22 | `Verif.Types.c22_example` | propext, Classical.choice, Quot.sound |
| C23 | `Verif.Types.c23_try_new` | propext, Classical.choice, Quot.sound |
| C23 | `Verif.Types.c23_well_formed` | propext, Classical.choice, Quot.sound |
| C23 | `Verif.Types.c23_depth_exact` | propext, Classical.choice, Quot.sound |
| C23 | `Verif.Types.c23_field_lookup` | propext, Classical.choice, Quot.sound |
| C23 | `Verif.Types.c23_example` | propext, Classical.choice, Quot.sound |
| C24 | `Verif.Owners.c24_valid_components` | propext, Classical.choice, Quot.sound |
| C24 | `Verif.Owners.c24_unambiguous` | propext, Classical.choice, Quot.sound |
| C24 | `Verif.Owners.c24_decode_encode` | propext, Classical.choice, Quot.sound |
| C24 | `Verif.Owners.c24_only_canonical` | propext, Classical.choice, Quot.sound |
| C24 | `Verif.Owners.c24_no_collision` | propext, Classical.choice, Quot.sound |
| C24 | `Verif.Owners.c24_display_injective` | propext, Classical.choice, Quot.sound |
| C24 | `Verif.Owners.c24_qualified_round_trip` | propext, Quot.sound |
| C24 | `Verif.Owners.c24_example` | propext, Classical.choice, Quot.sound |
| C25 | `Verif.Envelope.c25_accepted_iff` | propext, Classical.choice, Quot.sound |
| C25 | `Verif.Envelope.c25_round_trip` | propext, Classical.choice, Quot.sound |
| C25 | `Verif.Envelope.c25_publishable` | propext, Classical.choice, Quot.sound |
| C25 | `Verif.Envelope.c25_prefix_free` | propext, Classical.choice, Quot.sound |
| C25 | `Verif.Envelope.c25_torn_rejected` | propext, Classical.choice, Quot.sound |
| C25 | `Verif.Envelope.c25_header_determined` | propext, Classical.choice, Quot.sound |
| C25 | `Verif.Envelope.c25_kinds_apart` | propext, Classical.choice, Quot.sound |
| C25 | `Verif.Envelope.c25_example` | propext, Classical.choice, Quot.sound |
| C26 | `Verif.Envelope.c26_accepted_iff` | propext, Classical.choice, Quot.sound |
| C26 | `Verif.Envelope.c26_round_trip` | propext, Classical.choice, Quot.sound |
| C26 | `Verif.Envelope.c26_bound_to_key` | propext, Classical.choice, Quot.sound |
| C26 | `Verif.Envelope.c26_prefix_free` | propext, Classical.choice, Quot.sound |
| C26 | `Verif.Envelope.c26_key_identity` | propext, Classical.choice, Quot.sound |
| C26 | `Verif.Envelope.c26_example` | none |
| C27 | `Verif.CacheFs.c27_product_complete` | propext, Classical.choice, Quot.sound |
| C27 | `Verif.CacheFs.c27_lookup` | propext, Classical.choice, Quot.sound |
| C27 | `Verif.CacheFs.c27_only_published` | propext, Classical.choice, Quot.sound |
| C27 | `Verif.CacheFs.c27_before_or_after` | propext, Classical.choice, Quot.sound |
| C27 | `Verif.CacheFs.c27_temp_not_served` | propext, Classical.choice, Quot.sound |
| C27 | `Verif.CacheFs.c27_durable` | propext, Classical.choice, Quot.sound |
| C27 | `Verif.CacheFs.c27_example` | propext, Classical.choice, Quot.sound |
| C28 | `Verif.Dependency.c28_unambiguous` | propext, Quot.sound |
| C28 | `Verif.Dependency.c28_key_unambiguous` | propext, Quot.sound |
| C28 | `Verif.Dependency.c28_accepted_iff` | propext, Quot.sound |
| C28 | `Verif.Dependency.c28_order_independent` | propext, Quot.sound |
| C28 | `Verif.Dependency.c28_identity` | propext, Quot.sound |
| C28 | `Verif.Dependency.c28_path_inside` | propext, Quot.sound |
| C28 | `Verif.Dependency.c28_not_normalized` | propext |
| C28 | `Verif.Dependency.c28_example` | none |
| C29 | `Verif.Positions.c29_round_trip` | propext, Classical.choice, Quot.sound |
| C29 | `Verif.Positions.c29_position_to_offset` | propext, Classical.choice, Quot.sound |
| C29 | `Verif.Positions.c29_engine_agrees` | propext, Classical.choice, Quot.sound |
| C30 | `Verif.Positions.c30_false_at_unterminated_end` | propext, Classical.choice, Quot.sound |
| C30 | `Verif.Positions.c30_line_partial` | propext, Classical.choice, Quot.sound |
| C31 | `Verif.Erb.c31_never_panics` | propext, Classical.choice, Quot.sound |
| C31 | `Verif.Erb.c31_ranges` | propext, Classical.choice, Quot.sound |
| C31 | `Verif.Erb.c31_ordered` | propext, Classical.choice, Quot.sound |
| C31 | `Verif.Erb.c31_offsets_kept` | propext, Classical.choice, Quot.sound |
| C31 | `Verif.Erb.c31_ruby_verbatim` | propext, Classical.choice, Quot.sound |
| C31 | `Verif.Erb.c31_outside_blank` | propext, Classical.choice, Quot.sound |
| C31 | `Verif.Erb.c31_separated` | propext, Classical.choice, Quot.sound |
| C32 | `Verif.Solver.c32_total` | propext, Classical.choice, Quot.sound |
| C32 | `Verif.Solver.c32_proven` | propext, Classical.choice, Quot.sound |
| C32 | `Verif.Solver.c32_least` | propext, Classical.choice, Quot.sound |
| C32 | `Verif.Solver.c32_unknown` | propext, Classical.choice, Quot.sound |
| C32 | `Verif.Solver.c32_obstacle` | propext, Classical.choice, Quot.sound |
| C32 | `Verif.Solver.c32_order` | propext, Classical.choice, Quot.sound |
| C32 | `Verif.Solver.c32_example` | propext, Quot.sound |
| C32 | `Verif.Solver.c32_ring` | propext, Quot.sound |
| C32 | `Verif.Solver.c32_unknown_member_panics` | propext, Quot.sound |
| C33 | `Verif.Mro.c33_walk` | propext, Classical.choice, Quot.sound |
| C33 | `Verif.Mro.c33_walk_continues` | propext, Classical.choice, Quot.sound |
| C33 | `Verif.Mro.c33_prepends_first` | propext, Classical.choice, Quot.sound |
| C33 | `Verif.Mro.c33_order` | propext, Classical.choice, Quot.sound |
| C33 | `Verif.Mro.c33_later_include_first` | propext, Classical.choice, Quot.sound |
| C33 | `Verif.Mro.c33_later_prepend_first` | propext, Classical.choice, Quot.sound |
| C33 | `Verif.Mro.c33_chain` | propext, Classical.choice, Quot.sound |
| C33 | `Verif.Mro.c33_doubt` | propext, Classical.choice, Quot.sound |
| C33 | `Verif.Mro.c33_example` | propext, Quot.sound |
| C34 | `Verif.Constants.c34_innermost` | propext, Classical.choice, Quot.sound |
| C34 | `Verif.Constants.c34_none_iff` | propext, Classical.choice, Quot.sound |
| C34 | `Verif.Constants.c34_sound` | propext, Classical.choice, Quot.sound |
| C34 | `Verif.Constants.c34_absolute` | propext, Quot.sound |
| C35 | `Verif.EngineGraph.c35_runs` | propext, Classical.choice, Quot.sound |
| C35 | `Verif.EngineGraph.c35_links_partial` | propext, Classical.choice, Quot.sound |
| C35 | `Verif.EngineGraph.c35_one_resolution_partial` | propext, Classical.choice, Quot.sound |
| C35 | `Verif.EngineGraph.c35_same_links_partial` | propext, Classical.choice, Quot.sound |
| C35 | `Verif.EngineGraph.c35_idempotent` | propext, Classical.choice, Quot.sound |
| C35 | `Verif.EngineGraph.c35_example` | propext, Quot.sound |
| C35 | `Verif.EngineGraph.c35_nearer_definition` | propext, Quot.sound |
| C35 | `Verif.EngineGraph.c35_removed_definition` | propext, Quot.sound |
| C36 | `Verif.Sources.c36_commit_iff_unchanged` | propext, Classical.choice, Quot.sound |
| C36 | `Verif.Sources.c36_conditional_registration` | propext, Classical.choice, Quot.sound |
| C36 | `Verif.Sources.c36_registration_if_absent` | propext, Classical.choice, Quot.sound |
| C36 | `Verif.Sources.c36_registration_is_current` | propext, Classical.choice, Quot.sound |
| C36 | `Verif.Sources.c36_same_record_same_content` | propext |
| C36 | `Verif.Sources.c36_ids_stable_and_distinct` | propext, Classical.choice, Quot.sound |
| C36 | `Verif.Sources.c36_clone_rejects_snapshots` | propext, Classical.choice, Quot.sound |
| C37 | `Verif.Jvm.c37_field` | propext, Classical.choice, Quot.sound |
| C37 | `Verif.Jvm.c37_method` | propext, Classical.choice, Quot.sound |
| C37 | `Verif.Jvm.c37_no_panic` | propext, Classical.choice, Quot.sound |
| C37 | `Verif.Jvm.c37_names_valid` | propext, Classical.choice, Quot.sound |
| C37 | `Verif.Jvm.c37_print_injective` | propext, Classical.choice, Quot.sound |
| C38 | `Verif.Implementors.c38_sound` | propext, Classical.choice, Quot.sound |
| C38 | `Verif.Implementors.c38_exact_partial` | propext, Classical.choice, Quot.sound |
| C38 | `Verif.Implementors.c38_descendants` | propext, Classical.choice, Quot.sound |
| C38 | `Verif.Implementors.c38_module_includers` | propext, Classical.choice, Quot.sound |
| C38 | `Verif.Implementors.c38_mixed_in_class_missed` | propext, Quot.sound |
| C38 | `Verif.Implementors.c38_example` | propext, Quot.sound |
| C38 | `Verif.Implementors.c38_includers_example` | propext, Quot.sound |
| C39 | `Verif.Selection.c39_one_chain_per_cursor` | propext, Classical.choice, Quot.sound |
| C39 | `Verif.Selection.c39_strictly_expanding` | propext, Classical.choice, Quot.sound |
| C39 | `Verif.Selection.c39_covers_cursor` | propext, Classical.choice, Quot.sound |
| C39 | `Verif.Selection.c39_no_level_skipped` | propext, Classical.choice, Quot.sound |
| C40 | `Verif.VarScopes.c40_lookup` | propext, Classical.choice, Quot.sound |
| C40 | `Verif.VarScopes.c40_unique` | propext, Classical.choice, Quot.sound |
| C40 | `Verif.VarScopes.c40_places` | propext, Classical.choice, Quot.sound |
| C40 | `Verif.VarScopes.c40_assignment_kept` | propext, Classical.choice, Quot.sound |
| C40 | `Verif.VarScopes.c40_visible` | propext, Classical.choice, Quot.sound |
| C40 | `Verif.VarScopes.c40_reported` | propext, Classical.choice, Quot.sound |
| C40 | `Verif.VarScopes.c40_boundary` | propext |
| C40 | `Verif.VarScopes.c40_type_added` | propext, Classical.choice, Quot.sound |
| C40 | `Verif.VarScopes.c40_owner` | propext, Classical.choice, Quot.sound |
| C40 | `Verif.VarScopes.c40_references_partial` | propext, Classical.choice, Quot.sound |
| C40 | `Verif.VarScopes.c40_type` | propext, Classical.choice, Quot.sound |
| C40 | `Verif.VarScopes.c40_scope_at` | propext, Classical.choice, Quot.sound |
| C40 | `Verif.VarScopes.c40_innermost` | propext, Classical.choice, Quot.sound |
| C40 | `Verif.VarScopes.c40_example` | propext |
| C40 | `Verif.VarScopes.c40_shadowed_outer_reported` | propext |
| C40 | `Verif.VarScopes.c40_block_assignment_missed` | propext |
| C41 | `Verif.NavKey.c41_accepted_iff` | propext, Quot.sound |
| C41 | `Verif.NavKey.c41_dotted_i_panics` | propext |
| C41 | `Verif.NavKey.c41_empty_key_rejected` | propext, Classical.choice, Quot.sound |
| C41 | `Verif.NavKey.c41_separators_ignored` | none |
| C42 | `Verif.Workspace.c42_panics_iff` | propext, Classical.choice, Quot.sound |
| C42 | `Verif.Workspace.c42_serial_never_panics` | propext, Classical.choice, Quot.sound |
| C42 | `Verif.Workspace.c42_overlap_panics` | propext |
| C42 | `Verif.Workspace.c42_cancel_misses_controller` | propext |
| C43 | `Verif.Types.c43_widening_sound` | propext, Classical.choice, Quot.sound |
| C43 | `Verif.Types.c43_generic_hash_sound` | propext, Classical.choice, Quot.sound |
| C43 | `Verif.Types.c43_sound_partial` | propext, Classical.choice, Quot.sound |
| C43 | `Verif.Types.c43_ends` | propext, Classical.choice, Quot.sound |
| C43 | `Verif.Types.c43_reflexive` | propext, Classical.choice, Quot.sound |
| C43 | `Verif.Types.c43_exact_optional_unsound` | propext, Classical.choice, Quot.sound |
| C43 | `Verif.Types.c43_rest_key_unsound` | propext, Classical.choice, Quot.sound |
| C43 | `Verif.Types.c43_stability_ignored` | propext, Classical.choice, Quot.sound |
| C43 | `Verif.Types.c43_example` | propext, Classical.choice, Quot.sound |
| C44 | `Verif.CacheLocks.c44_one_owner` | propext, Classical.choice, Quot.sound |
| C44 | `Verif.CacheLocks.c44_one_reservation` | propext, Classical.choice, Quot.sound |
| C44 | `Verif.CacheLocks.c44_no_maintenance` | propext, Classical.choice, Quot.sound |
| C44 | `Verif.CacheLocks.c44_one_maintainer` | propext, Classical.choice, Quot.sound |
| C44 | `Verif.CacheLocks.c44_no_valid_product` | propext, Classical.choice, Quot.sound |
| C44 | `Verif.CacheLocks.c44_removes_only_corrupt` | propext, Classical.choice, Quot.sound |
| C44 | `Verif.CacheLocks.c44_lock_file_current` | propext, Classical.choice, Quot.sound |
| C44 | `Verif.CacheLocks.c44_produced_once` | propext, Classical.choice, Quot.sound |
| C44 | `Verif.CacheLocks.c44_valid_kept` | propext, Classical.choice, Quot.sound |
| C44 | `Verif.CacheLocks.c44_no_deadlock` | propext, Classical.choice, Quot.sound |
| C44 | `Verif.CacheLocks.c44_invalidate_never_blocked` | propext, Classical.choice, Quot.sound |
| C44 | `Verif.CacheLocks.c44_example` | propext |
| C45 | `Verif.Dependency.c45_product_iff` | propext, Classical.choice, Quot.sound |
| C45 | `Verif.Dependency.c45_restore` | propext, Classical.choice, Quot.sound |
| C45 | `Verif.Dependency.c45_restore_sound` | propext, Classical.choice, Quot.sound |
| C45 | `Verif.Dependency.c45_all_or_nothing` | propext, Classical.choice, Quot.sound |
| C45 | `Verif.Dependency.c45_bind_succeeds` | propext, Classical.choice, Quot.sound |
| C45 | `Verif.Dependency.c45_example` | none |
| C46 | `Verif.EngineGraph.c46_fresh_partial` | propext, Classical.choice, Quot.sound |
| C46 | `Verif.EngineGraph.c46_stale` | propext, Quot.sound |
| C47 | `Verif.Rename.c47_rename_partial` | propext, Quot.sound |
| C47 | `Verif.Rename.c47_example` | propext |
| C47 | `Verif.Rename.c47_superclass_missed` | propext |
| C47 | `Verif.Rename.c47_keyword_missed` | propext |
| C48 | `Verif.ControlFlow.c48_diverges_partial` | propext, Classical.choice, Quot.sound |
| C48 | `Verif.ControlFlow.c48_unreachable_partial` | propext, Classical.choice, Quot.sound |
| C48 | `Verif.ControlFlow.c48_exit_set_partial` | propext, Classical.choice, Quot.sound |
| C48 | `Verif.ControlFlow.c48_exits_method_partial` | propext, Classical.choice, Quot.sound |
| C48 | `Verif.ControlFlow.c48_blocks_partial` | propext, Classical.choice, Quot.sound |
| C48 | `Verif.ControlFlow.c48_example` | propext |
| C48 | `Verif.ControlFlow.c48_exit_example` | propext |
| C48 | `Verif.ControlFlow.c48_stop_iteration` | propext |
| C48 | `Verif.ControlFlow.c48_own_method` | propext |
| C48 | `Verif.ControlFlow.c48_earlier_exit` | propext |
| C48 | `Verif.ControlFlow.c48_loop_return` | propext |
| C48 | `Verif.ControlFlow.c48_nested_return` | propext |
| C49 | `Verif.Arity.c49_no_panic` | propext, Quot.sound |
| C49 | `Verif.Arity.c49_wrong_arity_partial` | propext, Classical.choice, Quot.sound |
| C49 | `Verif.Arity.c49_wrong_arity_ruby2_partial` | propext, Classical.choice, Quot.sound |
| C49 | `Verif.Arity.c49_unknown_keyword` | propext, Classical.choice, Quot.sound |
| C49 | `Verif.Arity.c49_missing_keyword_partial` | propext, Classical.choice, Quot.sound |
| C49 | `Verif.Arity.c49_complete` | propext, Classical.choice, Quot.sound |
| C49 | `Verif.Arity.c49_example` | propext |
| C49 | `Verif.Arity.c49_destructuring` | propext, Quot.sound |
| C49 | `Verif.Arity.c49_computed_key` | propext |
| C49 | `Verif.Arity.c49_ruby2_keywords` | propext, Quot.sound |
| C50 | `Verif.Suggest.c50_distance` | propext, Quot.sound |
| C50 | `Verif.Suggest.c50_closest` | propext, Quot.sound |
| C50 | `Verif.Suggest.c50_none` | propext, Quot.sound |
| C50 | `Verif.Suggest.c50_method_partial` | propext, Classical.choice, Quot.sound |
| C50 | `Verif.Suggest.c50_example` | propext, Classical.choice, Quot.sound |
| C50 | `Verif.Suggest.c50_wide_character_missed` | propext, Quot.sound |
| C51 | `Verif.SemanticTokens.c51_client_sees_tokens` | propext, Classical.choice, Quot.sound |
| C51 | `Verif.SemanticTokens.c51_panics_iff_out_of_order` | propext, Classical.choice, Quot.sound |
| C51 | `Verif.SemanticTokens.c51_release_right_iff_in_order` | propext, Classical.choice, Quot.sound |
| C51 | `Verif.SemanticTokens.c51_client_sees_written_code` | propext, Classical.choice, Quot.sound |
| C51 | `Verif.SemanticTokens.c51_negation_fails` | propext, Classical.choice, Quot.sound |
| C51 | `Verif.SemanticTokens.c51_while_modifier_fails` | propext, Classical.choice, Quot.sound |
| C51 | `Verif.SemanticTokens.c51_named_capture_fails` | propext, Classical.choice, Quot.sound |
| C51 | `Verif.SemanticTokens.c51_heredoc_fails` | propext, Classical.choice, Quot.sound |
| C52 | `Verif.FlowTypes.c52_variables_and_value` | propext, Classical.choice, Quot.sound |
| C52 | `Verif.FlowTypes.c52_method_type` | propext, Classical.choice, Quot.sound |
| C52 | `Verif.FlowTypes.c52_method_without_type_never_returns` | propext, Classical.choice, Quot.sound |
| C52 | `Verif.FlowTypes.c52_read_type` | propext, Classical.choice, Quot.sound |
| C52 | `Verif.FlowTypes.c52_variables_in_rescue` | propext, Classical.choice, Quot.sound |
| C52 | `Verif.FlowTypes.c52_exchange_in_loop_fails` | propext, Classical.choice, Quot.sound |
| C52 | `Verif.FlowTypes.c52_read_in_loop_fails` | propext, Classical.choice, Quot.sound |
| C52 | `Verif.FlowTypes.c52_value_of_loop_fails` | propext, Classical.choice, Quot.sound |
| C52 | `Verif.FlowTypes.c52_break_fails` | propext, Classical.choice, Quot.sound |
| C52 | `Verif.FlowTypes.c52_loop_condition_fails` | propext, Classical.choice, Quot.sound |
| C52 | `Verif.FlowTypes.c52_untyped_parameter_fails` | propext, Classical.choice, Quot.sound |
| C52 | `Verif.FlowTypes.c52_operator_assignment_fails` | propext, Classical.choice, Quot.sound |
| C52 | `Verif.FlowTypes.c52_assignment_in_argument_fails` | propext, Classical.choice, Quot.sound |
| C52 | `Verif.FlowTypes.c52_narrowing_after_assignment_fails` | propext, Classical.choice, Quot.sound |
| C52 | `Verif.FlowTypes.c52_instance_of_fails` | propext, Classical.choice, Quot.sound |
| C52 | `Verif.FlowTypes.c52_narrowing_before_rescue_fails` | propext, Classical.choice, Quot.sound |
| C52 | `Verif.FlowTypes.c52_read_in_ensure_fails` | propext, Classical.choice, Quot.sound |
| C52 | `Verif.FlowTypes.c52_truthiness_of_object_fails` | propext, Classical.choice, Quot.sound |
| C53 | `Verif.FlowShapes.c53_safe_code_completes` | propext, Classical.choice, Quot.sound |
| C53 | `Verif.FlowShapes.c53_plain_code_completes` | propext, Classical.choice, Quot.sound |
| C53 | `Verif.FlowShapes.c53_array_literal_panics_iff` | propext, Classical.choice, Quot.sound |
| C53 | `Verif.FlowShapes.c53_narrowed_array_panics` | propext, Classical.choice, Quot.sound |
| C53 | `Verif.FlowShapes.c53_invalidation` | propext, Classical.choice, Quot.sound |
| C53 | `Verif.FlowShapes.c53_few_aliases` | propext, Classical.choice, Quot.sound |
| C53 | `Verif.FlowShapes.c53_narrowed_array_fails` | propext, Classical.choice, Quot.sound |
| C53 | `Verif.FlowShapes.c53_large_hash_in_array_fails` | propext, Classical.choice, Quot.sound |
| C54 | `Verif.FlowShapes.c54_aliases_agree` | propext, Classical.choice, Quot.sound |
| C54 | `Verif.FlowShapes.c54_same_hashes_same_shapes` | propext, Classical.choice, Quot.sound |
| C54 | `Verif.FlowShapes.c54_write_reaches_aliases` | propext, Classical.choice, Quot.sound |
| C54 | `Verif.FlowShapes.c54_change_reaches_aliases` | propext, Classical.choice, Quot.sound |
| C54 | `Verif.FlowShapes.c54_shapes_belong_to_hashes` | propext, Classical.choice, Quot.sound |
| C54 | `Verif.FlowShapes.c54_join_covers` | propext, Classical.choice, Quot.sound |
| C54 | `Verif.FlowShapes.c54_write_to_either_fails` | propext, Classical.choice, Quot.sound |
| C54 | `Verif.FlowShapes.c54_write_stops_fails` | propext, Classical.choice, Quot.sound |
| C54 | `Verif.FlowShapes.c54_agreement_fails` | propext, Classical.choice, Quot.sound |
| C54 | `Verif.FlowShapes.c54_guard_of_another_fails` | propext, Classical.choice, Quot.sound |
| C54 | `Verif.FlowShapes.c54_join_of_mixed_fails` | propext, Classical.choice, Quot.sound |
| C54 | `Verif.FlowShapes.c54_write_to_mixed_fails` | propext, Classical.choice, Quot.sound |
| C54 | `Verif.FlowShapes.c54_write_under_guard_fails` | propext, Classical.choice, Quot.sound |
| C54 | `Verif.FlowShapes.c54_escape_in_generic_fails` | propext, Classical.choice, Quot.sound |
| C55 | `Verif.FlowShapes.c55_types_describe_values` | propext, Classical.choice, Quot.sound |
| C55 | `Verif.FlowShapes.c55_unset_is_nil` | propext, Classical.choice, Quot.sound |
| C55 | `Verif.FlowShapes.c55_shapes_are_hashes` | propext, Classical.choice, Quot.sound |
| C55 | `Verif.FlowShapes.c55_fields_are_there` | propext, Classical.choice, Quot.sound |
| C55 | `Verif.FlowShapes.c55_flat_code_completes` | propext, Classical.choice, Quot.sound |
| C55 | `Verif.FlowShapes.c55_write_to_either_fails` | propext, Classical.choice, Quot.sound |
| C56 | `Verif.Visibility.c56_index_completes` | propext, Classical.choice, Quot.sound |
| C56 | `Verif.Visibility.c56_bodies_do_not_leak` | propext, Classical.choice, Quot.sound |
| C56 | `Verif.Visibility.c56_definitions_are_recorded` | propext, Classical.choice, Quot.sound |
| C56 | `Verif.Visibility.c56_changes_are_recorded` | propext, Classical.choice, Quot.sound |
| C56 | `Verif.Visibility.c56_visibility_is_rubys` | propext, Classical.choice, Quot.sound |
| C56 | `Verif.Visibility.c56_private_def_fails` | propext |
| C56 | `Verif.Visibility.c56_self_method_in_private_section_fails` | propext |
| C56 | `Verif.Visibility.c56_constructor_in_private_section_fails` | propext |
| C56 | `Verif.Visibility.c56_top_level_def_fails` | propext |
| C56 | `Verif.Visibility.c56_module_function_fails` | propext |
| C56 | `Verif.Visibility.c56_absolute_path_fails` | propext |
| C56 | `Verif.Visibility.c56_def_on_another_constant` | propext |
| C57 | `Verif.MethodLookup.c57_self_call_runs` | propext, Classical.choice, Quot.sound |
| C57 | `Verif.MethodLookup.c57_call_runs` | propext, Classical.choice, Quot.sound |
| C57 | `Verif.MethodLookup.c57_self_callee_is_run` | propext, Classical.choice, Quot.sound |
| C57 | `Verif.MethodLookup.c57_callee_is_run` | propext, Classical.choice, Quot.sound |
| C57 | `Verif.MethodLookup.c57_rejected_call` | propext, Classical.choice, Quot.sound |
| C57 | `Verif.MethodLookup.c57_missing_call` | propext, Classical.choice, Quot.sound |
| C57 | `Verif.MethodLookup.c57_method_missing_of_other_classes` | propext, Quot.sound |
| C57 | `Verif.MethodLookup.c57_includers_are_searched` | propext, Classical.choice, Quot.sound |
| C57 | `Verif.MethodLookup.c57_applications_are_searched` | propext, Classical.choice, Quot.sound |
| C57 | `Verif.MethodLookup.c57_super` | propext, Classical.choice, Quot.sound |
| C57 | `Verif.MethodLookup.c57_hidden_private_fails` | propext |
| C57 | `Verif.MethodLookup.c57_redefinition_fails` | propext |
| C57 | `Verif.MethodLookup.c57_idle_change_fails` | propext |
| C57 | `Verif.MethodLookup.c57_rejected_call_with_method_missing_fails` | propext |
| C58 | `Verif.ClassFile.c58_exact` | propext, Classical.choice, Quot.sound |
| C58 | `Verif.ClassFile.c58_limits_monotone` | propext, Classical.choice, Quot.sound |
| C58 | `Verif.ClassFile.c58_no_prefix` | propext, Classical.choice, Quot.sound |
| C58 | `Verif.ClassFile.c58_truncated_and_extended` | propext, Classical.choice, Quot.sound |
| C58 | `Verif.ClassFile.c58_strings` | propext, Classical.choice, Quot.sound |
| C58 | `Verif.ClassFile.c58_strings_injective` | propext, Classical.choice, Quot.sound |
| C58 | `Verif.ClassFile.c58_parameters` | propext, Classical.choice, Quot.sound |
| C58 | `Verif.ClassFile.c58_parameter_names` | propext, Classical.choice, Quot.sound |
| C58 | `Verif.ClassFile.c58_within_limits` | propext, Classical.choice, Quot.sound |
| C58 | `Verif.ClassFile.c58_fuel` | propext, Classical.choice, Quot.sound |
| C58 | `Verif.ClassFile.c58_kind` | propext, Quot.sound |
| C58 | `Verif.ClassFile.c58_array_nesting_fails` | propext, Classical.choice, Quot.sound |
| C58 | `Verif.ClassFile.c58_array_nesting_in_attributes_fails` | propext, Classical.choice, Quot.sound |
| C58 | `Verif.ClassFile.c58_two_tables_fails` | propext, Classical.choice, Quot.sound |
| C58 | `Verif.ClassFile.c58_empty_record_fails` | propext, Classical.choice, Quot.sound |
| C59 | `Verif.Archive.c59_directory` | propext, Classical.choice, Quot.sound |
| C59 | `Verif.Archive.c59_exact` | propext, Classical.choice, Quot.sound |
| C59 | `Verif.Archive.c59_unique` | propext, Classical.choice, Quot.sound |
| C59 | `Verif.Archive.c59_order` | propext, Classical.choice, Quot.sound |
| C59 | `Verif.Archive.c59_release` | propext, Classical.choice, Quot.sound |
| C59 | `Verif.Archive.c59_safe` | propext, Classical.choice, Quot.sound |
| C59 | `Verif.Archive.c59_malformed` | propext, Classical.choice, Quot.sound |
| C59 | `Verif.Archive.c59_one_bad_class` | propext, Classical.choice, Quot.sound |
| C59 | `Verif.Archive.c59_release_names_fails` | propext, Classical.choice, Quot.sound |
| C59 | `Verif.Archive.c59_manifest_sections_fails` | propext, Classical.choice, Quot.sound |
| C59 | `Verif.Archive.c59_ignored_entries_fails` | propext, Classical.choice, Quot.sound |
| C59 | `Verif.Archive.c59_prepended_fails` | propext, Classical.choice, Quot.sound |
| C59 | `Verif.Archive.c59_comment_fails` | propext, Classical.choice, Quot.sound |
| C60 | `Verif.Yard.c60_fuel` | propext, Quot.sound |
| C60 | `Verif.Yard.c60_exact` | propext, Classical.choice, Quot.sound |
| C60 | `Verif.Yard.c60_split` | propext, Quot.sound |
| C60 | `Verif.Yard.c60_tag` | propext, Classical.choice, Quot.sound |
| C60 | `Verif.Yard.c60_union` | propext, Classical.choice, Quot.sound |
| C60 | `Verif.Yard.c60_nested` | propext, Classical.choice, Quot.sound |
| C60 | `Verif.Yard.c60_covers` | propext, Classical.choice, Quot.sound |
| C60 | `Verif.Yard.c60_root` | propext, Quot.sound |
| C60 | `Verif.Yard.c60_reported` | propext, Quot.sound |
| C60 | `Verif.Yard.c60_none` | propext, Quot.sound |
| C60 | `Verif.Yard.c60_names` | propext, Quot.sound |
| C60 | `Verif.Yard.c60_comma_fails` | propext, Classical.choice, Quot.sound |
| C60 | `Verif.Yard.c60_wrong_fails` | propext, Classical.choice, Quot.sound |
| C60 | `Verif.Yard.c60_values_fails` | propext, Classical.choice, Quot.sound |
| C60 | `Verif.Yard.c60_nested_fails` | propext, Classical.choice, Quot.sound |
| C60 | `Verif.Yard.c60_void_fails` | propext, Classical.choice, Quot.sound |
| C60 | `Verif.Yard.c60_case_fails` | propext, Classical.choice, Quot.sound |
| C61 | `Verif.Yard.c61_block` | propext, Classical.choice, Quot.sound |
| C61 | `Verif.Yard.c61_tag` | propext, Classical.choice, Quot.sound |
| C61 | `Verif.Yard.c61_doc` | propext, Classical.choice, Quot.sound |
| C61 | `Verif.Yard.c61_source` | propext, Classical.choice, Quot.sound |
| C61 | `Verif.Yard.c61_columns` | propext, Quot.sound |
| C61 | `Verif.Yard.c61_at` | propext, Classical.choice, Quot.sound |
| C61 | `Verif.Yard.c61_outside` | propext, Quot.sound |
| C61 | `Verif.Yard.c61_anywhere_fails` | propext, Classical.choice, Quot.sound |
| C61 | `Verif.Yard.c61_yield_fails` | propext, Classical.choice, Quot.sound |
| C61 | `Verif.Yard.c61_modifier_fails` | propext, Classical.choice, Quot.sound |
| C61 | `Verif.Yard.c61_blank_fails` | propext, Classical.choice, Quot.sound |
| C61 | `Verif.Yard.c61_bytes_fails` | propext, Classical.choice, Quot.sound |
| C61 | `Verif.Yard.c61_braces_fails` | propext, Classical.choice, Quot.sound |
| C62 | `Verif.MethodReference.c62_cache` | propext, Classical.choice, Quot.sound |
| C62 | `Verif.MethodReference.c62_pass` | propext, Classical.choice, Quot.sound |
| C62 | `Verif.MethodReference.c62_receiver_in_chain` | propext, Classical.choice, Quot.sound |
| C62 | `Verif.MethodReference.c62_refers` | propext, Classical.choice, Quot.sound |
| C62 | `Verif.MethodReference.c62_no_panic` | propext, Classical.choice, Quot.sound |
| C62 | `Verif.MethodReference.c62_ends` | propext, Classical.choice, Quot.sound |
| C62 | `Verif.MethodReference.c62_fuel` | propext, Classical.choice, Quot.sound |
| C62 | `Verif.MethodReference.c62_barrier` | propext, Classical.choice, Quot.sound |
| C62 | `Verif.MethodReference.c62_core` | propext, Classical.choice, Quot.sound |
| C62 | `Verif.MethodReference.c62_found` | propext, Classical.choice, Quot.sound |
| C62 | `Verif.MethodReference.c62_cycle_fails` | propext, Classical.choice, Quot.sound |
| C62 | `Verif.MethodReference.c62_includer_first_fails` | propext, Quot.sound |
| C62 | `Verif.MethodReference.c62_reopened_fails` | propext, Quot.sound |
| C62 | `Verif.MethodReference.c62_handler_order_fails` | propext, Quot.sound |
| C63 | `Verif.Snapshot.c63_accepted_iff` | propext, Classical.choice, Quot.sound |
| C63 | `Verif.Snapshot.c63_foreign` | propext, Classical.choice, Quot.sound |
| C63 | `Verif.Snapshot.c63_instantiate` | propext, Classical.choice, Quot.sound |
| C63 | `Verif.Snapshot.c63_check_iff` | propext, Classical.choice, Quot.sound |
| C63 | `Verif.Snapshot.c63_saved_iff` | propext, Classical.choice, Quot.sound |
| C63 | `Verif.Snapshot.c63_round_trip` | propext, Classical.choice, Quot.sound |
| C63 | `Verif.Snapshot.c63_same_facts` | propext, Classical.choice, Quot.sound |
| C63 | `Verif.Snapshot.c63_any_snapshot` | propext, Classical.choice, Quot.sound |
| C63 | `Verif.Snapshot.c63_stable` | propext, Classical.choice, Quot.sound |
| C63 | `Verif.Snapshot.c63_panic` | propext, Classical.choice, Quot.sound |
| C63 | `Verif.Snapshot.c63_saved_no_panic` | propext, Classical.choice, Quot.sound |
| C63 | `Verif.Snapshot.c63_saved_comes_back_fails` | propext, Classical.choice, Quot.sound |
| C63 | `Verif.Snapshot.c63_no_generated_owner_fails` | propext, Classical.choice, Quot.sound |
| C63 | `Verif.Snapshot.c63_no_generated_owner_in_body_fails` | propext, Classical.choice, Quot.sound |
| C63 | `Verif.Snapshot.c63_no_panic_fails` | propext, Classical.choice, Quot.sound |
| C64 | `Verif.HigherOrder.c64_block_input` | propext, Classical.choice, Quot.sound |
| C64 | `Verif.HigherOrder.c64_exact` | propext, Classical.choice, Quot.sound |
| C64 | `Verif.HigherOrder.c64_proven` | propext, Classical.choice, Quot.sound |
| C64 | `Verif.HigherOrder.c64_self` | propext, Classical.choice, Quot.sound |
| C64 | `Verif.HigherOrder.c64_positional` | propext, Classical.choice, Quot.sound |
| C64 | `Verif.HigherOrder.c64_sound` | propext, Classical.choice, Quot.sound |
| C64 | `Verif.HigherOrder.c64_sound_disjoint` | propext, Classical.choice, Quot.sound |
| C64 | `Verif.HigherOrder.c64_subtype_honest` | propext, Classical.choice, Quot.sound |
| C64 | `Verif.HigherOrder.c64_wide_iff` | propext, Quot.sound |
| C64 | `Verif.HigherOrder.c64_valid_iff` | propext, Classical.choice, Quot.sound |
| C64 | `Verif.HigherOrder.c64_refused` | propext, Classical.choice, Quot.sound |
| C64 | `Verif.HigherOrder.c64_count_iff` | propext, Classical.choice, Quot.sound |
| C64 | `Verif.HigherOrder.c64_map` | propext, Classical.choice, Quot.sound |
| C64 | `Verif.HigherOrder.c64_block_again_fails` | propext, Classical.choice, Quot.sound |
| C64 | `Verif.HigherOrder.c64_block_never_called_fails` | propext, Classical.choice, Quot.sound |
| C64 | `Verif.HigherOrder.c64_trailing_parameter_fails` | propext, Classical.choice, Quot.sound |
| C64 | `Verif.HigherOrder.c64_wider_argument_fails` | propext, Classical.choice, Quot.sound |
| C64 | `Verif.HigherOrder.c64_array_in_union_fails` | propext, Classical.choice, Quot.sound |
| C64 | `Verif.HigherOrder.c64_example` | propext, Classical.choice, Quot.sound |
| C65 | `Verif.ShapeReads.c65_index` | propext, Classical.choice, Quot.sound |
| C65 | `Verif.ShapeReads.c65_fetch` | propext, Classical.choice, Quot.sound |
| C65 | `Verif.ShapeReads.c65_fetch_default` | propext, Classical.choice, Quot.sound |
| C65 | `Verif.ShapeReads.c65_dig` | propext, Classical.choice, Quot.sound |
| C65 | `Verif.ShapeReads.c65_keys` | propext, Classical.choice, Quot.sound |
| C65 | `Verif.ShapeReads.c65_values` | propext, Classical.choice, Quot.sound |
| C65 | `Verif.ShapeReads.c65_key` | propext, Classical.choice, Quot.sound |
| C65 | `Verif.ShapeReads.c65_no_panic` | propext, Classical.choice, Quot.sound |
| C65 | `Verif.ShapeReads.c65_key_exact` | propext, Classical.choice, Quot.sound |
| C65 | `Verif.ShapeReads.c65_index_precise` | propext, Classical.choice, Quot.sound |
| C65 | `Verif.ShapeReads.c65_fetch_precise` | propext, Classical.choice, Quot.sound |
| C65 | `Verif.ShapeReads.c65_example` | propext, Classical.choice, Quot.sound |
| C65 | `Verif.ShapeReads.c65_example_value` | propext, Classical.choice, Quot.sound |
| C65 | `Verif.ShapeReads.c65_rest_key_fails` | propext, Classical.choice, Quot.sound |
| C66 | `Verif.CallableBody.c66_sound` | propext, Classical.choice, Quot.sound |
| C66 | `Verif.CallableBody.c66_params` | propext, Classical.choice, Quot.sound |
| C66 | `Verif.CallableBody.c66_limits` | propext, Classical.choice, Quot.sound |
| C66 | `Verif.CallableBody.c66_answer_limits` | propext, Classical.choice, Quot.sound |
| C66 | `Verif.CallableBody.c66_example` | propext, Classical.choice, Quot.sound |
| C66 | `Verif.CallableBody.c66_example_refused` | propext, Classical.choice, Quot.sound |
| C66 | `Verif.CallableBody.c66_example_value` | propext, Classical.choice, Quot.sound |
| C66 | `Verif.CallableBody.c66_proc_array_fails` | propext, Classical.choice, Quot.sound |
| C67 | `Verif.Lowering.c67_lowered` | propext, Classical.choice, Quot.sound |
| C67 | `Verif.Lowering.c67_sound` | propext, Classical.choice, Quot.sound |
| C67 | `Verif.Lowering.c67_valid` | propext, Classical.choice, Quot.sound |
| C67 | `Verif.Lowering.c67_captures` | propext, Classical.choice, Quot.sound |
| C67 | `Verif.Lowering.c67_example` | propext, Classical.choice, Quot.sound |
| C67 | `Verif.Lowering.c67_example_value` | propext, Classical.choice, Quot.sound |
| C67 | `Verif.Lowering.c67_early_return_fails` | propext, Classical.choice, Quot.sound |
| C67 | `Verif.Lowering.c67_early_next_fails` | propext, Classical.choice, Quot.sound |
| C67 | `Verif.Lowering.c67_condition_fails` | propext, Classical.choice, Quot.sound |
| C67 | `Verif.Lowering.c67_safe_navigation_fails` | propext, Classical.choice, Quot.sound |
| C67 | `Verif.Lowering.c67_block_local_fails` | propext, Classical.choice, Quot.sound |
| C67 | `Verif.Lowering.c67_dropped_branch_fails` | propext, Classical.choice, Quot.sound |
| C67 | `Verif.Lowering.c67_interpolation_fails` | propext, Classical.choice, Quot.sound |
| C67 | `Verif.Lowering.c67_default_fails` | propext, Classical.choice, Quot.sound |
| C68 | `Verif.RbsTypes.c68_sound` | propext, Classical.choice, Quot.sound |
| C68 | `Verif.RbsTypes.c68_exact` | propext, Classical.choice, Quot.sound |
| C68 | `Verif.RbsTypes.c68_bound_sound` | propext, Classical.choice, Quot.sound |
| C68 | `Verif.RbsTypes.c68_bound_exact` | propext, Classical.choice, Quot.sound |
| C68 | `Verif.RbsTypes.c68_name` | propext, Classical.choice, Quot.sound |
| C68 | `Verif.RbsTypes.c68_record` | propext, Classical.choice, Quot.sound |
| C68 | `Verif.RbsTypes.c68_parameters` | propext, Quot.sound |
| C68 | `Verif.RbsTypes.c68_index` | propext, Quot.sound |
| C68 | `Verif.RbsTypes.c68_return_partial` | propext, Classical.choice, Quot.sound |
| C68 | `Verif.RbsTypes.c68_declared` | propext, Classical.choice, Quot.sound |
| C68 | `Verif.RbsTypes.c68_readings` | propext, Classical.choice, Quot.sound |
| C68 | `Verif.RbsTypes.c68_example` | propext, Classical.choice, Quot.sound |
| C68 | `Verif.RbsTypes.c68_tuple_fails` | propext, Classical.choice, Quot.sound |
| C68 | `Verif.RbsTypes.c68_method_parameter_fails` | propext, Classical.choice, Quot.sound |
| C68 | `Verif.RbsTypes.c68_overload_fails` | propext, Classical.choice, Quot.sound |
| C68 | `Verif.RbsTypes.c68_several_elements_fails` | propext, Classical.choice, Quot.sound |
| C68 | `Verif.RbsTypes.c68_unbound_fails` | propext, Classical.choice, Quot.sound |
| C68 | `Verif.RbsTypes.c68_void_fails` | propext, Classical.choice, Quot.sound |
| C68 | `Verif.RbsTypes.c68_reopened_fails` | propext, Classical.choice, Quot.sound |
| C68 | `Verif.RbsTypes.c68_relative_fails` | propext, Classical.choice, Quot.sound |
| C69 | `Verif.MethodReturn.c69_sound_partial` | propext, Classical.choice, Quot.sound |
| C69 | `Verif.MethodReturn.c69_branches` | propext, Classical.choice, Quot.sound |
| C69 | `Verif.MethodReturn.c69_known` | propext, Classical.choice, Quot.sound |
| C69 | `Verif.MethodReturn.c69_no_panic` | propext, Classical.choice, Quot.sound |
| C69 | `Verif.MethodReturn.c69_union` | propext, Classical.choice, Quot.sound |
| C69 | `Verif.MethodReturn.c69_sources` | propext, Classical.choice, Quot.sound |
| C69 | `Verif.MethodReturn.c69_literal` | propext, Classical.choice, Quot.sound |
| C69 | `Verif.MethodReturn.c69_receiver` | propext, Classical.choice, Quot.sound |
| C69 | `Verif.MethodReturn.c69_shapes` | propext, Classical.choice, Quot.sound |
| C69 | `Verif.MethodReturn.c69_arguments` | propext, Classical.choice, Quot.sound |
| C69 | `Verif.MethodReturn.c69_access` | propext, Quot.sound |
| C69 | `Verif.MethodReturn.c69_example` | propext, Classical.choice, Quot.sound |
| C69 | `Verif.MethodReturn.c69_last_name_fails` | propext, Classical.choice, Quot.sound |
| C69 | `Verif.MethodReturn.c69_own_new_fails` | propext, Classical.choice, Quot.sound |
| C69 | `Verif.MethodReturn.c69_arrays_fails` | propext, Classical.choice, Quot.sound |
| C69 | `Verif.MethodReturn.c69_elements_fails` | propext, Classical.choice, Quot.sound |
| C69 | `Verif.MethodReturn.c69_name` | propext, Classical.choice, Quot.sound |
| C69 | `Verif.MethodReturn.c69_hypotheses` | propext, Classical.choice, Quot.sound |
| C70 | `Verif.RbsAncestors.c70_found` | propext, Classical.choice, Quot.sound |
| C70 | `Verif.RbsAncestors.c70_only` | propext, Classical.choice, Quot.sound |
| C70 | `Verif.RbsAncestors.c70_ruby` | propext, Classical.choice, Quot.sound |
| C70 | `Verif.RbsAncestors.c70_bindings` | propext, Classical.choice, Quot.sound |
| C70 | `Verif.RbsAncestors.c70_complete` | propext, Classical.choice, Quot.sound |
| C70 | `Verif.RbsAncestors.c70_once` | propext, Classical.choice, Quot.sound |
| C70 | `Verif.RbsAncestors.c70_listed` | propext, Classical.choice, Quot.sound |
| C70 | `Verif.RbsAncestors.c70_entry` | propext, Classical.choice, Quot.sound |
| C70 | `Verif.RbsAncestors.c70_exists` | propext, Classical.choice, Quot.sound |
| C70 | `Verif.RbsAncestors.c70_example` | propext, Classical.choice, Quot.sound |
| C70 | `Verif.RbsAncestors.c70_example_spec` | propext, Classical.choice, Quot.sound |
| C70 | `Verif.RbsAncestors.c70_example_listed` | propext, Classical.choice, Quot.sound |
| C70 | `Verif.RbsAncestors.c70_tuple_fails` | propext, Classical.choice, Quot.sound |
| C70 | `Verif.RbsAncestors.c70_alias_fails` | propext, Classical.choice, Quot.sound |
| C70 | `Verif.RbsAncestors.c70_include_order_fails` | propext, Classical.choice, Quot.sound |
| C70 | `Verif.RbsAncestors.c70_prepend_fails` | propext, Classical.choice, Quot.sound |
| C70 | `Verif.RbsAncestors.c70_class_object_fails` | propext, Classical.choice, Quot.sound |
| C70 | `Verif.RbsAncestors.c70_last_name_fails` | propext, Classical.choice, Quot.sound |
| C70 | `Verif.RbsAncestors.c70_missing_include_fails` | propext, Classical.choice, Quot.sound |
| C70 | `Verif.RbsAncestors.c70_singleton_fails` | propext, Classical.choice, Quot.sound |
| C70 | `Verif.RbsAncestors.c70_alias_kind_fails` | propext, Classical.choice, Quot.sound |
| C71 | `Verif.RbsTemplates.c71_template_sound` | propext, Classical.choice, Quot.sound |
| C71 | `Verif.RbsTemplates.c71_template_exact` | propext, Classical.choice, Quot.sound |
| C71 | `Verif.RbsTemplates.c71_supported` | propext, Classical.choice, Quot.sound |
| C71 | `Verif.RbsTemplates.c71_conforms` | propext, Classical.choice, Quot.sound |
| C71 | `Verif.RbsTemplates.c71_sound` | propext, Classical.choice, Quot.sound |
| C71 | `Verif.RbsTemplates.c71_generic` | propext, Classical.choice, Quot.sound |
| C71 | `Verif.RbsTemplates.c71_readings` | propext, Classical.choice, Quot.sound |
| C71 | `Verif.RbsTemplates.c71_example` | propext, Classical.choice, Quot.sound |
| C71 | `Verif.RbsTemplates.c71_void_block_fails` | propext, Classical.choice, Quot.sound |
| C71 | `Verif.RbsTemplates.c71_void_fails` | propext, Classical.choice, Quot.sound |
| C71 | `Verif.RbsTemplates.c71_bot_fails` | propext, Classical.choice, Quot.sound |
| C71 | `Verif.RbsTemplates.c71_rooted_fails` | propext, Classical.choice, Quot.sound |
| C71 | `Verif.RbsTemplates.c71_record_fails` | propext, Classical.choice, Quot.sound |
| C71 | `Verif.RbsTemplates.c71_overload_fails` | propext, Classical.choice, Quot.sound |
| C71 | `Verif.RbsTemplates.c71_hash_fails` | propext, Classical.choice, Quot.sound |
| C72 | `Verif.CacheLimits.c72_cleanup` | propext, Classical.choice, Quot.sound |
| C72 | `Verif.CacheLimits.c72_unique` | propext, Classical.choice, Quot.sound |
| C72 | `Verif.CacheLimits.c72_newest_stays` | propext, Quot.sound |
| C72 | `Verif.CacheLimits.c72_cleanup_ends` | propext, Classical.choice, Quot.sound |
| C72 | `Verif.CacheLimits.c72_bound` | propext, Classical.choice, Quot.sound |
| C72 | `Verif.CacheLimits.c72_single` | propext, Classical.choice, Quot.sound |
| C72 | `Verif.CacheLimits.c72_recovers` | propext, Classical.choice, Quot.sound |
| C72 | `Verif.CacheLimits.c72_example` | propext, Classical.choice, Quot.sound |
| C72 | `Verif.CacheLimits.c72_vanished_fails` | propext |
| C72 | `Verif.CacheLimits.c72_clock_fails` | propext |
| C72 | `Verif.CacheLimits.c72_two_processes_fails` | propext, Quot.sound |
| C72 | `Verif.CacheLimits.c72_clear_fails` | propext, Quot.sound |
| C72 | `Verif.CacheLimits.c72_rejection_fails` | propext, Classical.choice, Quot.sound |
| C72 | `Verif.CacheLimits.c72_timeout_fails` | propext, Quot.sound |
| C72 | `Verif.CacheLimits.c72_temporaries` | propext, Quot.sound |
| C72 | `Verif.CacheLimits.c72_clear` | propext, Quot.sound |
| C73 | `Verif.Edits.c73_document_end` | propext, Classical.choice, Quot.sound |
| C73 | `Verif.Edits.c73_format` | propext, Classical.choice, Quot.sound |
| C73 | `Verif.Edits.c73_format_fails` | propext, Quot.sound |
| C73 | `Verif.Edits.c73_position` | propext, Classical.choice, Quot.sound |
| C73 | `Verif.Edits.c73_position_complete` | propext, Quot.sound |
| C73 | `Verif.Edits.c73_report` | propext, Classical.choice, Quot.sound |
| C73 | `Verif.Edits.c73_characters_fails` | propext, Classical.choice, Quot.sound |
| C73 | `Verif.Edits.c73_one_lost_fails` | propext, Classical.choice, Quot.sound |
| C73 | `Verif.Edits.c73_empty_fails` | propext |
| C73 | `Verif.Edits.c73_example` | propext, Classical.choice, Quot.sound |
| C73 | `Verif.Edits.c73_return_example` | propext, Classical.choice, Quot.sound |
| C73 | `Verif.Edits.c73_tree` | propext, Quot.sound |
| C73 | `Verif.Edits.c73_end` | propext, Classical.choice, Quot.sound |
| C73 | `Verif.Edits.c73_everywhere_fails` | propext, Classical.choice, Quot.sound |
| C73 | `Verif.Edits.c73_comment` | propext, Classical.choice, Quot.sound |
| C73 | `Verif.Edits.c73_needless_fails` | propext, Classical.choice, Quot.sound |
| C73 | `Verif.Edits.c73_missing_fails` | propext, Classical.choice, Quot.sound |
| C73 | `Verif.Edits.c73_keywords` | propext, Classical.choice, Quot.sound |
| C74 | `Verif.DocSync.c74_text` | propext, Quot.sound |
| C74 | `Verif.DocSync.c74_facts` | propext, Quot.sound |
| C74 | `Verif.DocSync.c74_closed` | propext, Quot.sound |
| C74 | `Verif.DocSync.c74_ends` | propext, Quot.sound |
| C74 | `Verif.DocSync.c74_settles` | propext, Quot.sound |
| C74 | `Verif.DocSync.c74_lock` | propext, Classical.choice, Quot.sound |
| C74 | `Verif.DocSync.c74_save_resolves_fails` | propext, Quot.sound |
| C74 | `Verif.DocSync.c74_example` | propext |
| C74 | `Verif.DocSync.c74_refresh_stale_fails` | propext |
| C74 | `Verif.DocSync.c74_refresh_closed_fails` | propext |
| C74 | `Verif.DocSync.c74_refresh_reopened_fails` | propext |
| C74 | `Verif.DocSync.c74_watch_stale_fails` | propext |
| C74 | `Verif.DocSync.c74_order_fails` | propext |
| C74 | `Verif.DocSync.c74_discard_fails` | propext |
| C74 | `Verif.DocSync.c74_failed_fails` | propext |
| C75 | `Verif.ProjectFiles.c75_walk` | propext, Classical.choice, Quot.sound |
| C75 | `Verif.ProjectFiles.c75_policy` | propext, Classical.choice, Quot.sound |
| C75 | `Verif.ProjectFiles.c75_signatures` | propext, Classical.choice, Quot.sound |
| C75 | `Verif.ProjectFiles.c75_log_fails` | propext, Classical.choice, Quot.sound |
| C75 | `Verif.ProjectFiles.c75_link_fails` | propext, Classical.choice, Quot.sound |
| C75 | `Verif.ProjectFiles.c75_walk_example` | propext, Classical.choice, Quot.sound |
| C75 | `Verif.ProjectFiles.c75_require` | propext, Classical.choice, Quot.sound |
| C75 | `Verif.ProjectFiles.c75_scan_ascii` | propext, Classical.choice, Quot.sound |
| C75 | `Verif.ProjectFiles.c75_scan_panics_fails` | propext, Classical.choice, Quot.sound |
| C75 | `Verif.ProjectFiles.c75_comment_fails` | propext, Classical.choice, Quot.sound |
| C75 | `Verif.ProjectFiles.c75_parentheses_fails` | propext, Classical.choice, Quot.sound |
| C75 | `Verif.ProjectFiles.c75_require_example` | propext, Classical.choice, Quot.sound |
| C75 | `Verif.ProjectFiles.c75_select` | propext, Classical.choice, Quot.sound |
| C75 | `Verif.ProjectFiles.c75_once` | propext, Classical.choice, Quot.sound |
| C75 | `Verif.ProjectFiles.c75_unreadable_fails` | propext, Classical.choice, Quot.sound |
| C75 | `Verif.ProjectFiles.c75_run_example` | propext, Classical.choice, Quot.sound |
| C75 | `Verif.ProjectFiles.c75_overlap_fails` | none |
| C75 | `Verif.ProjectFiles.c75_locked` | propext |
| C75 | `Verif.ProjectFiles.c75_demanded` | propext, Quot.sound |
| C75 | `Verif.ProjectFiles.c75_twins_fails` | none |
| C75 | `Verif.ProjectFiles.c75_matches` | propext, Classical.choice, Quot.sound |
| C75 | `Verif.ProjectFiles.c75_matches_example` | propext, Classical.choice, Quot.sound |
| C76 | `Verif.Outline.c76_shape` | propext, Quot.sound |
| C76 | `Verif.Outline.c76_complete` | propext, Quot.sound |
| C76 | `Verif.Outline.c76_ranges` | propext, Quot.sound |
| C76 | `Verif.Outline.c76_tree` | propext, Quot.sound |
| C76 | `Verif.Outline.c76_detail` | propext |
| C76 | `Verif.Outline.c76_example` | propext, Quot.sound |
| C76 | `Verif.Outline.c76_order_fails` | propext, Quot.sound |
| C76 | `Verif.Outline.c76_named_fails` | propext, Quot.sound |
| C76 | `Verif.Outline.c76_private_def_fails` | propext, Quot.sound |
| C76 | `Verif.Outline.c76_receiver_fails` | propext, Quot.sound |
| C76 | `Verif.Outline.c76_constant_fails` | propext, Quot.sound |
| C76 | `Verif.Outline.c76_invalid_fails` | propext, Quot.sound |
| C76 | `Verif.Outline.c76_attribute_fails` | propext |
| C77 | `Verif.SymbolSearch.c77_matches` | propext, Classical.choice, Quot.sound |
| C77 | `Verif.SymbolSearch.c77_dead` | propext, Quot.sound |
| C77 | `Verif.SymbolSearch.c77_rank` | propext, Classical.choice, Quot.sound |
| C77 | `Verif.SymbolSearch.c77_search` | propext, Quot.sound |
| C77 | `Verif.SymbolSearch.c77_top` | propext, Quot.sound |
| C77 | `Verif.SymbolSearch.c77_names` | propext, Quot.sound |
| C77 | `Verif.SymbolSearch.c77_key` | propext, Classical.choice, Quot.sound |
| C77 | `Verif.SymbolSearch.c77_answer` | propext, Classical.choice, Quot.sound |
| C77 | `Verif.SymbolSearch.c77_all` | propext, Classical.choice, Quot.sound |
| C77 | `Verif.SymbolSearch.c77_exact` | propext, Classical.choice, Quot.sound |
| C77 | `Verif.SymbolSearch.c77_once` | propext, Classical.choice, Quot.sound |
| C77 | `Verif.SymbolSearch.c77_example` | propext, Classical.choice, Quot.sound |
| C77 | `Verif.SymbolSearch.c77_camel_fails` | propext, Classical.choice, Quot.sound |
| C77 | `Verif.SymbolSearch.c77_order_fails` | propext, Classical.choice, Quot.sound |
| C77 | `Verif.SymbolSearch.c77_qualified_fails` | propext, Classical.choice, Quot.sound |
| C77 | `Verif.SymbolSearch.c77_once_fails` | propext, Classical.choice, Quot.sound |
| C78 | `Verif.NamespaceTree.c78_tree` | propext, Classical.choice, Quot.sound |
| C78 | `Verif.NamespaceTree.c78_order` | propext, Classical.choice, Quot.sound |
| C78 | `Verif.NamespaceTree.c78_items` | propext, Classical.choice, Quot.sound |
| C78 | `Verif.NamespaceTree.c78_sections` | propext |
| C78 | `Verif.NamespaceTree.c78_project` | propext, Classical.choice, Quot.sound |
| C78 | `Verif.NamespaceTree.c78_mixins` | propext, Classical.choice, Quot.sound |
| C78 | `Verif.NamespaceTree.c78_fields` | propext, Classical.choice, Quot.sound |
| C78 | `Verif.NamespaceTree.c78_includers` | propext, Classical.choice, Quot.sound |
| C78 | `Verif.NamespaceTree.c78_example` | propext, Quot.sound |
| C78 | `Verif.NamespaceTree.c78_twice_fails` | propext, Quot.sound |
| C78 | `Verif.NamespaceTree.c78_ties_fails` | propext, Quot.sound |
| C78 | `Verif.NamespaceTree.c78_cache_fails` | propext, Quot.sound |
| C78 | `Verif.NamespaceTree.c78_kind_fails` | propext, Quot.sound |
| C78 | `Verif.NamespaceTree.c78_place` | propext, Quot.sound |
| C78 | `Verif.NamespaceTree.c78_own` | propext, Quot.sound |
| C79 | `Verif.Lens.c79_modules` | propext, Quot.sound |
| C79 | `Verif.Lens.c79_names` | propext, Quot.sound |
| C79 | `Verif.Lens.c79_usages` | propext, Classical.choice, Quot.sound |
| C79 | `Verif.Lens.c79_classes` | propext, Classical.choice, Quot.sound |
| C79 | `Verif.Lens.c79_right` | propext, Classical.choice, Quot.sound |
| C79 | `Verif.Lens.c79_places` | propext, Classical.choice, Quot.sound |
| C79 | `Verif.Lens.c79_lenses` | propext, Classical.choice, Quot.sound |
| C79 | `Verif.Lens.c79_handle` | propext, Quot.sound |
| C79 | `Verif.Lens.c79_folds` | propext, Classical.choice, Quot.sound |
| C79 | `Verif.Lens.c79_example` | propext |
| C79 | `Verif.Lens.c79_nested_fails` | propext |
| C79 | `Verif.Lens.c79_absolute_fails` | propext |
| C79 | `Verif.Lens.c79_reopened_fails` | propext |
| C79 | `Verif.Lens.c79_extend_fails` | propext |
| C79 | `Verif.Lens.c79_singleton_fails` | propext |
| C79 | `Verif.Lens.c79_folds_fails` | propext |
| C80 | `Verif.SignatureHelp.c80_call` | propext, Quot.sound |
| C80 | `Verif.SignatureHelp.c80_innermost` | propext, Classical.choice, Quot.sound |
| C80 | `Verif.SignatureHelp.c80_argument` | propext, Classical.choice, Quot.sound |
| C80 | `Verif.SignatureHelp.c80_keyword_at` | propext, Classical.choice, Quot.sound |
| C80 | `Verif.SignatureHelp.c80_positional` | propext, Classical.choice, Quot.sound |
| C80 | `Verif.SignatureHelp.c80_keyword` | propext, Classical.choice, Quot.sound |
| C80 | `Verif.SignatureHelp.c80_bound` | propext, Classical.choice, Quot.sound |
| C80 | `Verif.SignatureHelp.c80_labels` | propext |
| C80 | `Verif.SignatureHelp.c80_distinct` | propext, Classical.choice, Quot.sound |
| C80 | `Verif.SignatureHelp.c80_help` | propext, Classical.choice, Quot.sound |
| C80 | `Verif.SignatureHelp.c80_example` | propext, Quot.sound |
| C80 | `Verif.SignatureHelp.c80_closed_fails` | propext, Quot.sound |
| C80 | `Verif.SignatureHelp.c80_operator_fails` | propext, Quot.sound |
| C80 | `Verif.SignatureHelp.c80_comma_fails` | propext, Quot.sound |
| C80 | `Verif.SignatureHelp.c80_post_fails` | propext |
| C80 | `Verif.SignatureHelp.c80_anonymous_fails` | propext |
| C80 | `Verif.SignatureHelp.c80_next_fails` | propext, Quot.sound |
| C80 | `Verif.SignatureHelp.c80_overload_fails` | propext |
| C80 | `Verif.SignatureHelp.c80_highlight_fails` | propext, Quot.sound |
| C80 | `Verif.SignatureHelp.c80_ambiguous_fails` | none |
| C81 | `Verif.RequirePaths.c81_strings` | propext, Quot.sound |
| C81 | `Verif.RequirePaths.c81_at` | propext, Quot.sound |
| C81 | `Verif.RequirePaths.c81_content` | propext, Classical.choice, Quot.sound |
| C81 | `Verif.RequirePaths.c81_resolve` | propext, Quot.sound |
| C81 | `Verif.RequirePaths.c81_ruby` | propext, Quot.sound |
| C81 | `Verif.RequirePaths.c81_load_paths` | propext, Classical.choice, Quot.sound |
| C81 | `Verif.RequirePaths.c81_diagnostics` | propext, Quot.sound |
| C81 | `Verif.RequirePaths.c81_range` | propext, Classical.choice, Quot.sound |
| C81 | `Verif.RequirePaths.c81_end` | propext, Quot.sound |
| C81 | `Verif.RequirePaths.c81_example` | propext, Quot.sound |
| C81 | `Verif.RequirePaths.c81_bare_fails` | propext, Quot.sound |
| C81 | `Verif.RequirePaths.c81_root_fails` | propext, Quot.sound |
| C81 | `Verif.RequirePaths.c81_dot_fails` | propext, Quot.sound |
| C81 | `Verif.RequirePaths.c81_slash_fails` | propext, Quot.sound |
| C81 | `Verif.RequirePaths.c81_case_fails` | propext, Quot.sound |
| C81 | `Verif.RequirePaths.c81_load_path_fails` | propext, Quot.sound |
| C81 | `Verif.RequirePaths.c81_absolute` | propext |
| C81 | `Verif.RequirePaths.c81_upwards` | propext |
| C82 | `Verif.Hierarchy.c82_namespace_name` | propext, Quot.sound |
| C82 | `Verif.Hierarchy.c82_method_names` | propext, Quot.sound |
| C82 | `Verif.Hierarchy.c82_method_name` | propext, Quot.sound |
| C82 | `Verif.Hierarchy.c82_distinct` | propext, Quot.sound |
| C82 | `Verif.Hierarchy.c82_incoming` | propext, Classical.choice, Quot.sound |
| C82 | `Verif.Hierarchy.c82_outgoing` | propext, Classical.choice, Quot.sound |
| C82 | `Verif.Hierarchy.c82_calls` | propext, Classical.choice, Quot.sound |
| C82 | `Verif.Hierarchy.c82_supertypes` | propext, Classical.choice, Quot.sound |
| C82 | `Verif.Hierarchy.c82_order` | propext, Classical.choice, Quot.sound |
| C82 | `Verif.Hierarchy.c82_subtypes` | propext, Quot.sound |
| C82 | `Verif.Hierarchy.c82_sorted` | propext, Classical.choice, Quot.sound |
| C82 | `Verif.Hierarchy.c82_types` | propext, Classical.choice, Quot.sound |
| C82 | `Verif.Hierarchy.c82_example` | propext, Quot.sound |
| C82 | `Verif.Hierarchy.c82_operators` | none |
| C82 | `Verif.Hierarchy.c82_generated` | propext, Classical.choice, Quot.sound |
| C82 | `Verif.Hierarchy.c82_item` | propext, Quot.sound |
| C82 | `Verif.Hierarchy.c82_file_fails` | none |
| C82 | `Verif.Hierarchy.c82_top_fails` | propext |
| C82 | `Verif.Hierarchy.c82_kind_fails` | none |
| C82 | `Verif.Hierarchy.c82_reopened_fails` | propext |
| C82 | `Verif.Hierarchy.c82_singleton_fails` | propext, Quot.sound |
| C82 | `Verif.Hierarchy.c82_operator_fails` | propext, Quot.sound |
| C83 | `Verif.JavaSource.c83_limits` | propext, Quot.sound |
| C83 | `Verif.JavaSource.c83_name` | propext, Quot.sound |
| C83 | `Verif.JavaSource.c83_package` | propext, Quot.sound |
| C83 | `Verif.JavaSource.c83_class` | propext, Quot.sound |
| C83 | `Verif.JavaSource.c83_erased` | propext |
| C83 | `Verif.JavaSource.c83_clean` | propext |
| C83 | `Verif.JavaSource.c83_parameters` | propext, Quot.sound |
| C83 | `Verif.JavaSource.c83_type` | propext, Quot.sound |
| C83 | `Verif.JavaSource.c83_overloads` | propext, Classical.choice, Quot.sound |
| C83 | `Verif.JavaSource.c83_static` | propext, Quot.sound |
| C83 | `Verif.JavaSource.c83_method` | propext, Quot.sound |
| C83 | `Verif.JavaSource.c83_field` | propext, Quot.sound |
| C83 | `Verif.JavaSource.c83_field_found` | propext, Quot.sound |
| C83 | `Verif.JavaSource.c83_result` | propext, Quot.sound |
| C83 | `Verif.JavaSource.c83_inside` | propext, Classical.choice, Quot.sound |
| C83 | `Verif.JavaSource.c83_example` | propext, Quot.sound |
| C83 | `Verif.JavaSource.c83_local_fails` | propext, Quot.sound |
| C83 | `Verif.JavaSource.c83_alone_fails` | propext |
| C83 | `Verif.JavaSource.c83_enum_fails` | propext, Quot.sound |
| C83 | `Verif.JavaSource.c83_constant_fails` | propext, Quot.sound |
| C83 | `Verif.JavaSource.c83_receiver_fails` | propext |
| C83 | `Verif.JavaSource.c83_compact_fails` | propext |
| C83 | `Verif.JavaSource.c83_annotation_fails` | propext |
| C83 | `Verif.JavaSource.c83_variable_fails` | propext |
| C83 | `Verif.JavaSource.c83_kinds` | propext |
| C83 | `Verif.JavaSource.c83_first` | propext, Quot.sound |
| C83 | `Verif.JavaSource.c83_named` | propext |
| C83 | `Verif.JavaSource.c83_line` | propext, Quot.sound |
| C83 | `Verif.JavaSource.c83_members` | propext |
| C84 | `Verif.JrubySignatures.c84_read` | propext, Classical.choice, Quot.sound |
| C84 | `Verif.JrubySignatures.c84_total` | propext, Classical.choice, Quot.sound |
| C84 | `Verif.JrubySignatures.c84_indent` | propext, Classical.choice, Quot.sound |
| C84 | `Verif.JrubySignatures.c84_name` | propext, Quot.sound |
| C84 | `Verif.JrubySignatures.c84_fqn` | propext, Classical.choice, Quot.sound |
| C84 | `Verif.JrubySignatures.c84_lines` | propext, Classical.choice, Quot.sound |
| C84 | `Verif.JrubySignatures.c84_types` | propext, Classical.choice, Quot.sound |
| C84 | `Verif.JrubySignatures.c84_distinct` | propext, Classical.choice, Quot.sound |
| C84 | `Verif.JrubySignatures.c84_documented` | propext, Classical.choice, Quot.sound |
| C84 | `Verif.JrubySignatures.c84_example` | propext, Classical.choice, Quot.sound |
| C84 | `Verif.JrubySignatures.c84_collide_fails` | propext, Classical.choice, Quot.sound |
| C84 | `Verif.JrubySignatures.c84_distinct_fails` | propext, Classical.choice, Quot.sound |
| C84 | `Verif.JrubySignatures.c84_private_fails` | propext, Classical.choice, Quot.sound |
| C84 | `Verif.JrubySignatures.c84_constructor_fails` | propext, Classical.choice, Quot.sound |
| C84 | `Verif.JrubySignatures.c84_outer_fails` | propext, Classical.choice, Quot.sound |
| C84 | `Verif.JrubySignatures.c84_keyword_fails` | propext, Classical.choice, Quot.sound |
| C84 | `Verif.JrubySignatures.c84_field_fails` | propext, Classical.choice, Quot.sound |
| C84 | `Verif.JrubySignatures.c84_writer_fails` | propext, Classical.choice, Quot.sound |
| C84 | `Verif.JrubySignatures.c84_constant_fails` | propext, Classical.choice, Quot.sound |
| C84 | `Verif.JrubySignatures.c84_package_fails` | propext, Classical.choice, Quot.sound |
| C84 | `Verif.JrubySignatures.c84_dollar_fails` | propext, Classical.choice, Quot.sound |
| C84 | `Verif.JrubySignatures.c84_raise_fails` | propext, Classical.choice, Quot.sound |
| C84 | `Verif.JrubySignatures.c84_visibility` | propext |
| C85 | `Verif.Runtimes.c85_version` | propext, Classical.choice, Quot.sound |
| C85 | `Verif.Runtimes.c85_display` | propext, Classical.choice, Quot.sound |
| C85 | `Verif.Runtimes.c85_series` | none |
| C85 | `Verif.Runtimes.c85_clean` | propext, Classical.choice, Quot.sound |
| C85 | `Verif.Runtimes.c85_marker` | propext, Classical.choice, Quot.sound |
| C85 | `Verif.Runtimes.c85_select` | propext, Classical.choice, Quot.sound |
| C85 | `Verif.Runtimes.c85_order` | propext, Quot.sound |
| C85 | `Verif.Runtimes.c85_jruby` | propext, Classical.choice, Quot.sound |
| C85 | `Verif.Runtimes.c85_mri` | propext, Quot.sound |
| C85 | `Verif.Runtimes.c85_kind` | propext, Classical.choice, Quot.sound |
| C85 | `Verif.Runtimes.c85_found` | propext, Classical.choice, Quot.sound |
| C85 | `Verif.Runtimes.c85_truffle` | propext, Quot.sound |
| C85 | `Verif.Runtimes.c85_tool` | propext |
| C85 | `Verif.Runtimes.c85_files` | none |
| C85 | `Verif.Runtimes.c85_example` | propext, Classical.choice, Quot.sound |
| C85 | `Verif.Runtimes.c85_preview_fails` | propext, Classical.choice, Quot.sound |
| C85 | `Verif.Runtimes.c85_snapshot_fails` | propext, Classical.choice, Quot.sound |
| C85 | `Verif.Runtimes.c85_equal_fails` | propext, Classical.choice, Quot.sound |
| C85 | `Verif.Runtimes.c85_comment_fails` | propext, Classical.choice, Quot.sound |
| C86 | `Verif.CheckReport.c86_linear` | propext, Quot.sound |
| C86 | `Verif.CheckReport.c86_before` | propext, Quot.sound |
| C86 | `Verif.CheckReport.c86_path` | propext, Classical.choice, Quot.sound |
| C86 | `Verif.CheckReport.c86_root` | propext, Quot.sound |
| C86 | `Verif.CheckReport.c86_diagnostics` | propext, Quot.sound |
| C86 | `Verif.CheckReport.c86_types` | propext, Quot.sound |
| C86 | `Verif.CheckReport.c86_solved` | propext, Quot.sound |
| C86 | `Verif.CheckReport.c86_summary` | propext, Quot.sound |
| C86 | `Verif.CheckReport.c86_unordered` | propext, Quot.sound |
| C86 | `Verif.CheckReport.c86_one` | propext, Classical.choice, Quot.sound |
| C86 | `Verif.CheckReport.c86_positions` | propext, Classical.choice, Quot.sound |
| C86 | `Verif.CheckReport.c86_example` | none |
| C86 | `Verif.CheckReport.c86_outside_fails` | none |
| C86 | `Verif.CheckReport.c86_signature_fails` | none |
| C86 | `Verif.CheckReport.c86_answers_fails` | propext |
| C87 | `Verif.JavaCatalog.c87_accepted` | propext, Classical.choice, Quot.sound |
| C87 | `Verif.JavaCatalog.c87_precedence` | propext, Quot.sound |
| C87 | `Verif.JavaCatalog.c87_duplicates` | propext, Quot.sound |
| C87 | `Verif.JavaCatalog.c87_winner` | propext, Quot.sound |
| C87 | `Verif.JavaCatalog.c87_apart` | propext, Quot.sound |
| C87 | `Verif.JavaCatalog.c87_longer` | propext, Classical.choice, Quot.sound |
| C87 | `Verif.JavaCatalog.c87_identity` | propext, Quot.sound |
| C87 | `Verif.JavaCatalog.c87_stored` | propext, Classical.choice, Quot.sound |
| C87 | `Verif.JavaCatalog.c87_build` | propext, Classical.choice, Quot.sound |
| C87 | `Verif.JavaCatalog.c87_example` | propext |
| C87 | `Verif.JavaCatalog.c87_order_fails` | propext |
| C88 | `Verif.Telemetry.c88_merge` | propext, Quot.sound |
| C88 | `Verif.Telemetry.c88_assoc` | propext, Quot.sound |
| C88 | `Verif.Telemetry.c88_total` | propext, Quot.sound |
| C88 | `Verif.Telemetry.c88_returns` | propext, Quot.sound |
| C88 | `Verif.Telemetry.c88_type` | propext, Quot.sound |
| C88 | `Verif.Telemetry.c88_seen` | propext, Quot.sound |
| C88 | `Verif.Telemetry.c88_refresh` | propext, Quot.sound |
| C88 | `Verif.Telemetry.c88_methods` | propext, Quot.sound |
| C88 | `Verif.Telemetry.c88_once` | propext, Classical.choice, Quot.sound |
| C88 | `Verif.Telemetry.c88_fresh` | propext, Quot.sound |
| C88 | `Verif.Telemetry.c88_example` | propext |
| C88 | `Verif.Telemetry.c88_file_fails` | propext |
| C88 | `Verif.Telemetry.c88_aliases_fails` | propext |
| C88 | `Verif.Telemetry.c88_constants_fails` | propext |
| C89 | `Verif.RubyVersions.c89_parse` | propext, Quot.sound |
| C89 | `Verif.RubyVersions.c89_marker` | propext, Classical.choice, Quot.sound |
| C89 | `Verif.RubyVersions.c89_words` | propext |
| C89 | `Verif.RubyVersions.c89_first` | propext, Quot.sound |
| C89 | `Verif.RubyVersions.c89_output` | propext, Classical.choice, Quot.sound |
| C89 | `Verif.RubyVersions.c89_gemfile` | propext, Classical.choice, Quot.sound |
| C89 | `Verif.RubyVersions.c89_detect` | propext, Classical.choice, Quot.sound |
| C89 | `Verif.RubyVersions.c89_silent` | propext, Classical.choice, Quot.sound |
| C89 | `Verif.RubyVersions.c89_effective` | propext, Quot.sound |
| C89 | `Verif.RubyVersions.c89_agree` | propext, Classical.choice, Quot.sound |
| C89 | `Verif.RubyVersions.c89_example` | propext, Classical.choice, Quot.sound |
| C89 | `Verif.RubyVersions.c89_requirement_fails` | propext, Classical.choice, Quot.sound |
| C89 | `Verif.RubyVersions.c89_engine_fails` | propext, Classical.choice, Quot.sound |
| C89 | `Verif.RubyVersions.c89_rvmrc_fails` | propext, Classical.choice, Quot.sound |
| C89 | `Verif.RubyVersions.c89_newer_fails` | propext, Classical.choice, Quot.sound |
| C90 | `Verif.RuntimeConfig.c90_family` | propext, Quot.sound |
| C90 | `Verif.RuntimeConfig.c90_valid` | propext, Classical.choice, Quot.sound |
| C90 | `Verif.RuntimeConfig.c90_config` | propext, Classical.choice, Quot.sound |
| C90 | `Verif.RuntimeConfig.c90_select` | propext, Quot.sound |
| C90 | `Verif.RuntimeConfig.c90_slashes` | propext, Quot.sound |
| C90 | `Verif.RuntimeConfig.c90_names` | propext, Classical.choice, Quot.sound |
| C90 | `Verif.RuntimeConfig.c90_found` | propext, Classical.choice, Quot.sound |
| C90 | `Verif.RuntimeConfig.c90_version` | propext, Classical.choice, Quot.sound |
| C90 | `Verif.RuntimeConfig.c90_scoped` | propext, Quot.sound |
| C90 | `Verif.RuntimeConfig.c90_jruby` | propext, Classical.choice, Quot.sound |
| C90 | `Verif.RuntimeConfig.c90_paths` | propext, Classical.choice, Quot.sound |
| C90 | `Verif.RuntimeConfig.c90_example` | propext, Classical.choice, Quot.sound |
| C90 | `Verif.RuntimeConfig.c90_roots_fails` | propext, Classical.choice, Quot.sound |
| C90 | `Verif.RuntimeConfig.c90_bytes_fails` | propext, Classical.choice, Quot.sound |
| C90 | `Verif.RuntimeConfig.c90_truffle_fails` | propext, Classical.choice, Quot.sound |
| C91 | `Verif.ProjectRoots.c91_projects` | propext, Quot.sound |
| C91 | `Verif.ProjectRoots.c91_order` | propext, Quot.sound |
| C91 | `Verif.ProjectRoots.c91_apart` | propext, Quot.sound |
| C91 | `Verif.ProjectRoots.c91_entry` | propext, Classical.choice, Quot.sound |
| C91 | `Verif.ProjectRoots.c91_explicit` | propext, Classical.choice, Quot.sound |
| C91 | `Verif.ProjectRoots.c91_default` | propext |
| C91 | `Verif.ProjectRoots.c91_example` | propext, Classical.choice, Quot.sound |
