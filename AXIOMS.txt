'Regalloc.Api.C43_accepted_is_ssa' depends on axioms: [propext, Classical.choice, Quot.sound]
'Regalloc.Api.C43_algorithms_agree_partial' depends on axioms: [propext, Classical.choice, Quot.sound]
'Regalloc.Api.C43_same_behaviour_partial' depends on axioms: [propext, Classical.choice, Quot.sound]
'Regalloc.Api.C43_ssa_accepted' depends on axioms: [propext, Classical.choice, Quot.sound]
'Regalloc.Api.C43_validation_only_rejects' depends on axioms: [propext, Quot.sound]
'Regalloc.Apply.C38_branch_clobber_violation' depends on axioms: [propext, Classical.choice, Quot.sound]
'Regalloc.Apply.C38_moves_implement_assignment_partial' depends on axioms: [propext, Classical.choice, Quot.sound]
'Regalloc.Apply.C38_no_panic' depends on axioms: [propext, Classical.choice, Quot.sound]
'Regalloc.Apply.C38_operand_locations' depends on axioms: [propext, Classical.choice, Quot.sound]
'Regalloc.Apply.C38_two_reuses_violation' depends on axioms: [propext, Classical.choice, Quot.sound]
'Regalloc.Build.Ex.C34_same_fixed_use_twice_panics' depends on axioms: [propext, Quot.sound]
'Regalloc.Build.Ex.C34_starts_at_def_elsewhere' depends on axioms: [propext, Quot.sound]
'Regalloc.Build.ExMulti.C39_move_after_instruction' depends on axioms: [propext, Quot.sound]
'Regalloc.Build.ExMulti.C39_same_register_twice_panics' depends on axioms: [propext, Quot.sound]
'Regalloc.Build.ExMulti.C39_source_rewritten' depends on axioms: [propext, Quot.sound]
'Regalloc.Build.ExMulti.C39_stack_twice_panics' depends on axioms: [propext, Quot.sound]
'Regalloc.C04_decode_encode' depends on axioms: [propext, Classical.choice, Quot.sound]
'Regalloc.C04_fixed_nonallocatable' depends on axioms: [propext, Classical.choice, Quot.sound]
'Regalloc.C04_from_bits' does not depend on any axioms
'Regalloc.C04_limit_accepted_iff' depends on axioms: [propext, Classical.choice, Quot.sound]
'Regalloc.C04_operand_injective' depends on axioms: [propext, Classical.choice, Quot.sound]
'Regalloc.C04_operand_roundtrip' depends on axioms: [propext, Classical.choice, Quot.sound]
'Regalloc.C04_ordinary_not_nonallocatable' depends on axioms: [propext, Classical.choice, Quot.sound]
'Regalloc.C05_alloc_from_bits_debug_panics' depends on axioms: [propext, Classical.choice, Quot.sound]
'Regalloc.C05_alloc_from_bits_release' does not depend on any axioms
'Regalloc.C05_alloc_injective' depends on axioms: [propext, Classical.choice, Quot.sound]
'Regalloc.C05_alloc_none' depends on axioms: [propext, Quot.sound]
'Regalloc.C05_alloc_reg' depends on axioms: [propext, Classical.choice, Quot.sound]
'Regalloc.C05_alloc_stack' depends on axioms: [propext, Classical.choice, Quot.sound]
'Regalloc.C05_preg_index_of_new' depends on axioms: [propext, Quot.sound]
'Regalloc.C05_preg_index_roundtrip' depends on axioms: [propext, Classical.choice, Quot.sound]
'Regalloc.C05_preg_injective' depends on axioms: [propext, Classical.choice, Quot.sound]
'Regalloc.C05_preg_invalid_is_int63' depends on axioms: [propext, Quot.sound]
'Regalloc.C05_preg_roundtrip' depends on axioms: [propext, Classical.choice, Quot.sound]
'Regalloc.C05_progpoint_limit' depends on axioms: [propext, Quot.sound]
'Regalloc.C05_progpoint_next' depends on axioms: [propext, Quot.sound]
'Regalloc.C05_progpoint_order' depends on axioms: [propext, Classical.choice, Quot.sound]
'Regalloc.C05_progpoint_roundtrip' depends on axioms: [propext, Classical.choice, Quot.sound]
'Regalloc.C05_progpoint_surjective' depends on axioms: [propext, Classical.choice, Quot.sound]
'Regalloc.C05_spillslot_plus' depends on axioms: [propext, Classical.choice, Quot.sound]
'Regalloc.C05_spillslot_roundtrip' depends on axioms: [propext, Classical.choice, Quot.sound]
'Regalloc.C05_vreg_injective' depends on axioms: [propext, Classical.choice, Quot.sound]
'Regalloc.C05_vreg_roundtrip' depends on axioms: [propext, Classical.choice, Quot.sound]
'Regalloc.C05_vreg_surjective' depends on axioms: [propext, Classical.choice, Quot.sound]
'Regalloc.C06_add_up_to_drops_members' depends on axioms: [propext, Quot.sound]
'Regalloc.C06_add_up_to_empty' depends on axioms: [propext, Classical.choice, Quot.sound]
'Regalloc.C06_add_up_to_exact' depends on axioms: [propext, Classical.choice, Quot.sound]
'Regalloc.C06_ext' depends on axioms: [propext, Classical.choice, Quot.sound]
'Regalloc.C06_history' depends on axioms: [propext, Classical.choice, Quot.sound]
'Regalloc.C06_is_empty' depends on axioms: [propext, Classical.choice, Quot.sound]
'Regalloc.C06_iteration' depends on axioms: [propext, Classical.choice, Quot.sound]
'Regalloc.C06_len' depends on axioms: [propext, Classical.choice, Quot.sound]
'Regalloc.C06_max_preg' depends on axioms: [propext, Classical.choice, Quot.sound]
'Regalloc.C06_of_env' depends on axioms: [propext, Classical.choice, Quot.sound]
'Regalloc.C07_history' depends on axioms: [propext, Classical.choice, Quot.sound]
'Regalloc.C07_is_empty' depends on axioms: [propext, Classical.choice, Quot.sound]
'Regalloc.C07_iteration' depends on axioms: [propext, Classical.choice, Quot.sound]
'Regalloc.C07_representation_unobservable' depends on axioms: [propext, Classical.choice, Quot.sound]
'Regalloc.C07_union_reports_growth' depends on axioms: [propext, Classical.choice, Quot.sound]
'Regalloc.C07_word_index_truncates' depends on axioms: [propext, Quot.sound]
'Regalloc.C08_error' depends on axioms: [propext, Classical.choice, Quot.sound]
'Regalloc.C08_lists_reachable_once' depends on axioms: [propext, Classical.choice, Quot.sound]
'Regalloc.C08_order' depends on axioms: [propext, Classical.choice, Quot.sound]
'Regalloc.C08_succeeds_iff' depends on axioms: [propext, Classical.choice, Quot.sound]
'Regalloc.C09_dominates' depends on axioms: [propext, Classical.choice, Quot.sound]
'Regalloc.C09_immediate_dominator' depends on axioms: [propext, Classical.choice, Quot.sound]
'Regalloc.C09_unreachable' depends on axioms: [propext, Classical.choice, Quot.sound]
'Regalloc.C10_accepts_ssa' depends on axioms: [propext, Classical.choice, Quot.sound]
'Regalloc.C10_class_mismatch_accepted_across_blocks' depends on axioms: [propext, Quot.sound]
'Regalloc.C10_defined_before_use' depends on axioms: [propext, Classical.choice, Quot.sound]
'Regalloc.C10_out_of_range_use_panics' depends on axioms: [propext, Quot.sound]
'Regalloc.C10_single_definition' depends on axioms: [propext, Classical.choice, Quot.sound]
'Regalloc.C10_terminators' depends on axioms: [propext, Classical.choice, Quot.sound]
'Regalloc.C10_undefined_branch_argument_accepted' depends on axioms: [propext, Quot.sound]
'Regalloc.C11_accepts_iff' depends on axioms: [propext, Classical.choice, Quot.sound]
'Regalloc.C11_entry_exit_points' depends on axioms: [propext, Classical.choice, Quot.sound]
'Regalloc.C11_insn_block' depends on axioms: [propext, Classical.choice, Quot.sound]
'Regalloc.C11_no_bad_branch_arg' depends on axioms: [propext, Classical.choice, Quot.sound]
'Regalloc.C11_no_critical_edge_partial' depends on axioms: [propext, Classical.choice, Quot.sound]
'Regalloc.C11_return_with_successor_accepted' depends on axioms: [propext, Quot.sound]
'Regalloc.C20_block_items' depends on axioms: [propext, Classical.choice, Quot.sound]
'Regalloc.C20_edit_after_terminator_not_yielded' depends on axioms: [propext, Quot.sound]
'Regalloc.C20_edits_once' depends on axioms: [propext, Classical.choice, Quot.sound]
'Regalloc.C20_instructions_once' depends on axioms: [propext, Classical.choice, Quot.sound]
'Regalloc.C21_slices' depends on axioms: [propext, Classical.choice, Quot.sound]
'Regalloc.C21_slices_cover' depends on axioms: [propext, Classical.choice, Quot.sound]
'Regalloc.C24_liveness_exact' depends on axioms: [propext, Classical.choice, Quot.sound]
'Regalloc.C24_rejects_iff' depends on axioms: [propext, Classical.choice, Quot.sound]
'Regalloc.C24_ties_depend_on_order' depends on axioms: [propext, Quot.sound]
'Regalloc.C26_cmp_exact' depends on axioms: [propext, Classical.choice, Quot.sound]
'Regalloc.C26_eq_overlaps' depends on axioms: [propext, Classical.choice, Quot.sound]
'Regalloc.C26_insert' depends on axioms: [propext, Classical.choice, Quot.sound]
'Regalloc.C26_lookup' depends on axioms: [propext, Classical.choice, Quot.sound]
'Regalloc.C26_lookup_list' depends on axioms: [propext, Classical.choice, Quot.sound]
'Regalloc.C26_not_order_in_general' does not depend on any axioms
'Regalloc.C26_range_ops' depends on axioms: [propext, Classical.choice, Quot.sound]
'Regalloc.C26_remove' depends on axioms: [propext, Classical.choice, Quot.sound]
'Regalloc.C26_strict_total_order' depends on axioms: [propext, Classical.choice, Quot.sound]
'Regalloc.C27_blockparam_order' depends on axioms: [propext, Classical.choice, Quot.sound]
'Regalloc.C27_position_order' depends on axioms: [propext, Classical.choice, Quot.sound]
'Regalloc.C27_u128_key_order' depends on axioms: [propext, Classical.choice, Quot.sound]
'Regalloc.C27_u64_key_order' depends on axioms: [propext, Classical.choice, Quot.sound]
'Regalloc.C30_limits' depends on axioms: [propext, Quot.sound]
'Regalloc.C30_queries_agree' depends on axioms: [propext, Quot.sound]
'Regalloc.C32_edge_point_executed_once_per_traversal' depends on axioms: [propext, Classical.choice, Quot.sound]
'Regalloc.C34_block_params' depends on axioms: [propext, Classical.choice, Quot.sound]
'Regalloc.C34_covers_exactly' depends on axioms: [propext, Classical.choice, Quot.sound]
'Regalloc.C34_fixup_iff' depends on axioms: [propext, Classical.choice, Quot.sound]
'Regalloc.C34_no_panic' depends on axioms: [propext, Classical.choice, Quot.sound]
'Regalloc.C34_nonallocatable_assigned' depends on axioms: [propext, Classical.choice, Quot.sound]
'Regalloc.C34_operand_recorded' depends on axioms: [propext, Classical.choice, Quot.sound]
'Regalloc.C34_records_are_operands' depends on axioms: [propext, Classical.choice, Quot.sound]
'Regalloc.C34_reservations' depends on axioms: [propext, Classical.choice, Quot.sound]
'Regalloc.C34_sorted_disjoint' depends on axioms: [propext, Classical.choice, Quot.sound]
'Regalloc.C34_starts_at_def' depends on axioms: [propext, Classical.choice, Quot.sound]
'Regalloc.C36_pool' depends on axioms: [propext]
'Regalloc.C36_reuse' depends on axioms: [propext, Quot.sound]
'Regalloc.C39_dropped' depends on axioms: [propext, Quot.sound]
'Regalloc.C39_fixups' depends on axioms: [propext, Classical.choice, Quot.sound]
'Regalloc.C39_needed' depends on axioms: [propext, Classical.choice, Quot.sound]
'Regalloc.C39_no_panic' depends on axioms: [propext, Classical.choice, Quot.sound]
'Regalloc.C39_relaxed' depends on axioms: [propext, Classical.choice, Quot.sound]
'Regalloc.C39_served' depends on axioms: [propext, Classical.choice, Quot.sound]
'Regalloc.C39_source' depends on axioms: [propext, Classical.choice, Quot.sound]
'Regalloc.C50_assign' depends on axioms: [propext, Quot.sound]
'Regalloc.C50_index_overflow' depends on axioms: [propext, Quot.sound]
'Regalloc.C50_index_roundtrip' depends on axioms: [propext, Quot.sound]
'Regalloc.C50_next_prev' depends on axioms: [propext, Quot.sound]
'Regalloc.C50_push' depends on axioms: [propext, Quot.sound]
'Regalloc.C50_range' depends on axioms: [propext, Quot.sound]
'Regalloc.C50_range_list' depends on axioms: [propext, Classical.choice, Quot.sound]
'Regalloc.C50_view' depends on axioms: [propext, Classical.choice, Quot.sound]
'Regalloc.C50_view_partition' depends on axioms: [propext, Classical.choice, Quot.sound]
'Regalloc.Checker.C12_accepted_output_executes_alike_partial' depends on axioms: [propext, Classical.choice, Quot.sound]
'Regalloc.Checker.C12_late_use_beside_reuse_accepted' depends on axioms: [propext, Quot.sound]
'Regalloc.Checker.C12_stale_label_accepted' depends on axioms: [propext, Quot.sound]
'Regalloc.Checker.C12_two_defs_one_location_accepted' depends on axioms: [propext, Quot.sound]
'Regalloc.Checker.C13_class_not_checked' depends on axioms: [propext, Quot.sound]
'Regalloc.Checker.C13_constraints_hold_partial' depends on axioms: [propext, Classical.choice, Quot.sound]
'Regalloc.Checker.C13_late_reuse_not_checked' depends on axioms: [propext, Quot.sound]
'Regalloc.Checker.C13_limit_on_stack_accepted' depends on axioms: [propext, Quot.sound]
'Regalloc.Checker.C13_no_memory_to_memory_moves' depends on axioms: [propext, Quot.sound]
'Regalloc.Checker.C14_analysis_terminates' depends on axioms: [propext, Classical.choice, Quot.sound]
'Regalloc.Checker.C14_checker_returns' depends on axioms: [propext, Classical.choice, Quot.sound]
'Regalloc.Checker.C45_checker_complete' depends on axioms: [propext, Classical.choice, Quot.sound]
'Regalloc.Debug.C48_covers' depends on axioms: [propext, Classical.choice, Quot.sound]
'Regalloc.Debug.C48_disjoint_violation' depends on axioms: [propext, Classical.choice, Quot.sound]
'Regalloc.Debug.C48_edge_violation' depends on axioms: [propext, Classical.choice, Quot.sound]
'Regalloc.Debug.C48_locations_hold_partial' depends on axioms: [propext, Classical.choice, Quot.sound]
'Regalloc.Debug.C48_sorted' depends on axioms: [propext, Classical.choice, Quot.sound]
'Regalloc.Debug.C48_total' depends on axioms: [propext, Classical.choice, Quot.sound]
'Regalloc.Fast.C28_fastalloc_preserves_partial' depends on axioms: [propext, Classical.choice, Quot.sound]
'Regalloc.Fast.C28_layout_violation' depends on axioms: [propext, Quot.sound]
'Regalloc.Fast.C28_reuse_fixed_violation' depends on axioms: [propext, Quot.sound]
'Regalloc.Fast.C28_stack_def_violation' depends on axioms: [propext, Quot.sound]
'Regalloc.Fast.C29_conflicting_apart_partial' depends on axioms: [propext, Classical.choice, Quot.sound]
'Regalloc.Fast.C29_constraints_met_partial' depends on axioms: [propext, Classical.choice, Quot.sound]
'Regalloc.Fast.C29_defs_survive_clobbers_partial' depends on axioms: [propext, Classical.choice, Quot.sound]
'Regalloc.Fast.C29_late_uses_survive_clobbers_partial' depends on axioms: [propext, Classical.choice, Quot.sound]
'Regalloc.Fast.C29_no_memory_moves' depends on axioms: [propext, Classical.choice, Quot.sound]
'Regalloc.Fast.C45_accepts_fastalloc_partial' depends on axioms: [propext, Classical.choice, Quot.sound]
'Regalloc.Fast.C46_all_operands' depends on axioms: [propext, Classical.choice, Quot.sound]
'Regalloc.Fast.C46_checker_answers' depends on axioms: [propext, Classical.choice, Quot.sound]
'Regalloc.Fast.C46_correct_or_error' depends on axioms: [propext, Classical.choice, Quot.sound]
'Regalloc.Fast.C46_edits_sorted' depends on axioms: [propext, Classical.choice, Quot.sound]
'Regalloc.Fast.C46_limit_violation' depends on axioms: [propext, Quot.sound]
'Regalloc.Fast.C46_no_panic' depends on axioms: [propext, Classical.choice, Quot.sound]
'Regalloc.Fast.C46_no_registers_violation' depends on axioms: [propext, Quot.sound]
'Regalloc.Fast.C46_reuse_late_violation' depends on axioms: [propext, Quot.sound]
'Regalloc.Fast.C46_reuse_stack_violation' depends on axioms: [propext, Quot.sound]
'Regalloc.Fast.C47_enough_registers_partial' depends on axioms: [propext, Classical.choice, Quot.sound]
'Regalloc.Fast.C47_fixed_twice_violation' depends on axioms: [propext, Classical.choice, Quot.sound]
'Regalloc.Fast.C47_starved_violation' depends on axioms: [propext, Classical.choice, Quot.sound]
'Regalloc.Fast.C47_total_correct_partial' depends on axioms: [propext, Classical.choice, Quot.sound]
'Regalloc.Fast.C49_coverage_violation' depends on axioms: [propext, Quot.sound]
'Regalloc.Fast.C49_edge_violation' depends on axioms: [propext, Classical.choice, Quot.sound]
'Regalloc.Fast.C49_extent_violation' depends on axioms: [propext, Quot.sound]
'Regalloc.Fast.C49_local_violation' depends on axioms: [propext, Quot.sound]
'Regalloc.Fast.C49_locations_hold_partial' depends on axioms: [propext, Classical.choice, Quot.sound]
'Regalloc.Fast.C49_points' depends on axioms: [propext, Classical.choice, Quot.sound]
'Regalloc.Fast.C49_reported' depends on axioms: [propext, Classical.choice, Quot.sound]
'Regalloc.Fast.C49_sorted' depends on axioms: [propext, Quot.sound]
'Regalloc.Fast.C49_total' depends on axioms: [propext, Quot.sound]
'Regalloc.FuzzDom.C53_domtree_oracle' depends on axioms: [propext, Quot.sound]
'Regalloc.FuzzDom.C53_domtree_oracle_misses' depends on axioms: [propext, Quot.sound]
'Regalloc.FuzzDom.C53_domtree_target' depends on axioms: [propext, Classical.choice, Quot.sound]
'Regalloc.FuzzGen.C51_arguments' depends on axioms: [propext, Classical.choice, Quot.sound]
'Regalloc.FuzzGen.C51_labels_sorted' depends on axioms: [propext, Classical.choice, Quot.sound]
'Regalloc.FuzzGen.C51_no_panic' depends on axioms: [propext, Classical.choice, Quot.sound]
'Regalloc.FuzzGen.C51_operands' depends on axioms: [propext, Classical.choice, Quot.sound]
'Regalloc.FuzzGen.C51_ssa' depends on axioms: [propext, Classical.choice, Quot.sound]
'Regalloc.FuzzGen.C51_valid' depends on axioms: [propext, Classical.choice, Quot.sound]
'Regalloc.FuzzGen.C52_allocates' depends on axioms: [propext, Classical.choice, Quot.sound]
'Regalloc.FuzzGen.C52_ion_target' depends on axioms: [propext, Classical.choice, Quot.sound]
'Regalloc.FuzzGen.C52_target' depends on axioms: [propext, Classical.choice, Quot.sound]
'Regalloc.FuzzGen.C54_allocates' depends on axioms: [propext, Classical.choice, Quot.sound]
'Regalloc.FuzzGen.C54_checker_answers' depends on axioms: [propext, Classical.choice, Quot.sound]
'Regalloc.FuzzGen.C54_fast_target' depends on axioms: [propext, Classical.choice, Quot.sound]
'Regalloc.FuzzGen.C54_target_partial' depends on axioms: [propext, Classical.choice, Quot.sound]
'Regalloc.FuzzMoves.C53_moves_oracle' depends on axioms: [propext, Quot.sound]
'Regalloc.FuzzMoves.C53_moves_oracle_misses' depends on axioms: [propext, Quot.sound]
'Regalloc.FuzzMoves.C53_moves_target' depends on axioms: [propext, Classical.choice, Quot.sound]
'Regalloc.Ion.C31_dissolve_needs_def_first' depends on axioms: [propext, Quot.sound]
'Regalloc.Ion.C31_instruction_not_split' depends on axioms: [propext, Classical.choice, Quot.sound]
'Regalloc.Ion.C31_point_in_one_piece' depends on axioms: [propext, Quot.sound]
'Regalloc.Ion.C31_recompute_forgets_fixed' depends on axioms: [propext, Quot.sound]
'Regalloc.Ion.C31_spill_bundle_recorded' depends on axioms: [propext, Quot.sound]
'Regalloc.Ion.C31_split_dissolves' depends on axioms: [propext, Classical.choice, Quot.sound]
'Regalloc.Ion.C31_split_halves' depends on axioms: [propext, Classical.choice, Quot.sound]
'Regalloc.Ion.C31_split_minimal' depends on axioms: [propext, Classical.choice, Quot.sound]
'Regalloc.Ion.C33_empty_target_extent' depends on axioms: [propext, Classical.choice, Quot.sound]
'Regalloc.Ion.C33_merges_when_possible' depends on axioms: [propext, Classical.choice, Quot.sound]
'Regalloc.Ion.C33_pass' depends on axioms: [propext, Classical.choice, Quot.sound]
'Regalloc.Ion.C33_refused_unchanged' depends on axioms: [propext, Classical.choice, Quot.sound]
'Regalloc.Ion.C33_sort_order_unique' depends on axioms: [propext, Quot.sound]
'Regalloc.Ion.C33_success_implies' depends on axioms: [propext, Classical.choice, Quot.sound]
'Regalloc.Ion.C33_success_result' depends on axioms: [propext, Classical.choice, Quot.sound]
'Regalloc.Ion.C40_no_panic' depends on axioms: [propext, Classical.choice, Quot.sound]
'Regalloc.Ion.C40_no_register_panics' depends on axioms: [propext, Quot.sound]
'Regalloc.Ion.C40_placed' depends on axioms: [propext, Classical.choice, Quot.sound]
'Regalloc.Ion.C40_terminates' depends on axioms: [propext, Classical.choice, Quot.sound]
'Regalloc.Ion.C40_too_many' depends on axioms: [propext, Classical.choice, Quot.sound]
'Regalloc.Ion.C40_total' depends on axioms: [propext, Classical.choice, Quot.sound]
'Regalloc.Ion.C40_unallocatable' depends on axioms: [propext, Classical.choice, Quot.sound]
'Regalloc.Ion.C40_underflow' depends on axioms: [propext, Classical.choice, Quot.sound]
'Regalloc.Lru.C15_last' depends on axioms: [propext, Quot.sound]
'Regalloc.Lru.C15_last_satisfying' depends on axioms: [propext, Classical.choice, Quot.sound]
'Regalloc.Lru.C15_poke_unmanaged_panics' depends on axioms: [propext, Quot.sound]
'Regalloc.Lru.C15_pop' depends on axioms: [propext, Classical.choice, Quot.sound]
'Regalloc.Lru.C15_ring_holds_registers' depends on axioms: [propext, Classical.choice, Quot.sound]
'Regalloc.Moves.C01_resolve_is_parallel_move' depends on axioms: [propext, Classical.choice, Quot.sound]
'Regalloc.Moves.C01_without_scratch' depends on axioms: [propext, Classical.choice, Quot.sound]
'Regalloc.Moves.C02_acyclic_is_reordering' depends on axioms: [propext, Classical.choice, Quot.sound]
'Regalloc.Moves.C02_only_given_locations' depends on axioms: [propext, Classical.choice, Quot.sound]
'Regalloc.Moves.C02_scratch_iff_cycle' depends on axioms: [propext, Classical.choice, Quot.sound]
'Regalloc.Moves.C02_short_verbatim' depends on axioms: [propext, Quot.sound]
'Regalloc.Moves.C03_scratch_resolver' depends on axioms: [propext, Classical.choice, Quot.sound]
'Regalloc.Pipeline.C41_edits' depends on axioms: [propext, Classical.choice, Quot.sound]
'Regalloc.Pipeline.C41_nonallocatable' depends on axioms: [propext, Classical.choice, Quot.sound]
'Regalloc.Pipeline.C41_operands_partial' depends on axioms: [propext, Classical.choice, Quot.sound]
'Regalloc.Pipeline.C41_reused_input_violation' depends on axioms: [propext, Classical.choice, Quot.sound]
'Regalloc.Pipeline.C41_same_behaviour_partial' depends on axioms: [propext, Classical.choice, Quot.sound]
'Regalloc.Pipeline.C42_dying_input_violation' depends on axioms: [propext, Classical.choice, Quot.sound]
'Regalloc.Pipeline.C42_errors' depends on axioms: [propext, Classical.choice, Quot.sound]
'Regalloc.Pipeline.C42_first_instruction_violation' depends on axioms: [propext, Classical.choice, Quot.sound]
'Regalloc.Pipeline.C42_no_panic' depends on axioms: [propext, Classical.choice, Quot.sound]
'Regalloc.Pipeline.C42_terminates' depends on axioms: [propext, Classical.choice, Quot.sound]
'Regalloc.Pipeline.C42_total_partial' depends on axioms: [propext, Classical.choice, Quot.sound]
'Regalloc.Pipeline.C44_checker_accepts_partial' depends on axioms: [propext, Classical.choice, Quot.sound]
'Regalloc.Pipeline.C44_order_violation' depends on axioms: [propext, Classical.choice, Quot.sound]
'Regalloc.Pipeline.C44_reused_input_violation' depends on axioms: [propext, Classical.choice, Quot.sound]
'Regalloc.PregMap.C25_attempt' depends on axioms: [propext, Classical.choice, Quot.sound]
'Regalloc.PregMap.C25_conflict_set' depends on axioms: [propext, Classical.choice, Quot.sound]
'Regalloc.PregMap.C25_evict' depends on axioms: [propext, Classical.choice, Quot.sound]
'Regalloc.PregMap.C25_fixed_conflict' depends on axioms: [propext, Classical.choice, Quot.sound]
'Regalloc.PregMap.C25_high_cost' depends on axioms: [propext, Classical.choice, Quot.sound]
'Regalloc.PregMap.C25_history' depends on axioms: [propext, Classical.choice, Quot.sound]
'Regalloc.PregMap.C25_no_interference' depends on axioms: [propext, Classical.choice, Quot.sound]
'Regalloc.RedundantMoves.C19_block_execution_unchanged' depends on axioms: [propext, Classical.choice, Quot.sound]
'Regalloc.RedundantMoves.C19_block_prefix_unchanged' depends on axioms: [propext, Classical.choice, Quot.sound]
'Regalloc.RedundantMoves.C19_elision_preserves_state' depends on axioms: [propext, Quot.sound]
'Regalloc.RedundantMoves.C19_kept_is_subsequence' depends on axioms: [propext, Quot.sound]
'Regalloc.RedundantMoves.C19_repeat_is_elided' depends on axioms: [propext, Quot.sound]
'Regalloc.RegTraversalIter.C18_fixed' depends on axioms: [propext, Quot.sound]
'Regalloc.RegTraversalIter.C18_hint_first' depends on axioms: [propext, Classical.choice, Quot.sound]
'Regalloc.RegTraversalIter.C18_once' depends on axioms: [propext, Classical.choice, Quot.sound]
'Regalloc.RegTraversalIter.C18_preferred_first' depends on axioms: [propext, Classical.choice, Quot.sound]
'Regalloc.RegTraversalIter.C18_rotation' depends on axioms: [propext, Classical.choice, Quot.sound]
'Regalloc.RegTraversalIter.C18_yields' depends on axioms: [propext, Classical.choice, Quot.sound]
'Regalloc.Requirement.C17_bundle_conflict' depends on axioms: [propext, Classical.choice, Quot.sound]
'Regalloc.Requirement.C17_bundle_exact' depends on axioms: [propext, Classical.choice, Quot.sound]
'Regalloc.Requirement.C17_conflict_iff' depends on axioms: [propext, Classical.choice, Quot.sound]
'Regalloc.Requirement.C17_conflict_sound' depends on axioms: [propext, Classical.choice, Quot.sound]
'Regalloc.Requirement.C17_empty_limit_not_reported' depends on axioms: [propext, Quot.sound]
'Regalloc.Requirement.C17_merge_assoc' depends on axioms: [propext, Classical.choice, Quot.sound]
'Regalloc.Requirement.C17_merge_comm' depends on axioms: [propext, Classical.choice, Quot.sound]
'Regalloc.Requirement.C17_merge_exact' depends on axioms: [propext, Classical.choice, Quot.sound]
'Regalloc.Requirement.C17_operand_exact' depends on axioms: [propext]
'Regalloc.Requirement.C17_two_bundles' depends on axioms: [propext, Classical.choice, Quot.sound]
'Regalloc.ResolveMoves.C27_edits_sorted' depends on axioms: [propext, Classical.choice, Quot.sound]
'Regalloc.ResolveMoves.C37_extra_slots' depends on axioms: [propext, Classical.choice, Quot.sound]
'Regalloc.ResolveMoves.C37_push' depends on axioms: [propext, Quot.sound]
'Regalloc.ResolveMoves.C37_resolve_inserted_moves' depends on axioms: [propext, Classical.choice, Quot.sound]
'Regalloc.Spill.C22_disjoint_aligned_bounded' depends on axioms: [propext, Classical.choice, Quot.sound]
'Regalloc.Spill.C22_granted' depends on axioms: [propext, Classical.choice, Quot.sound]
'Regalloc.Spill.C22_named' depends on axioms: [propext, Classical.choice, Quot.sound]
'Regalloc.Spill.C22_one_slot_per_vreg' depends on axioms: [propext, Classical.choice, Quot.sound]
'Regalloc.Spill.C23_assignment' depends on axioms: [propext, Classical.choice, Quot.sound]
'Regalloc.Spill.C23_no_shared_words' depends on axioms: [propext, Classical.choice, Quot.sound]
'Regalloc.VRegSet.C16_double_remove_corrupts' depends on axioms: [propext, Quot.sound]
'Regalloc.VRegSet.C16_history' depends on axioms: [propext, Classical.choice, Quot.sound]
'Regalloc.VRegSet.C16_no_duplicates' depends on axioms: [propext, Classical.choice, Quot.sound]
'Regalloc.Weights.C35_assign_flag_wrong' depends on axioms: [propext, Quot.sound]
'Regalloc.Weights.C35_bits_roundtrip' depends on axioms: [propext, Quot.sound]
'Regalloc.Weights.C35_bundle_weights' depends on axioms: [propext, Quot.sound]
'Regalloc.Weights.C35_bundle_word' depends on axioms: [propext, Classical.choice, Quot.sound]
'Regalloc.Weights.C35_compress' depends on axioms: [propext, Quot.sound]
'Regalloc.Weights.C35_compress_monotone' depends on axioms: [propext, Quot.sound]
'Regalloc.Weights.C35_compress_precision' depends on axioms: [propext, Quot.sound]
'Regalloc.Weights.C35_range_word' depends on axioms: [propext, Classical.choice, Quot.sound]
'Regalloc.Weights.C35_use_weight' depends on axioms: [propext, Quot.sound]
'Regalloc.Weights.C35_value_order' depends on axioms: [propext, Quot.sound] 