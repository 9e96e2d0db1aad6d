{
 "claims": [
  {
   "property": "C01",
   "status": "proved",
   "theorems": [
    "Regalloc.Moves.C01_resolve_is_parallel_move",
    "Regalloc.Moves.C01_without_scratch"
   ],
   "note": "Whole of ParallelMoves::resolve and with_scratch."
  },
  {
   "property": "C02",
   "status": "proved",
   "theorems": [
    "Regalloc.Moves.C02_scratch_iff_cycle",
    "Regalloc.Moves.C02_only_given_locations",
    "Regalloc.Moves.C02_acyclic_is_reordering",
    "Regalloc.Moves.C02_short_verbatim"
   ],
   "note": "Scratch requested iff the moves contain a cycle; acyclic results are a reordering."
  },
  {
   "property": "C03",
   "status": "proved",
   "theorems": [
    "Regalloc.Moves.C03_scratch_resolver"
   ],
   "note": "Whole of MoveAndScratchResolver::compute; callbacks modelled by the sequence of their answers."
  },
  {
   "property": "C04",
   "status": "proved",
   "theorems": [
    "Regalloc.C04_operand_roundtrip",
    "Regalloc.C04_operand_injective",
    "Regalloc.C04_limit_accepted_iff",
    "Regalloc.C04_from_bits",
    "Regalloc.C04_decode_encode",
    "Regalloc.C04_fixed_nonallocatable",
    "Regalloc.C04_ordinary_not_nonallocatable"
   ],
   "note": "Whole of Operand's packed encoding."
  },
  {
   "property": "C05",
   "status": "proved",
   "theorems": [
    "Regalloc.C05_preg_roundtrip",
    "Regalloc.C05_preg_index_roundtrip",
    "Regalloc.C05_preg_index_of_new",
    "Regalloc.C05_preg_injective",
    "Regalloc.C05_preg_invalid_is_int63",
    "Regalloc.C05_vreg_roundtrip",
    "Regalloc.C05_vreg_surjective",
    "Regalloc.C05_vreg_injective",
    "Regalloc.C05_spillslot_roundtrip",
    "Regalloc.C05_spillslot_plus",
    "Regalloc.C05_alloc_reg",
    "Regalloc.C05_alloc_stack",
    "Regalloc.C05_alloc_none",
    "Regalloc.C05_alloc_injective",
    "Regalloc.C05_alloc_from_bits_release",
    "Regalloc.C05_alloc_from_bits_debug_panics",
    "Regalloc.C05_progpoint_roundtrip",
    "Regalloc.C05_progpoint_surjective",
    "Regalloc.C05_progpoint_order",
    "Regalloc.C05_progpoint_next",
    "Regalloc.C05_progpoint_limit"
   ],
   "note": "Findings: Allocation::from_bits panics on every valid word with debug assertions; PReg::invalid is Int 63; ProgPoint round trip needs inst < 2^30."
  },
  {
   "property": "C06",
   "status": "proved",
   "theorems": [
    "Regalloc.C06_history",
    "Regalloc.C06_ext",
    "Regalloc.C06_iteration",
    "Regalloc.C06_len",
    "Regalloc.C06_is_empty",
    "Regalloc.C06_max_preg",
    "Regalloc.C06_add_up_to_empty",
    "Regalloc.C06_add_up_to_drops_members",
    "Regalloc.C06_add_up_to_exact",
    "Regalloc.C06_of_env"
   ],
   "note": "Finding: add_up_to drops members it should keep when the set is not empty (theorem C06_add_up_to_drops_members)."
  },
  {
   "property": "C07",
   "status": "proved",
   "theorems": [
    "Regalloc.C07_history",
    "Regalloc.C07_iteration",
    "Regalloc.C07_union_reports_growth",
    "Regalloc.C07_is_empty",
    "Regalloc.C07_representation_unobservable",
    "Regalloc.C07_word_index_truncates"
   ],
   "note": "Whole of indexset.rs; hash iteration order arbitrary. Indices below 2^38 (word index is truncated to u32; C07_word_index_truncates shows aliasing beyond)."
  },
  {
   "property": "C08",
   "status": "proved",
   "theorems": [
    "Regalloc.C08_succeeds_iff",
    "Regalloc.C08_error",
    "Regalloc.C08_lists_reachable_once",
    "Regalloc.C08_order"
   ],
   "note": "For every graph. Blocks are Nat; recursion is the code's explicit stack."
  },
  {
   "property": "C09",
   "status": "proved",
   "theorems": [
    "Regalloc.C09_dominates",
    "Regalloc.C09_immediate_dominator",
    "Regalloc.C09_unreachable"
   ],
   "note": "For every graph whose predecessor lists agree with the successor lists; includes termination of the fixpoint within num_blocks+3 passes."
  },
  {
   "property": "C10",
   "status": "proved",
   "theorems": [
    "Regalloc.C10_single_definition",
    "Regalloc.C10_defined_before_use",
    "Regalloc.C10_terminators",
    "Regalloc.C10_accepts_ssa",
    "Regalloc.C10_out_of_range_use_panics",
    "Regalloc.C10_class_mismatch_accepted_across_blocks",
    "Regalloc.C10_undefined_branch_argument_accepted"
   ],
   "note": "Whole of validate_ssa; soundness and completeness. Findings: panics on out-of-range uses, classes not compared across blocks, branch arguments not checked as uses."
  },
  {
   "property": "C11",
   "status": "partial",
   "theorems": [
    "Regalloc.C11_no_critical_edge_partial",
    "Regalloc.C11_no_bad_branch_arg",
    "Regalloc.C11_entry_exit_points",
    "Regalloc.C11_insn_block",
    "Regalloc.C11_accepts_iff",
    "Regalloc.C11_return_with_successor_accepted"
   ],
   "note": "Whole of CFGInfo::init. Accepted iff no critical edge and no misplaced branch operand; never panics on well-formed input. Missing: 'or a return' in the source-block condition, which the code does not check: C11_return_with_successor_accepted shows an accepted function whose edge has no valid point (choose_move_location panics)."
  },
  {
   "property": "C12",
   "status": "partial",
   "theorems": [
    "Regalloc.Checker.C12_accepted_output_executes_alike_partial",
    "Regalloc.Checker.C12_stale_label_accepted",
    "Regalloc.Checker.C12_late_use_beside_reuse_accepted",
    "Regalloc.Checker.C12_two_defs_one_location_accepted"
   ],
   "note": "Soundness on every path for every instruction semantics, for SSA-shaped functions whose moves do not copy unknown locations over known ones. The hypotheses are needed: three negative theorems exhibit accepted wrong outputs (stale label after a move from an unknown location; late uses beside a reused input; late definition listed before an early one in the same location)."
  },
  {
   "property": "C13",
   "status": "partial",
   "theorems": [
    "Regalloc.Checker.C13_constraints_hold_partial",
    "Regalloc.Checker.C13_no_memory_to_memory_moves",
    "Regalloc.Checker.C13_late_reuse_not_checked",
    "Regalloc.Checker.C13_limit_on_stack_accepted",
    "Regalloc.Checker.C13_class_not_checked"
   ],
   "note": "All constraints for early operands and for instructions without Reuse; no memory-to-memory moves. Negative theorems: late Reuse never checked, Limit not enforced on spill slots, register class not checked."
  },
  {
   "property": "C14",
   "status": "proved",
   "theorems": [
    "Regalloc.Checker.C14_checker_returns",
    "Regalloc.Checker.C14_analysis_terminates"
   ],
   "note": "Termination of the analysis (fuel proved sufficient and irrelevant) and absence of every modelled panic under the API preconditions."
  },
  {
   "property": "C15",
   "status": "proved",
   "theorems": [
    "Regalloc.Lru.C15_last_satisfying",
    "Regalloc.Lru.C15_last",
    "Regalloc.Lru.C15_pop",
    "Regalloc.Lru.C15_ring_holds_registers",
    "Regalloc.Lru.C15_poke_unmanaged_panics"
   ],
   "note": "LRU ring of fastalloc: after any poke history the ring holds exactly the managed registers, last_satisfying and pop return the least recently used."
  },
  {
   "property": "C16",
   "status": "proved",
   "theorems": [
    "Regalloc.VRegSet.C16_history",
    "Regalloc.VRegSet.C16_no_duplicates",
    "Regalloc.VRegSet.C16_double_remove_corrupts"
   ],
   "note": "Any valid insert/remove history yields the inserted, not removed registers, most recent first. Removing a non-member corrupts the list (witness)."
  },
  {
   "property": "C17",
   "status": "proved",
   "theorems": [
    "Regalloc.Requirement.C17_merge_exact",
    "Regalloc.Requirement.C17_conflict_sound",
    "Regalloc.Requirement.C17_conflict_iff",
    "Regalloc.Requirement.C17_merge_comm",
    "Regalloc.Requirement.C17_merge_assoc",
    "Regalloc.Requirement.C17_operand_exact",
    "Regalloc.Requirement.C17_bundle_exact",
    "Regalloc.Requirement.C17_bundle_conflict",
    "Regalloc.Requirement.C17_two_bundles",
    "Regalloc.Requirement.C17_empty_limit_not_reported"
   ],
   "note": "merge, operand requirement and bundle requirement are exact; conflict iff no common place when each side is satisfiable; Limit(0) witness."
  },
  {
   "property": "C18",
   "status": "proved",
   "theorems": [
    "Regalloc.RegTraversalIter.C18_yields",
    "Regalloc.RegTraversalIter.C18_once",
    "Regalloc.RegTraversalIter.C18_hint_first",
    "Regalloc.RegTraversalIter.C18_preferred_first",
    "Regalloc.RegTraversalIter.C18_rotation",
    "Regalloc.RegTraversalIter.C18_fixed"
   ],
   "note": "Exact set, order and multiplicity of probed registers. Multiplicity assumes preferred and non-preferred sets are disjoint."
  },
  {
   "property": "C19",
   "status": "proved",
   "theorems": [
    "Regalloc.RedundantMoves.C19_elision_preserves_state",
    "Regalloc.RedundantMoves.C19_block_execution_unchanged",
    "Regalloc.RedundantMoves.C19_block_prefix_unchanged",
    "Regalloc.RedundantMoves.C19_kept_is_subsequence",
    "Regalloc.RedundantMoves.C19_repeat_is_elided"
   ],
   "note": "State equality for every event history, and for block executions with the driver of resolve_inserted_moves."
  },
  {
   "property": "C20",
   "status": "proved",
   "theorems": [
    "Regalloc.C20_block_items",
    "Regalloc.C20_instructions_once",
    "Regalloc.C20_edits_once",
    "Regalloc.C20_edit_after_terminator_not_yielded"
   ],
   "note": ""
  },
  {
   "property": "C21",
   "status": "proved",
   "theorems": [
    "Regalloc.C21_slices",
    "Regalloc.C21_slices_cover"
   ],
   "note": ""
  },
  {
   "property": "C22",
   "status": "proved",
   "theorems": [
    "Regalloc.Spill.C22_disjoint_aligned_bounded",
    "Regalloc.Spill.C22_named",
    "Regalloc.Spill.C22_granted",
    "Regalloc.Spill.C22_one_slot_per_vreg"
   ],
   "note": "Shared index allocator with 32-bit arithmetic, both naming conventions; fastalloc's slot table. Debug assertions and overflow are an error value."
  },
  {
   "property": "C23",
   "status": "proved",
   "theorems": [
    "Regalloc.Spill.C23_assignment",
    "Regalloc.Spill.C23_no_shared_words"
   ],
   "note": "allocate_spillslots with probing; nonempty live extents are assumed for required sets."
  },
  {
   "property": "C24",
   "status": "proved",
   "theorems": [
    "Regalloc.C24_rejects_iff",
    "Regalloc.C24_liveness_exact",
    "Regalloc.C24_ties_depend_on_order"
   ],
   "note": "reachable blocks; functions with no instruction using and defining a register at one position (C24_ties_depend_on_order shows why); register class recording not modelled"
  },
  {
   "property": "C25",
   "status": "proved",
   "theorems": [
    "Regalloc.PregMap.C25_history",
    "Regalloc.PregMap.C25_no_interference",
    "Regalloc.PregMap.C25_attempt",
    "Regalloc.PregMap.C25_conflict_set",
    "Regalloc.PregMap.C25_fixed_conflict",
    "Regalloc.PregMap.C25_high_cost",
    "Regalloc.PregMap.C25_evict"
   ],
   "note": "Histories of reservations, attempts, evictions and reshaping of unallocated bundles; maps are in-order entry lists."
  },
  {
   "property": "C26",
   "status": "proved",
   "theorems": [
    "Regalloc.C26_cmp_exact",
    "Regalloc.C26_eq_overlaps",
    "Regalloc.C26_strict_total_order",
    "Regalloc.C26_not_order_in_general",
    "Regalloc.C26_lookup",
    "Regalloc.C26_lookup_list",
    "Regalloc.C26_insert",
    "Regalloc.C26_remove",
    "Regalloc.C26_range_ops"
   ],
   "note": "Comparison, equality and range operations; lookup by descent in any search tree."
  },
  {
   "property": "C27",
   "status": "proved",
   "theorems": [
    "Regalloc.C27_u64_key_order",
    "Regalloc.C27_u128_key_order",
    "Regalloc.C27_blockparam_order",
    "Regalloc.C27_position_order",
    "Regalloc.ResolveMoves.C27_edits_sorted"
   ],
   "note": "Keys as tuples (64 and 128 bit, block parameters), stable sorting of edits, final edit list of resolve_inserted_moves in order."
  },
  {
   "property": "C28",
   "status": "partial",
   "theorems": [
    "Regalloc.Fast.C28_fastalloc_preserves_partial",
    "Regalloc.Fast.C28_layout_violation",
    "Regalloc.Fast.C28_reuse_fixed_violation",
    "Regalloc.Fast.C28_stack_def_violation"
   ],
   "note": "Proved for all functions satisfying FuncOk (SSA, definitions laid out before uses, plain/fixed/reuse definitions, no definitions on branches) on every path, for every instruction behaviour. The unrestricted statement is false: three concrete violations are proved (layout order, reuse of a fixed input, definitions on the stack)."
  },
  {
   "property": "C29",
   "status": "partial",
   "theorems": [
    "Regalloc.Fast.C29_constraints_met_partial",
    "Regalloc.Fast.C29_conflicting_apart_partial",
    "Regalloc.Fast.C29_defs_survive_clobbers_partial",
    "Regalloc.Fast.C29_late_uses_survive_clobbers_partial",
    "Regalloc.Fast.C29_no_memory_moves"
   ],
   "note": "Constraints met, conflicting operands apart and definitions not clobbered, for every instruction of every function satisfying FuncOk. Functions outside FuncOk (definitions on the stack or Any, branch definitions) are not covered. C29_no_memory_moves holds for every function."
  },
  {
   "property": "C30",
   "status": "proved",
   "theorems": [
    "Regalloc.C30_queries_agree",
    "Regalloc.C30_limits"
   ],
   "note": "queries on the copy; the derived serde encoding itself is not modelled"
  },
  {
   "property": "C31",
   "status": "proved",
   "theorems": [
    "Regalloc.Ion.C31_split_halves",
    "Regalloc.Ion.C31_point_in_one_piece",
    "Regalloc.Ion.C31_instruction_not_split",
    "Regalloc.Ion.C31_split_minimal",
    "Regalloc.Ion.C31_split_dissolves",
    "Regalloc.Ion.C31_spill_bundle_recorded",
    "Regalloc.Ion.C31_dissolve_needs_def_first",
    "Regalloc.Ion.C31_recompute_forgets_fixed"
   ],
   "note": "All of split_and_requeue_bundle, split_into_minimal_bundles and the property recomputation are modelled. The halves theorem covers every bundle spanning two instructions, the minimal theorem every other. The minimal theorem assumes a definition is at the start of its range (C31_dissolve_needs_def_first shows the claim fails otherwise). Spill weights are modelled in C35."
  },
  {
   "property": "C32",
   "status": "proved",
   "theorems": [
    "Regalloc.C32_edge_point_executed_once_per_traversal"
   ],
   "note": "choose_move_location after CFG validation; returns assumed to have no successors (see C11)."
  },
  {
   "property": "C33",
   "status": "proved",
   "theorems": [
    "Regalloc.Ion.C33_refused_unchanged",
    "Regalloc.Ion.C33_success_implies",
    "Regalloc.Ion.C33_success_result",
    "Regalloc.Ion.C33_pass",
    "Regalloc.Ion.C33_merges_when_possible",
    "Regalloc.Ion.C33_sort_order_unique",
    "Regalloc.Ion.C33_empty_target_extent"
   ],
   "note": "merge_bundles (two-pointer scan, 200-step limit, requirement check, commit) and the whole merge_vreg_bundles pass: success implies one class, disjoint ranges and a common location; result is the ordered disjoint union; refusals change nothing; completeness up to 201 ranges; every range ends in exactly one bundle. Finding: merging into a bundle without ranges does not widen the spill set extent."
  },
  {
   "property": "C34",
   "status": "proved",
   "theorems": [
    "Regalloc.C34_covers_exactly",
    "Regalloc.C34_sorted_disjoint",
    "Regalloc.C34_operand_recorded",
    "Regalloc.C34_records_are_operands",
    "Regalloc.C34_starts_at_def",
    "Regalloc.C34_reservations",
    "Regalloc.C34_fixup_iff",
    "Regalloc.C34_nonallocatable_assigned",
    "Regalloc.C34_block_params",
    "Regalloc.C34_no_panic",
    "Regalloc.Build.Ex.C34_same_fixed_use_twice_panics",
    "Regalloc.Build.Ex.C34_starts_at_def_elsewhere"
   ],
   "note": "Model of build_liveranges for whole functions. Ranges of a register cover exactly the points where it is live (stated over uses, definitions, block parameters and the executions after the block, via C24), are sorted and separated by gaps, every operand is recorded once, in a range that contains its point. Physical register reservations, fixup moves and block parameter lists are exact. No debug assertion fails for SSA functions with at most one early use fixed to each register; a concrete panic without that is proved. Register classes and weights are not modelled here."
  },
  {
   "property": "C35",
   "status": "proved",
   "theorems": [
    "Regalloc.Weights.C35_value_order",
    "Regalloc.Weights.C35_compress",
    "Regalloc.Weights.C35_compress_monotone",
    "Regalloc.Weights.C35_compress_precision",
    "Regalloc.Weights.C35_bits_roundtrip",
    "Regalloc.Weights.C35_use_weight",
    "Regalloc.Weights.C35_range_word",
    "Regalloc.Weights.C35_assign_flag_wrong",
    "Regalloc.Weights.C35_bundle_word",
    "Regalloc.Weights.C35_bundle_weights"
   ],
   "note": "weights as f32 bit patterns; float sum over uses not modelled (only single use weights and packing)"
  },
  {
   "property": "C36",
   "status": "proved",
   "theorems": [
    "Regalloc.C36_reuse",
    "Regalloc.C36_pool"
   ],
   "note": "container contents abstract; what the passes leave in uncleared scratch fields is the Leaves specification"
  },
  {
   "property": "C37",
   "status": "proved",
   "theorems": [
    "Regalloc.ResolveMoves.C37_push",
    "Regalloc.ResolveMoves.C37_resolve_inserted_moves",
    "Regalloc.ResolveMoves.C37_extra_slots"
   ],
   "note": "End to end for resolve_inserted_moves under stated promises about groups (one writer per destination, classes apart, slots in range)."
  },
  {
   "property": "C38",
   "status": "partial",
   "theorems": [
    "Regalloc.Apply.C38_moves_implement_assignment_partial",
    "Regalloc.Apply.C38_no_panic",
    "Regalloc.Apply.C38_operand_locations",
    "Regalloc.Apply.C38_branch_clobber_violation",
    "Regalloc.Apply.C38_two_reuses_violation"
   ],
   "note": "Whole of apply_allocations_and_insert_moves composed with resolve_inserted_moves (C37), executed on the output tables (C20). C38_no_panic: the pass succeeds if values arrive at the end of predecessors. Missing: branches with clobbers that lead to a join, and instructions with two reused inputs; on both the code is wrong (C38_branch_clobber_violation, C38_two_reuses_violation)."
  },
  {
   "property": "C39",
   "status": "proved",
   "theorems": [
    "Regalloc.C39_relaxed",
    "Regalloc.C39_fixups",
    "Regalloc.C39_dropped",
    "Regalloc.C39_needed",
    "Regalloc.C39_served",
    "Regalloc.C39_source",
    "Regalloc.C39_no_panic",
    "Regalloc.Build.ExMulti.C39_source_rewritten",
    "Regalloc.Build.ExMulti.C39_same_register_twice_panics",
    "Regalloc.Build.ExMulti.C39_stack_twice_panics",
    "Regalloc.Build.ExMulti.C39_move_after_instruction"
   ],
   "note": "Whole pass, composed with build_liveranges. C39_served: one location admits all uses at a point; C39_relaxed, C39_needed: nothing else changes; C39_fixups: origin, level and reservation of each noted move; C39_dropped: the use it serves no longer asks for its register; C39_no_panic: the pass succeeds unless a stack use is accompanied by another use or constraints at the end of an instruction conflict; C39_source excludes registers beyond a limit, where the code is wrong (C39_source_rewritten). Three further violations are proved: debug assertions and panics (C39_same_register_twice_panics, C39_stack_twice_panics) and a move placed after the instruction that needs it (C39_move_after_instruction)."
  },
  {
   "property": "C40",
   "status": "proved",
   "theorems": [
    "Regalloc.Ion.C40_placed",
    "Regalloc.Ion.C40_no_panic",
    "Regalloc.Ion.C40_terminates",
    "Regalloc.Ion.C40_too_many",
    "Regalloc.Ion.C40_unallocatable",
    "Regalloc.Ion.C40_underflow",
    "Regalloc.Ion.C40_total",
    "Regalloc.Ion.C40_no_register_panics"
   ],
   "note": "Whole loop: queue, register scan, eviction, splitting, spilling, second pass over spilled bundles. Initial conditions (Ready, Setting) are those left by range building and merging; C40_no_panic assumes a register for every operand (Supply), without which the code does panic (C40_no_register_panics). C40_terminates assumes that the sum of range weights depends on the ranges of the bundle only (LocalTotal). The causes of the reports tooManyLiveRegs, unallocatable and underflow are characterised (C40_too_many, C40_unallocatable, C40_underflow); without those causes the loop succeeds (C40_total). LimitsOk is the assertion of Operand::new on limits."
  },
  {
   "property": "C41",
   "status": "partial",
   "theorems": [
    "Regalloc.Pipeline.C41_same_behaviour_partial",
    "Regalloc.Pipeline.C41_operands_partial",
    "Regalloc.Pipeline.C41_nonallocatable",
    "Regalloc.Pipeline.C41_edits",
    "Regalloc.Pipeline.C41_reused_input_violation"
   ],
   "note": "C41_same_behaviour_partial: whenever the model of run returns an output, the allocated program reads the same values as the original in every instruction on every path. C41_operands_partial: operands meet their constraints. C41_nonallocatable, C41_edits. Partial: ProgramOk asks for SSA form without unreachable blocks, no clobbers on branches to joins, at most one reused input per instruction (both necessary, see C38), and constraints of late operands of one register that fit together; constraints other than Any and Reg on reused inputs are ignored by the code (C41_reused_input_violation)."
  },
  {
   "property": "C42",
   "status": "partial",
   "theorems": [
    "Regalloc.Pipeline.C42_errors",
    "Regalloc.Pipeline.C42_no_panic",
    "Regalloc.Pipeline.C42_terminates",
    "Regalloc.Pipeline.C42_total_partial",
    "Regalloc.Pipeline.C42_first_instruction_violation",
    "Regalloc.Pipeline.C42_dying_input_violation"
   ],
   "note": "C42_errors: meaning of each error; C42_no_panic; C42_terminates; C42_total_partial: with fuel enough, a function in which no instruction by itself asks for too much is allocated and behaves like the original. Partial: ProgramOk as for C41, and Serviceable: within an instruction, no two operands are fixed to one register at the same point, stack operands do not share their register, limits can be encoded, slots fit the encoding. Two panics outside of that are proved with concrete functions: C42_first_instruction_violation (underflow instead of the error at the first instruction) and C42_dying_input_violation (a fixed, clobbered input beside a reused one)."
  },
  {
   "property": "C43",
   "status": "partial",
   "theorems": [
    "Regalloc.Api.C43_validation_only_rejects",
    "Regalloc.Api.C43_ssa_accepted",
    "Regalloc.Api.C43_accepted_is_ssa",
    "Regalloc.Api.C43_same_behaviour_partial",
    "Regalloc.Api.C43_algorithms_agree_partial"
   ],
   "note": "the statements about validation (validation only rejects, accepts SSA, accepted is SSA) are proved in full; the two about behaviour are for the functions of C28 and C41"
  },
  {
   "property": "C44",
   "status": "partial",
   "theorems": [
    "Regalloc.Pipeline.C44_checker_accepts_partial",
    "Regalloc.Pipeline.C44_order_violation",
    "Regalloc.Pipeline.C44_reused_input_violation"
   ],
   "note": "The checker model of C12-C14 accepts every output of the backtracking allocator model of C41, for functions as in C41 with branches only at the end of blocks, whose blocks are numbered in order, and with plain constraints on reused inputs. C44_order_violation and C44_reused_input_violation show that the order and the plain constraints cannot be dropped."
  },
  {
   "property": "C45",
   "status": "proved",
   "theorems": [
    "Regalloc.Checker.C45_checker_complete",
    "Regalloc.Fast.C45_accepts_fastalloc_partial"
   ],
   "note": "For functions laid out in order (LaidOut), every output that meets the constraints (ConstraintsMet), keeps operands apart (Undisturbed) and behaves alike on all paths is accepted. C45_accepts_fastalloc_partial applies it to the outputs of the single-pass allocator, for the functions of C28."
  },
  {
   "property": "C46",
   "status": "proved",
   "theorems": [
    "Regalloc.Fast.C46_edits_sorted",
    "Regalloc.Fast.C46_all_operands",
    "Regalloc.Fast.C46_checker_answers",
    "Regalloc.Fast.C46_no_panic",
    "Regalloc.Fast.C46_correct_or_error",
    "Regalloc.Fast.C46_limit_violation",
    "Regalloc.Fast.C46_reuse_stack_violation",
    "Regalloc.Fast.C46_reuse_late_violation",
    "Regalloc.Fast.C46_no_registers_violation"
   ],
   "note": "C46_no_panic for functions laid out in definition order; C46_correct_or_error joins it with C28. C46_edits_sorted, C46_all_operands and C46_checker_answers: the output is well formed, also where definitions may be anywhere. C46_limit_violation, C46_reuse_stack_violation, C46_reuse_late_violation and C46_no_registers_violation show that the hypotheses on operands and classes are needed. The debug assertions on counters are not modelled."
  },
  {
   "property": "C47",
   "status": "partial",
   "theorems": [
    "Regalloc.Fast.C47_enough_registers_partial",
    "Regalloc.Fast.C47_total_correct_partial",
    "Regalloc.Fast.C47_starved_violation",
    "Regalloc.Fast.C47_fixed_twice_violation"
   ],
   "note": "Success is proved for all functions (of C46) whose instructions leave as many registers of each class alone as they have operands that are neither fixed nor on the stack (Any definitions of registers that are never read do not count), plus one where no dedicated scratch register exists. The full statement, success whenever locations exist for each instruction, is false of the code; two refutations are proved (C47_starved_violation, C47_fixed_twice_violation)."
  },
  {
   "property": "C48",
   "status": "partial",
   "theorems": [
    "Regalloc.Debug.C48_locations_hold_partial",
    "Regalloc.Debug.C48_covers",
    "Regalloc.Debug.C48_sorted",
    "Regalloc.Debug.C48_total",
    "Regalloc.Debug.C48_edge_violation",
    "Regalloc.Debug.C48_disjoint_violation"
   ],
   "note": "Entries hold the value at every point except (see the theorem) after a branch to a join, before an instruction defining the register, and before an instruction reusing another input if the entry ends there; coverage exact, order and totality proved. Correctness after branches to joins and disjointness are refuted (C48_edge_violation, C48_disjoint_violation)."
  },
  {
   "property": "C49",
   "status": "partial",
   "theorems": [
    "Regalloc.Fast.C49_locations_hold_partial",
    "Regalloc.Fast.C49_points",
    "Regalloc.Fast.C49_reported",
    "Regalloc.Fast.C49_sorted",
    "Regalloc.Fast.C49_total",
    "Regalloc.Fast.C49_extent_violation",
    "Regalloc.Fast.C49_coverage_violation",
    "Regalloc.Fast.C49_local_violation",
    "Regalloc.Fast.C49_edge_violation"
   ],
   "note": "Proved: the reported location holds the value before every instruction, in any block, where it may still be read, for registers that are live at the start of some block or only read in registers; entries span from where the register gets its value to the last access in code order; labels within that span are reported; order, number and existence of entries. Missing: registers live within one block only that are read on the stack or without constraint. Refuted: entries stay within the span asked for, entries of one label are disjoint, live labelled registers are always reported, the location holds the value once the moves before a branch are made, and the location of a block-local register always holds its value."
  },
  {
   "property": "C50",
   "status": "proved",
   "theorems": [
    "Regalloc.C50_index_roundtrip",
    "Regalloc.C50_index_overflow",
    "Regalloc.C50_next_prev",
    "Regalloc.C50_range",
    "Regalloc.C50_range_list",
    "Regalloc.C50_push",
    "Regalloc.C50_assign",
    "Regalloc.C50_view",
    "Regalloc.C50_view_partition"
   ],
   "note": "Whole of index.rs (for the index type Inst; the macro makes the others the same) and fastalloc/iter.rs."
  },
  {
   "property": "C51",
   "status": "proved",
   "theorems": [
    "Regalloc.FuzzGen.C51_no_panic",
    "Regalloc.FuzzGen.C51_ssa",
    "Regalloc.FuzzGen.C51_valid",
    "Regalloc.FuzzGen.C51_arguments",
    "Regalloc.FuzzGen.C51_operands",
    "Regalloc.FuzzGen.C51_labels_sorted"
   ],
   "note": "Choices are a list of numbers instead of bytes (each arbitrary call yields some number or fails), so all byte strings are covered. machine_env() is modelled in C52."
  },
  {
   "property": "C52",
   "status": "proved",
   "theorems": [
    "Regalloc.FuzzGen.C52_allocates",
    "Regalloc.FuzzGen.C52_target",
    "Regalloc.FuzzGen.C52_ion_target"
   ],
   "note": "For all options within size limits and for those of the target. Annotations and reuse of the context are not modelled (for the latter see C36); sums of weights are arbitrary as long as they depend only on the ranges summed."
  },
  {
   "property": "C53",
   "status": "proved",
   "theorems": [
    "Regalloc.FuzzDom.C53_domtree_target",
    "Regalloc.FuzzDom.C53_domtree_oracle",
    "Regalloc.FuzzDom.C53_domtree_oracle_misses",
    "Regalloc.FuzzMoves.C53_moves_target",
    "Regalloc.FuzzMoves.C53_moves_oracle",
    "Regalloc.FuzzMoves.C53_moves_oracle_misses"
   ],
   "note": "Both targets, with their generators; the oracles are characterised, including what they miss."
  },
  {
   "property": "C54",
   "status": "partial",
   "theorems": [
    "Regalloc.FuzzGen.C54_allocates",
    "Regalloc.FuzzGen.C54_checker_answers",
    "Regalloc.FuzzGen.C54_target_partial",
    "Regalloc.FuzzGen.C54_fast_target"
   ],
   "note": "The allocator is proved to succeed, for all options within size limits and for those of the target, with and without validation, and the checker to give an answer; so the target passes or reports errors of the checker (C54_target_partial, C54_fast_target). That there are none is not proved: C28 does not cover definitions that may be anywhere."
  }
 ]
}