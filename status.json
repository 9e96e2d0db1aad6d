{
 "C01": {
  "status": "proved",
  "note": "Whole of ParallelMoves::resolve and with_scratch."
 },
 "C02": {
  "status": "proved",
  "note": "Scratch requested iff the moves contain a cycle; acyclic results are a reordering."
 },
 "C03": {
  "status": "proved",
  "note": "Whole of MoveAndScratchResolver::compute; callbacks modelled by the sequence of their answers."
 },
 "C04": {
  "status": "proved",
  "note": "Whole of Operand's packed encoding."
 },
 "C05": {
  "status": "proved",
  "note": "Findings: Allocation::from_bits panics on every valid word with debug assertions; PReg::invalid is Int 63; ProgPoint round trip needs inst < 2^30."
 },
 "C06": {
  "status": "proved",
  "note": "Finding: add_up_to drops members it should keep when the set is not empty (theorem C06_add_up_to_drops_members)."
 },
 "C07": {
  "status": "proved",
  "note": "Whole of indexset.rs; hash iteration order arbitrary. Indices below 2^38 (word index is truncated to u32; C07_word_index_truncates shows aliasing beyond)."
 },
 "C08": {
  "status": "proved",
  "note": "For every graph. Blocks are Nat; recursion is the code's explicit stack."
 },
 "C09": {
  "status": "proved",
  "note": "For every graph whose predecessor lists agree with the successor lists; includes termination of the fixpoint within num_blocks+3 passes."
 },
 "C20": {
  "status": "proved",
  "note": ""
 },
 "C21": {
  "status": "proved",
  "note": ""
 },
 "C11": {
  "status": "partial",
  "note": "Whole of CFGInfo::init. Accepted iff no critical edge and no misplaced branch operand; never panics on well-formed input. Missing: 'or a return' in the source-block condition, which the code does not check: C11_return_with_successor_accepted shows an accepted function whose edge has no valid point (choose_move_location panics)."
 },
 "C32": {
  "status": "proved",
  "note": "choose_move_location after CFG validation; returns assumed to have no successors (see C11)."
 },
 "C10": {
  "status": "proved",
  "note": "Whole of validate_ssa; soundness and completeness. Findings: panics on out-of-range uses, classes not compared across blocks, branch arguments not checked as uses."
 },
 "C12": {
  "status": "partial",
  "note": "Soundness on every path for every instruction semantics, for SSA-shaped functions whose moves do not copy unknown locations over known ones. The hypotheses are needed: three negative theorems exhibit accepted wrong outputs (stale label after a move from an unknown location; late uses beside a reused input; late definition listed before an early one in the same location)."
 },
 "C13": {
  "status": "partial",
  "note": "All constraints for early operands and for instructions without Reuse; no memory-to-memory moves. Negative theorems: late Reuse never checked, Limit not enforced on spill slots, register class not checked."
 },
 "C14": {
  "status": "proved",
  "note": "Termination of the analysis (fuel proved sufficient and irrelevant) and absence of every modelled panic under the API preconditions."
 },
 "C15": {
  "status": "proved",
  "note": "LRU ring of fastalloc: after any poke history the ring holds exactly the managed registers, last_satisfying and pop return the least recently used."
 },
 "C16": {
  "status": "proved",
  "note": "Any valid insert/remove history yields the inserted, not removed registers, most recent first. Removing a non-member corrupts the list (witness)."
 },
 "C17": {
  "status": "proved",
  "note": "merge, operand requirement and bundle requirement are exact; conflict iff no common place when each side is satisfiable; Limit(0) witness."
 },
 "C18": {
  "status": "proved",
  "note": "Exact set, order and multiplicity of probed registers. Multiplicity assumes preferred and non-preferred sets are disjoint."
 },
 "C19": {
  "status": "proved",
  "note": "State equality for every event history, and for block executions with the driver of resolve_inserted_moves."
 },
 "C22": {
  "status": "proved",
  "note": "Shared index allocator with 32-bit arithmetic, both naming conventions; fastalloc's slot table. Debug assertions and overflow are an error value."
 },
 "C23": {
  "status": "proved",
  "note": "allocate_spillslots with probing; nonempty live extents are assumed for required sets."
 },
 "C25": {
  "status": "proved",
  "note": "Histories of reservations, attempts, evictions and reshaping of unallocated bundles; maps are in-order entry lists."
 },
 "C26": {
  "status": "proved",
  "note": "Comparison, equality and range operations; lookup by descent in any search tree."
 },
 "C27": {
  "status": "proved",
  "note": "Keys as tuples (64 and 128 bit, block parameters), stable sorting of edits, final edit list of resolve_inserted_moves in order."
 },
 "C37": {
  "status": "proved",
  "note": "End to end for resolve_inserted_moves under stated promises about groups (one writer per destination, classes apart, slots in range)."
 },
 "C35": {
  "status": "proved",
  "note": "weights as f32 bit patterns; float sum over uses not modelled (only single use weights and packing)"
 },
 "C24": {
  "status": "proved",
  "note": "reachable blocks; functions with no instruction using and defining a register at one position (C24_ties_depend_on_order shows why); register class recording not modelled"
 },
 "C30": {
  "status": "proved",
  "note": "queries on the copy; the derived serde encoding itself is not modelled"
 },
 "C36": {
  "status": "proved",
  "note": "container contents abstract; what the passes leave in uncleared scratch fields is the Leaves specification"
 },
 "C33": {
  "status": "proved",
  "note": "merge_bundles (two-pointer scan, 200-step limit, requirement check, commit) and the whole merge_vreg_bundles pass: success implies one class, disjoint ranges and a common location; result is the ordered disjoint union; refusals change nothing; completeness up to 201 ranges; every range ends in exactly one bundle. Finding: merging into a bundle without ranges does not widen the spill set extent."
 },
 "C31": {
  "status": "proved",
  "note": "All of split_and_requeue_bundle, split_into_minimal_bundles and the property recomputation are modelled. The halves theorem covers every bundle spanning two instructions, the minimal theorem every other. The minimal theorem assumes a definition is at the start of its range (C31_dissolve_needs_def_first shows the claim fails otherwise). Spill weights are modelled in C35."
 },
 "C28": {
  "status": "partial",
  "note": "Proved for all functions satisfying FuncOk (SSA, definitions laid out before uses, plain/fixed/reuse definitions, no definitions on branches) on every path, for every instruction behaviour. The unrestricted statement is false: three concrete violations are proved (layout order, reuse of a fixed input, definitions on the stack)."
 },
 "C29": {
  "status": "partial",
  "note": "Constraints met, conflicting operands apart and definitions not clobbered, for every instruction of every function satisfying FuncOk. Functions outside FuncOk (definitions on the stack or Any, branch definitions) are not covered. C29_no_memory_moves holds for every function."
 },
 "C34": {
  "status": "proved",
  "note": "Model of build_liveranges for whole functions. Ranges of a register cover exactly the points where it is live (stated over uses, definitions, block parameters and the executions after the block, via C24), are sorted and separated by gaps, every operand is recorded once, in a range that contains its point. Physical register reservations, fixup moves and block parameter lists are exact. No debug assertion fails for SSA functions with at most one early use fixed to each register; a concrete panic without that is proved. Register classes and weights are not modelled here."
 },
 "C38": {
  "status": "partial",
  "note": "Whole of apply_allocations_and_insert_moves composed with resolve_inserted_moves (C37), executed on the output tables (C20). C38_no_panic: the pass succeeds if values arrive at the end of predecessors. Missing: branches with clobbers that lead to a join, and instructions with two reused inputs; on both the code is wrong (C38_branch_clobber_violation, C38_two_reuses_violation)."
 },
 "C40": {
  "status": "proved",
  "note": "Whole loop: queue, register scan, eviction, splitting, spilling, second pass over spilled bundles. Initial conditions (Ready, Setting) are those left by range building and merging; C40_no_panic assumes a register for every operand (Supply), without which the code does panic (C40_no_register_panics). C40_terminates assumes that the sum of range weights depends on the ranges of the bundle only (LocalTotal). The causes of the reports tooManyLiveRegs, unallocatable and underflow are characterised (C40_too_many, C40_unallocatable, C40_underflow); without those causes the loop succeeds (C40_total). LimitsOk is the assertion of Operand::new on limits."
 },
 "C39": {
  "status": "proved",
  "note": "Whole pass, composed with build_liveranges. C39_served: one location admits all uses at a point; C39_relaxed, C39_needed: nothing else changes; C39_fixups: origin, level and reservation of each noted move; C39_dropped: the use it serves no longer asks for its register; C39_no_panic: the pass succeeds unless a stack use is accompanied by another use or constraints at the end of an instruction conflict; C39_source excludes registers beyond a limit, where the code is wrong (C39_source_rewritten). Three further violations are proved: debug assertions and panics (C39_same_register_twice_panics, C39_stack_twice_panics) and a move placed after the instruction that needs it (C39_move_after_instruction)."
 },
 "C41": {
  "status": "partial",
  "note": "C41_same_behaviour_partial: whenever the model of run returns an output, the allocated program reads the same values as the original in every instruction on every path. C41_operands_partial: operands meet their constraints. C41_nonallocatable, C41_edits. Partial: ProgramOk asks for SSA form without unreachable blocks, no clobbers on branches to joins, at most one reused input per instruction (both necessary, see C38), and constraints of late operands of one register that fit together; constraints other than Any and Reg on reused inputs are ignored by the code (C41_reused_input_violation)."
 },
 "C42": {
  "status": "partial",
  "note": "C42_errors: meaning of each error; C42_no_panic; C42_terminates; C42_total_partial: with fuel enough, a function in which no instruction by itself asks for too much is allocated and behaves like the original. Partial: ProgramOk as for C41, and Serviceable: within an instruction, no two operands are fixed to one register at the same point, stack operands do not share their register, limits can be encoded, slots fit the encoding. Two panics outside of that are proved with concrete functions: C42_first_instruction_violation (underflow instead of the error at the first instruction) and C42_dying_input_violation (a fixed, clobbered input beside a reused one)."
 },
 "C44": {
  "status": "partial",
  "note": "The checker model of C12-C14 accepts every output of the backtracking allocator model of C41, for functions as in C41 with branches only at the end of blocks, whose blocks are numbered in order, and with plain constraints on reused inputs. C44_order_violation and C44_reused_input_violation show that the order and the plain constraints cannot be dropped."
 },
 "C45": {
  "status": "proved",
  "note": "For functions laid out in order (LaidOut), every output that meets the constraints (ConstraintsMet), keeps operands apart (Undisturbed) and behaves alike on all paths is accepted. C45_accepts_fastalloc_partial applies it to the outputs of the single-pass allocator, for the functions of C28."
 },
 "C43": {
  "status": "partial",
  "note": "the statements about validation (validation only rejects, accepts SSA, accepted is SSA) are proved in full; the two about behaviour are for the functions of C28 and C41"
 },
 "C46": {
  "status": "proved",
  "note": "C46_no_panic for functions laid out in definition order; C46_correct_or_error joins it with C28. C46_edits_sorted, C46_all_operands and C46_checker_answers: the output is well formed, also where definitions may be anywhere. C46_limit_violation, C46_reuse_stack_violation, C46_reuse_late_violation and C46_no_registers_violation show that the hypotheses on operands and classes are needed. The debug assertions on counters are not modelled."
 },
 "C47": {
  "status": "partial",
  "note": "Success is proved for all functions (of C46) whose instructions leave as many registers of each class alone as they have operands that are neither fixed nor on the stack (Any definitions of registers that are never read do not count), plus one where no dedicated scratch register exists. The full statement, success whenever locations exist for each instruction, is false of the code; two refutations are proved (C47_starved_violation, C47_fixed_twice_violation)."
 },
 "C48": {
  "status": "partial",
  "note": "Entries hold the value at every point except (see the theorem) after a branch to a join, before an instruction defining the register, and before an instruction reusing another input if the entry ends there; coverage exact, order and totality proved. Correctness after branches to joins and disjointness are refuted (C48_edge_violation, C48_disjoint_violation)."
 },
 "C49": {
  "status": "partial",
  "note": "Proved: the reported location holds the value before every instruction, in any block, where it may still be read, for registers that are live at the start of some block or only read in registers; entries span from where the register gets its value to the last access in code order; labels within that span are reported; order, number and existence of entries. Missing: registers live within one block only that are read on the stack or without constraint. Refuted: entries stay within the span asked for, entries of one label are disjoint, live labelled registers are always reported, the location holds the value once the moves before a branch are made, and the location of a block-local register always holds its value."
 },
 "C50": {
  "status": "proved",
  "note": "Whole of index.rs (for the index type Inst; the macro makes the others the same) and fastalloc/iter.rs."
 },
 "C51": {
  "status": "proved",
  "note": "Choices are a list of numbers instead of bytes (each arbitrary call yields some number or fails), so all byte strings are covered. machine_env() is modelled in C52."
 },
 "C52": {
  "status": "proved",
  "note": "For all options within size limits and for those of the target. Annotations and reuse of the context are not modelled (for the latter see C36); sums of weights are arbitrary as long as they depend only on the ranges summed."
 },
 "C53": {
  "status": "proved",
  "note": "Both targets, with their generators; the oracles are characterised, including what they miss."
 },
 "C54": {
  "status": "partial",
  "note": "The allocator is proved to succeed, for all options within size limits and for those of the target, with and without validation, and the checker to give an answer; so the target passes or reports errors of the checker (C54_target_partial, C54_fast_target). That there are none is not proved: C28 does not cover definitions that may be anywhere."
 }
}