{"id": "C01", "title": "Resolved move sequence equals the parallel move", "statement": "For every set of parallel moves whose destinations are pairwise distinct, executing the sequence returned by ParallelMoves::resolve one move at a time leaves in every requested destination the value its source held before the whole set, and leaves every location that is neither a requested destination nor the scratch location unchanged.", "quantifier": "all finite move sets with pairwise distinct destinations (any size, any mix of chains, fan-outs and cycles, any input order), all initial contents of the locations, all scratch locations that do not occur in the set", "why_tests_cant": "Move graphs are unbounded; the resolver mixes fast paths, dedup and a DFS over the move graph, and a test samples a handful of shapes.", "anchors": ["src/moves.rs: ParallelMoves::add, ParallelMoves::resolve, MoveVecWithScratch"]}
{"id": "C02", "title": "Scratch is requested exactly when a cycle exists", "statement": "resolve() reports that it needs a scratch location if and only if the move set (after dropping self-moves) contains a cycle of locations; with_scratch(s) then mentions no location other than s and the locations of the move set, and when no scratch is needed the sequence is a reordering of the requested non-trivial moves.", "quantifier": "all finite move sets with pairwise distinct destinations", "why_tests_cant": "needs_scratch is decided by the shape of an arbitrary graph; only a proof over all graphs rules out a missed cycle or a spurious scratch.", "anchors": ["src/moves.rs: ParallelMoves::resolve, MoveVecWithScratch::needs_scratch, with_scratch, without_scratch"]}
{"id": "C03", "title": "Scratch resolver keeps the effect and removes stack-to-stack moves", "statement": "For every resolved move sequence, MoveAndScratchResolver::compute returns a plain sequence that contains no move whose source and destination are both memory, has the same effect as the parallel move on all requested destinations, and leaves every other location (including a borrowed register that was saved and restored) unchanged except the free registers and fresh stack slots it was handed.", "quantifier": "all move sets with distinct destinations, all answers of the free-register and stack-slot callbacks that are fresh, all choices of the borrowed register (also one that itself takes part in the moves), all initial contents", "why_tests_cant": "The save/restore dirty flags depend on the history of every earlier move in the sequence; sampled sequences cannot cover the histories.", "anchors": ["src/moves.rs: MoveAndScratchResolver::compute, is_stack_to_stack_move"]}
{"id": "C04", "title": "Operand encoding is lossless", "statement": "Building an operand from a virtual register, constraint, kind and position and reading these back yields exactly the arguments, for every argument combination the constructor accepts; from_bits(bits()) is the identity; distinct operands have distinct encodings.", "quantifier": "all virtual registers, constraints, kinds and positions the constructor accepts", "why_tests_cant": "The packing overlaps several variable-width fields in one 64-bit word; tests check a few bit patterns.", "anchors": ["src/lib.rs: Operand::new, Operand::vreg, Operand::kind, Operand::pos, Operand::constraint, Operand::bits, Operand::from_bits"]}
{"id": "C05", "title": "Register, slot, allocation and program-point encodings are lossless", "statement": "Physical registers, virtual registers, spill slots, allocations and program points survive their packed encodings: constructor then accessors returns the arguments, distinct values have distinct encodings, and program points compare in instruction order with Before preceding After.", "quantifier": "all values in the ranges the constructors accept", "why_tests_cant": "Exhaustive enumeration of the 32-bit encodings and pairs of them is out of reach of tests; the boundary values are where the documented limits and the code differ.", "anchors": ["src/lib.rs: PReg, VReg, SpillSlot, Allocation, ProgPoint"]}
{"id": "C06", "title": "PRegSet behaves as a set of registers", "statement": "Every PRegSet operation (with, add, remove, union, intersect, complement, difference of histories) has its set-theoretic meaning; iteration yields each member exactly once in increasing index order; len counts members; is_empty(class) holds iff no member of that class; max_preg is the last member.", "quantifier": "all histories of operations and all registers", "why_tests_cant": "The number of operation histories is infinite and the set has 2^256 states.", "anchors": ["src/lib.rs: PRegSet, PRegSetIter"]}
{"id": "C07", "title": "Index sets behave as sets under every history", "statement": "After any sequence of set/clear/union/assign operations an IndexSet contains exactly the indices a mathematical set would contain, iteration yields each exactly once, union_with reports a change iff the set grew, and switching between the small array and the hash representation is unobservable.", "quantifier": "all finite operation sequences over all indices representable by the word index", "why_tests_cant": "The representation switches on history (12 distinct words, reuse of zeroed slots); tests cannot cover the histories.", "anchors": ["src/indexset.rs: AdaptiveMap, IndexSet, SetBitsIter"]}
{"id": "C08", "title": "Postorder visits exactly the reachable blocks once", "statement": "postorder::calculate succeeds iff every successor of a reachable block is in range, and then lists every block reachable from the entry exactly once, lists nothing else, ends with the entry block, and orders every non-entry block before at least one of its predecessors.", "quantifier": "all control-flow graphs of any size, including unreachable blocks, self-loops and multi-edges", "why_tests_cant": "Graphs are unbounded; the iterative DFS must agree with reachability on all of them.", "anchors": ["src/postorder.rs: calculate"]}
{"id": "C09", "title": "Computed dominators are the true dominators", "statement": "After domtree::calculate, dominates(a, b) is true iff every path from the entry block to the reachable block b passes through a; the computation terminates on every graph.", "quantifier": "all control-flow graphs with consistent successor and predecessor lists, all pairs of blocks", "why_tests_cant": "Dominance quantifies over infinitely many paths, and the fixpoint iteration over all irreducible graphs.", "anchors": ["src/domtree.rs: calculate, merge_sets, dominates"]}
{"id": "C10", "title": "SSA validation guarantees defined-before-use", "statement": "If validate_ssa accepts a function then every virtual register has at most one definition and, on every execution path from entry, each operand use reads a register that was defined earlier on that path.", "quantifier": "all functions (any CFG) and all paths through them", "why_tests_cant": "Quantifies over all paths of all programs.", "anchors": ["src/ssa.rs: validate_ssa", "src/domtree.rs: dominates"]}
{"id": "C11", "title": "CFG analysis rejects critical edges and branch arguments it cannot place", "statement": "If CFGInfo construction succeeds there is no edge from a block with several successors (or a return) to a block with several predecessors (or the entry), so every edge has a program point that is executed exactly on that edge; block entry/exit points and the instruction-to-block map agree with the block instruction ranges.", "quantifier": "all functions with any block layout", "why_tests_cant": "The condition ranges over every edge of arbitrary graphs.", "anchors": ["src/cfg.rs: CFGInfo::init", "src/ion/moves.rs: choose_move_location"]}
{"id": "C12", "title": "An allocation accepted by the checker preserves program behaviour", "statement": "If the checker accepts the allocator output for a function then, on every execution path, each instruction reads through its assigned locations exactly the values that the same path of the original virtual-register program reads.", "quantifier": "all functions, all allocator outputs, all execution paths (including loops), all initial machine states and all value semantics of the instructions", "why_tests_cant": "The set of paths is infinite and the checker itself is the oracle of the fuzzers; a hole in it is invisible to every fuzz test.", "anchors": ["src/checker.rs: Checker::new, prepare, analyze, find_errors, CheckerState::update, check"]}
{"id": "C13", "title": "An allocation accepted by the checker satisfies operand constraints", "statement": "If the checker accepts, each operand of each reachable instruction sits in a location its constraint allows (register, fixed register, stack, limited register, reused input).", "quantifier": "all functions and allocator outputs", "why_tests_cant": "Needs all outputs, including those a correct allocator never produces.", "anchors": ["src/checker.rs: check_constraint, check"]}
{"id": "C14", "title": "The checker terminates and never hits its internal panics", "statement": "On every function and output the checker fixpoint iteration terminates, and the internal panic for an over-defined location is unreachable.", "quantifier": "all functions and outputs, all worklist orders produced by the code", "why_tests_cant": "Termination on all graphs is not testable.", "anchors": ["src/checker.rs: Checker::analyze, CheckerState::meet_with, CheckerState::remove_vreg"]}
{"id": "C15", "title": "LRU returns the least recently used register", "statement": "After any sequence of pokes, pops and insertions the LRU ring holds exactly the managed registers, each once, and last_satisfying returns the least recently used register among those satisfying the predicate.", "quantifier": "all register sets and all operation histories", "why_tests_cant": "A circular doubly linked list in arrays: only an invariant over all histories excludes corruption.", "anchors": ["src/fastalloc/lru.rs: Lru::new, poke, pop, last, last_satisfying, remove, insert_before"]}
{"id": "C16", "title": "Live virtual-register set behaves as a set with LIFO iteration", "statement": "After any sequence of valid insertions and removals, iteration over the set yields exactly the registers inserted and not removed, most recent first.", "quantifier": "all histories of valid operations", "why_tests_cant": "Intrusive linked list; unbounded histories.", "anchors": ["src/fastalloc/vregset.rs: VRegSet"]}
{"id": "C17", "title": "Requirement merging is exact", "statement": "Merging two requirements yields a requirement satisfied by exactly the locations that satisfy both, and a conflict is reported iff no location satisfies both; the result does not depend on order.", "quantifier": "all pairs of requirements and all locations", "why_tests_cant": "Quantifies over all locations and register encodings.", "anchors": ["src/ion/requirement.rs: Requirement::merge, compute_requirement"]}
{"id": "C18", "title": "Register probing visits every usable register exactly once", "statement": "Register traversal for a class yields the hint first (if any and within the limit) and then every preferred and non-preferred register of the class within the limit exactly once, and nothing else; with a fixed register it yields just that one.", "quantifier": "all machine environments, hints, scan offsets and limits", "why_tests_cant": "All 256-bit register sets times offsets cannot be enumerated.", "anchors": ["src/ion/reg_traversal.rs: RegTraversalIter, Cursor"]}
{"id": "C19", "title": "Eliding redundant moves never changes machine state", "statement": "For every interleaving of moves, clobbers and resets, skipping the moves that the redundant-move eliminator says to elide leaves every location with the same value as executing all of them.", "quantifier": "all sequences of moves, clobbers and resets and all initial machine states", "why_tests_cant": "The tracker state depends on the whole history.", "anchors": ["src/ion/redundant_moves.rs: RedundantMoveEliminator::process_move, clear_alloc, clear", "src/ion/moves.rs: resolve_inserted_moves"]}
{"id": "C20", "title": "Iterating a block yields its instructions and edits in program order", "statement": "For sorted edits, block_insts_and_edits yields every instruction of the block exactly once in order and every edit positioned inside the block exactly once, each edit before/after the instruction it is attached to and edits at one point in list order.", "quantifier": "all outputs with sorted edits and all blocks", "why_tests_cant": "All edit lists and block ranges.", "anchors": ["src/lib.rs: Output::block_insts_and_edits, OutputIter"]}
{"id": "C21", "title": "Per-instruction allocation slices partition the allocation table", "statement": "inst_allocs(i) has one allocation per operand of instruction i, slices of different instructions do not overlap and together cover the table; writing an operand slot changes only that operand.", "quantifier": "all functions with any operand counts, all writes", "why_tests_cant": "All operand-count vectors.", "anchors": ["src/lib.rs: Output::inst_allocs", "src/ion/moves.rs: get_alloc, set_alloc", "src/fastalloc/mod.rs: Allocs"]}
{"id": "C22", "title": "Spill slots handed out are aligned, disjoint and counted", "statement": "For any sequence of spill-slot requests (power-of-two sizes) the slots returned occupy pairwise disjoint, size-aligned index ranges that all lie below the final num_spillslots.", "quantifier": "all request sequences, both naming conventions", "why_tests_cant": "Histories of arbitrary length.", "anchors": ["src/ion/spill.rs: allocate_spillslot", "src/fastalloc/mod.rs: Stack::allocstack"]}
{"id": "C23", "title": "Values sharing a spill slot are never live at the same time", "statement": "Spill-slot assignment gives every spilled value set that needs memory a slot, of its own class, and two value sets whose live extents overlap never share a slot.", "quantifier": "all collections of spill sets with any ranges and classes, all probe orders", "why_tests_cant": "Arbitrary interval sets with bounded probing.", "anchors": ["src/ion/spill.rs: allocate_spillslots, spillslot_can_fit_spillset, allocate_spillset_to_spillslot"]}
{"id": "C24", "title": "Liveness analysis is exact", "statement": "The backtracking allocator rejects a function with EntryLivein iff some register may be read before being defined along some path from entry; otherwise its live-in and live-out sets contain exactly the registers that may be read later before redefinition.", "quantifier": "all functions and CFGs", "why_tests_cant": "Fixpoint over all graphs and paths.", "anchors": ["src/ion/liveranges.rs: compute_liveness"]}
{"id": "C25", "title": "No two live ranges overlap in one register", "statement": "Under any sequence of allocation attempts and evictions, the ranges recorded for one physical register are pairwise disjoint, and an attempt succeeds iff the bundle overlaps nothing recorded there; on a conflict the reported conflict set is exactly the overlapping bundles.", "quantifier": "all bundle collections and attempt/evict sequences", "why_tests_cant": "Tree keyed by an overlap comparison; correctness depends on an invariant over all histories.", "anchors": ["src/ion/process.rs: try_to_allocate_bundle_to_reg, evict_bundle", "src/ion/data_structures.rs: LiveRangeKey"]}
{"id": "C26", "title": "Range comparison is a consistent order on disjoint ranges", "statement": "The overlap-based comparison of live-range keys reports Equal exactly on overlapping ranges and is a strict total order on any set of pairwise disjoint nonempty ranges, so ordered lookup finds a range iff one overlaps the query.", "quantifier": "all ranges and all sets of disjoint ranges", "why_tests_cant": "The comparator is not transitive in general; its use in a search tree is justified only by an invariant.", "anchors": ["src/ion/data_structures.rs: LiveRangeKey, CodeRange"]}
{"id": "C27", "title": "Edits are emitted in program order with the documented priorities", "statement": "The final edit list is sorted by program point; edits at one point come in priority order; sorting by the packed integer keys equals sorting by the tuples they encode.", "quantifier": "all move collections", "why_tests_cant": "All multisets of keys.", "anchors": ["src/ion/data_structures.rs: PosWithPrio::key, InsertMovePrio, u64_key, u128_key, BlockparamIn::key, BlockparamOut::key, Edits"]}
{"id": "C28", "title": "Fast allocator output preserves program behaviour", "statement": "If the single-pass allocator returns Ok then executing the allocated program gives each instruction, on every path, the operand values of the original program.", "quantifier": "all SSA functions in the allocator's input domain, all machine environments and all paths", "why_tests_cant": "All programs and all paths.", "anchors": ["src/fastalloc/mod.rs: run, Env::alloc_inst, reload_at_begin, process_branch"]}
{"id": "C29", "title": "Fast allocator satisfies operand constraints", "statement": "If the single-pass allocator returns Ok, every operand is assigned a location satisfying its constraint, and no register is assigned to two conflicting operands of one instruction.", "quantifier": "all functions and machine environments in the allocator's input domain", "why_tests_cant": "All programs.", "anchors": ["src/fastalloc/mod.rs: process_operand_allocation, alloc_operand, alloc_inst"]}
{"id": "C30", "title": "A serializable copy is indistinguishable from the original function", "statement": "Every query of the Function interface returns the same answer on SerializableFunction::new(f) as on f.", "quantifier": "all functions", "why_tests_cant": "All implementations of the trait.", "anchors": ["src/serialize.rs: SerializableFunction"]}
{"id": "C31", "title": "Splitting a live range partitions it", "statement": "Splitting a bundle at a point keeps every program point of every range covered by exactly one of the two halves (plus the spill bundle), keeps every use attached to a range containing it, and never splits between the early and late point of one instruction.", "quantifier": "all bundles and split points", "why_tests_cant": "Arbitrary range lists and use lists.", "anchors": ["src/ion/process.rs: split_and_requeue_bundle, split_into_minimal_bundles, minimal_range_for_use"]}
{"id": "C32", "title": "Moves on an edge execute exactly on that edge", "statement": "The program point chosen for the moves of a control-flow edge is executed, after CFG validation, on every traversal of that edge and on no other path.", "quantifier": "all validated CFGs and edges", "why_tests_cant": "All graphs and paths.", "anchors": ["src/ion/moves.rs: choose_move_location", "src/cfg.rs: CFGInfo::init"]}
{"id": "C33", "title": "Merged bundles never contain overlapping ranges", "statement": "merge_bundles succeeds only on bundles of one class with disjoint ranges and compatible requirements, and the merged bundle is the sorted disjoint union of both.", "quantifier": "all pairs of bundles", "why_tests_cant": "Arbitrary interval lists; two-pointer scan with early exit.", "anchors": ["src/ion/merge.rs: merge_bundles"]}
{"id": "C34", "title": "Live ranges cover exactly the live points", "statement": "The live ranges built for a register within a block cover exactly the program points from each definition to its last use, are disjoint and sorted, and every use lies in a range.", "quantifier": "all blocks and live-out sets", "why_tests_cant": "All instruction sequences.", "anchors": ["src/ion/liveranges.rs: build_liveranges, add_liverange_to_vreg"]}
{"id": "C35", "title": "Spill-weight compression is monotone", "statement": "Storing a spill weight in 16 bits and reading it back never increases it, preserves order, and is idempotent.", "quantifier": "all non-negative finite weights", "why_tests_cant": "All 2^31 bit patterns and pairs.", "anchors": ["src/ion/liveranges.rs: SpillWeight::to_bits, from_bits"]}
{"id": "C36", "title": "Reusing an allocation context has no effect on the result", "statement": "The state visible to an allocation run after context reset is the same whatever ran before.", "quantifier": "all previous contents of the context", "why_tests_cant": "All histories of previous runs.", "anchors": ["src/ion/mod.rs: Env::new", "src/ion/data_structures.rs: Ctx"]}
{"id": "C37", "title": "Inserted moves resolve to an equivalent sequence of edits", "statement": "Turning the recorded moves into edits never fails; for each program point and priority the resulting sequence gives every destination the value its source had before and otherwise changes only spare locations (dedicated scratch registers, registers with nothing recorded at the point, slots beyond those of values), contains no memory-to-memory move and no placeholder; and executing any block with the edits finally emitted (after dropping redundant moves and sorting) equals executing it with these sequences.", "quantifier": "all sets of recorded moves with one writer per destination in each group, all register availability maps, all orders an unstable sort may leave, all machine states and instruction effects", "why_tests_cant": "Depends on the interaction of parallel-move resolution, scratch selection, slot allocation and redundancy elimination on arbitrary move sets.", "anchors": ["src/ion/moves.rs: resolve_inserted_moves", "src/ion/data_structures.rs: InsertedMoves::push, Edits"]}
{"id": "C38", "title": "Inserted moves implement the assignment of locations", "statement": "Given an assignment of locations to live ranges that keeps simultaneously live values apart and gives constrained operands their registers, the pass that assigns operands and inserts moves produces, after resolution, a function in which every instruction reads the same values as in the original on every path: values follow their range when it is split, along edges, into block parameters, into fixed-register copies and into reused inputs. An output that reuses an input gets the same location as that input.", "quantifier": "all functions, all valid assignments of locations to split live ranges, all block layouts, all instruction semantics, all contents of clobbered registers, all paths", "why_tests_cant": "Move insertion depends on the interplay of split points, layout, edges and constraints over all possible assignments; a wrong move shows only on particular paths.", "anchors": ["src/ion/moves.rs: apply_allocations_and_insert_moves", "src/ion/moves.rs: resolve_inserted_moves", "src/lib.rs: Output"]}
{"id": "C39", "title": "Conflicting constraints on one value are served by copies", "statement": "An instruction may ask for one virtual register under several constraints that no single location meets, for instance in two different registers. After live ranges are built, the allocator changes such uses so that one location can serve all uses of a virtual register at each program point, and notes one copy for each use that it changed, from the location of another use at the same point into the register that the changed use asked for. That register is reserved there and nowhere reserved twice. Uses that one location can serve keep their constraints, and nothing else about the ranges changes. The copy does not read the location of a use that is itself served by a copy, unless a use is fixed to a register beyond another use's limit.", "quantifier": "all functions, all combinations of operand constraints, all machine descriptions", "why_tests_cant": "The rewriting depends on the combination of fixed registers, fixed stack slots, limits and plain uses at one point, whose number is unbounded.", "anchors": ["src/ion/liveranges.rs: fixup_multi_fixed_vregs", "src/ion/data_structures.rs: MultiFixedRegFixup"]}
{"id": "C40", "title": "The allocation loop terminates and places every live range", "statement": "Whatever the program, machine and costs, the backtracking allocation loop ends. If it reports success, every point and every operand of every live range is covered by a part of that range; every part is in a register that satisfies all its operand constraints, or in a spill slot that does; two parts in the same register never overlap, nor does a part overlap a clobber or reservation of its register; parts of one virtual register overlap only where one of them serves a single constrained operand within one instruction; parts that share a spill slot at the same point belong to the same virtual register. As long as every operand's class (and limit) has a register, the loop never fails an internal assertion or indexes out of range; it stops only with an allocation or a report. It reports too many live registers only if some instruction asks for more registers at one point than there are, each being reserved there or going to another operand of that instruction; and it gives a bundle up as unallocatable only if an operand names a register that is reserved where it is needed or that another operand of the instruction names, too.", "quantifier": "all sets of bundled live ranges in the shape the merge pass leaves, all machine descriptions, all spill weights, all clobbers, all orders of eviction and splitting", "why_tests_cant": "Eviction and splitting feed back into the queue, so bad cases need particular weights and conflicts; termination and freedom from overlap concern every such history.", "anchors": ["src/ion/process.rs: process_bundles", "src/ion/process.rs: process_bundle", "src/ion/process.rs: try_to_allocate_bundle_to_reg", "src/ion/process.rs: evict_bundle", "src/ion/process.rs: split_and_requeue_bundle", "src/ion/merge.rs: queue_bundles", "src/ion/spill.rs: try_allocating_regs_for_spilled_bundles"]}
{"id": "C41", "title": "Allocating a function preserves its behaviour", "statement": "If the backtracking allocator returns an output, then executing the function with the allocated operands and with the moves of the output reads the same values as the original function, in every instruction, along every path from the entry, whatever the instructions compute and whatever clobbered registers and uninitialised locations hold. Every operand has a location that meets its constraint: its fixed register, a register of its class (below its limit), a stack slot, or, for an output that reuses an input, the location of that input; stack slots lie below the reported number of slots. Operands that name a machine register directly keep it. Moves are sorted by program point, never go from memory to memory, and name existing slots only. The order in which hash maps are traversed and unstable sorts leave equal elements does not matter.", "quantifier": "all accepted SSA functions, all machine descriptions, all slot sizes, all paths, all instruction behaviours, all initial contents, all spill weights, all hash orders and tie breaks", "why_tests_cant": "The property composes ten passes whose interplay (splitting, eviction, sharing of slots, copies for constraints, moves at edges) depends on the whole function; fuzzing with the checker samples functions and the checker itself misses some errors.", "anchors": ["src/ion/mod.rs: run", "src/lib.rs: run", "src/lib.rs: Output"]}
{"id": "C42", "title": "The allocator terminates and fails only for the reasons it gives", "statement": "The backtracking allocator terminates on every function. It does not panic. It reports a live-in at the entry exactly if some virtual register may be read before it is written; it reports too many operands only if an instruction has more than 2^16 of them; it reports too many live registers only if a single instruction, with its clobbers, asks for more registers of a class than there are, however many values are live across instructions. A function of which none of this holds is allocated, and the result behaves like the original.", "quantifier": "all accepted SSA functions whose instructions do not contradict themselves, all machine descriptions, all slot sizes, all spill weights, all hash orders and tie breaks", "why_tests_cant": "Termination depends on the interplay of eviction, splitting and spilling over the whole run, and absence of panics on every combination of constraints and pressure; fuzzing samples functions and treats the allocator's own error as ground truth.", "anchors": ["src/ion/mod.rs: run", "src/ion/process.rs: process_bundle", "src/lib.rs: RegAllocError"]}
{"id": "C43", "title": "Options of the entry point", "statement": "Asking for validation never changes an allocation: run with validation returns an allocation exactly if the function is valid and run without validation returns the same one. A function in SSA form without critical edges is never rejected, and a function that is accepted is in SSA form without critical edges. With validation on, an allocation returned by either algorithm preserves the behaviour of the function without SSA form being assumed, so that the programs returned by the two algorithms behave alike.", "quantifier": "all functions, machine descriptions and options; for the behaviour, the functions of C28 and C41 and all paths and interpretations of instructions", "why_tests_cant": "It compares runs under different options on every function and, for the behaviour, on every path.", "anchors": ["src/lib.rs: run, run_with_ctx, RegallocOptions, Algorithm", "src/ion/mod.rs: run", "src/fastalloc/mod.rs: run", "src/ssa.rs: validate_ssa"]}
{"id": "C44", "title": "The checker accepts what the backtracking allocator returns", "statement": "If the backtracking allocator returns an allocation for a valid function, the symbolic checker, run on the function and that output, terminates without a panic and reports no error: no operand has an unknown or wrong value or violates its constraint, and no move is from memory to memory.", "quantifier": "all accepted SSA functions whose blocks are numbered so that each but the entry has a predecessor with a smaller number, all machine descriptions, slot sizes, spill weights, hash orders and tie breaks", "why_tests_cant": "The checker is a dataflow analysis over all paths, with a lattice of symbolic labels; that its labels are strong enough to justify every choice of the allocator (spills, splits, moves on edges, dropped redundant moves) is a statement about all functions. Fuzzing with the checker as oracle samples functions and cannot rule out a false alarm.", "anchors": ["src/checker.rs: Checker::run", "src/ion/mod.rs: run"]}
{"id": "C45", "title": "The checker raises no false alarm", "statement": "If the operands of every instruction are in locations that meet their constraints and do not disturb each other, no inserted move goes from memory to memory, and the allocated program shows each instruction the same operand values as the function on every path, then the symbolic checker reports no error. In particular it accepts what the single-pass allocator returns.", "quantifier": "all functions whose blocks are numbered so that each but the entry has a predecessor with a smaller number and in which two edges between the same blocks pass no arguments, all machine descriptions and all outputs, whoever produced them", "why_tests_cant": "That behaving alike on all paths, whatever instructions compute, forces the labels that a fixpoint iteration computes is a statement about all outputs and all paths; fuzzing only shows the checker outputs of one allocator.", "anchors": ["src/checker.rs: Checker::run", "src/fastalloc/mod.rs: run"]}
{"id": "C46", "title": "The single-pass allocator does not panic", "statement": "On a function in SSA form, the single-pass allocator returns an allocation or the error for too many live registers; no unwrap, unreachable, todo or empty-list panic is reached. What it returns is well formed: the edits are in the order of their points, each operand has a location, and the checker gives an answer on it. Together with C28: it returns a program that behaves like the function, or that error.", "quantifier": "all functions laid out with definitions before reads, whose branches define nothing, without Limit constraints, in which results reuse early inputs asked for in a register, and all machine descriptions with a register in every class that occurs, with or without dedicated scratch registers; functions small enough for the slot encoding. For each excluded shape of operands and machines a concrete panic is proved", "why_tests_cant": "Whether an evicted register, a scratch register, an LRU entry or a slot is there when it is unwrapped depends on the whole state left by the instructions that follow; only an invariant kept by every step on every function rules a panic out.", "anchors": ["src/fastalloc/mod.rs: run", "src/fastalloc/lru.rs: Lru::last", "src/fastalloc/vregset.rs: VRegSet"]}
{"id": "C47", "title": "Too many live registers is reported only when allocation is impossible", "statement": "The single-pass allocator returns the error TooManyLiveRegs only if no assignment of locations meets the constraints of some instruction. As proved: if each instruction leaves alone as many registers of each class as it has operands that are neither fixed nor on the stack (and one for moves between stack slots), where definitions that may be anywhere of values never read do not count, and names fixed registers consistently, allocation succeeds. The full statement is refuted: operands that may be anywhere can take the registers that later operands must have, and one value read twice in one fixed register is rejected.", "quantifier": "the functions and machines of C46 of any size, with every instruction leaving enough registers alone (the success theorem); concrete functions for the refutations", "why_tests_cant": "Whether a register is left for an operand depends on all earlier choices at the instruction, on evictions and on scratch registers taken for moves; only counting the registers taken along every step bounds them for every instruction.", "anchors": ["src/lib.rs: RegAllocError::TooManyLiveRegs", "src/fastalloc/mod.rs: reserve_reg_for_operand, select_suitable_reg_in_lru, alloc_operand, alloc_inst"]}
{"id": "C48", "title": "Debug locations reported by the backtracking allocator are right", "statement": "For every label given to a register over a span of instructions, the returned debug locations name, at each program point of an entry, a location that holds the value of that register when execution is there; a location is reported just at the points of the span at which the register is live; the entries are sorted by label and first point, and entries of one label are disjoint. As proved: the entry holds the value at all points except after a branch to a block with several predecessors, before an instruction that defines the register, and before one whose output reuses another input if the entry ends there; coverage is exact; the report is sorted. Refuted: after such a branch the location may hold another register's value, and two entries of one label of one register may overlap.", "quantifier": "all functions and machines of C41 of any size, all lists of labels of registers of the function (sorted by register for coverage), all paths, all instruction behaviours and initial values; concrete functions for the refutations", "why_tests_cant": "The reports are not covered by the checker, so no fuzz target looks at them, and whether a location holds a value at a point depends on all moves along every path to it.", "anchors": ["src/lib.rs: Function::debug_value_labels, Output::debug_locations", "src/ion/moves.rs: apply_allocations_and_insert_moves (debug labels), debug_locations.sort_unstable"]}
{"id": "C49", "title": "Debug locations reported by the single-pass allocator are right", "statement": "For every label given to a register over a span of instructions, the returned debug location holds the value of that register wherever execution is within the entry; entries start where the register gets its value and end behind an access to it; they lie within the span asked for, cover it where the register is live, are sorted by label, and entries of one label are disjoint. As proved: the location holds the value before every instruction, in any block, where the value may still be read, if the register is live at the start of some block or is only read in registers; entries start where the register gets its value and end behind the last access to it in code order; a label whose extent lies between these points is reported; order by label, at most one entry per label; there is a report just if there is an allocation. Refuted: entries reach beyond the span asked for, so entries of one label overlap; a label that extends beyond the live range is not reported at all; at a branch that passes arguments the location of a block parameter may already hold the value for the next round; the slot of a register that is read on the stack may be reported before it holds the value.", "quantifier": "all functions and machines of C28 of any size, all lists of labels of registers of the function, all paths, all instruction behaviours and initial values; concrete functions for the refutations", "why_tests_cant": "The reports are not covered by the checker, so no fuzz target looks at them, and whether a slot holds a value at a point depends on all moves along every path to it.", "anchors": ["src/lib.rs: Function::debug_value_labels, Output::debug_locations", "src/fastalloc/mod.rs: vreg_to_live_inst_range, process_operand_allocation, process_branch, alloc_def_op, reload_at_begin, build_debug_info"]}
{"id": "C50", "title": "Indices, index-addressed storage, instruction ranges and operand views behave like numbers, lists and filters", "statement": "Index types wrap numbers below u32::MAX one to one; next and prev count up and down; larger numbers become invalid or alias. Storage returns from push the index under which the new element is found and keeps the others; assignment changes one element. An instruction range can be made just if its ends are in order, and then its length, iteration, first, last and rest are those of the list of instructions from the first end up to the second; first, last and rest fail just on empty ranges. Views of an operand list (definitions, uses, early, late, fixed, reuse, any register) list exactly the operands of that kind with their positions, in order.", "quantifier": "all numbers, ranges, storages of any length below u32::MAX, all operand lists", "why_tests_cant": "The one unit test looks at the ranges 0..0 and 0..5; the limits of the encoding and the failing cases are not tested, and the views are not tested at all.", "anchors": ["src/index.rs: define_index!, Inst, Block, InstRange", "src/fastalloc/iter.rs: Operands"]}
{"id": "C51", "title": "The function generator of the fuzz targets only makes functions the allocators must accept", "statement": "Whatever the bytes it is given, the generator does not panic (it may only run out of bytes or reject them), and each function it makes passes validation: it is in SSA form without critical edges, every definition reaches its uses and the arguments of branches, branch arguments match the parameters of the successor in number and class, all blocks can be reached and come after a predecessor; operands and clobbers of one instruction do not contradict each other (no register fixed twice except for an early input and a late output, no fixed output clobbered, a reused input is a register of the same class and is not combined with fixed registers); and debug labels are sorted. So a failure of a fuzz target is a fault of the allocator or the checker, not of the input.", "quantifier": "all byte strings, all options with non-empty ranges (at most 31 inputs if inputs may be reused)", "why_tests_cant": "The generator is itself the test input; a wrong function looks like a bug of the allocator, or hides one, and its choices cannot be enumerated.", "anchors": ["src/fuzzing/func.rs: FuncBuilder, Func::arbitrary_with_options, InstData, choose_dominating_block, convert_op_to_fixed, convert_def_to_reuse"]}
{"id": "C52", "title": "The fuzz target of the backtracking allocator never fails", "statement": "For every byte string from which the generator makes a function, and whether or not the function is validated first, the backtracking allocator returns an allocation on the machine of the fuzz targets (32 registers of each class, eight of them not preferred, and fixed stack slots): it neither reports an error nor panics, nor does it run forever. The checker accepts the allocation without an error or panic, and the allocated function behaves like the generated one on every execution.", "quantifier": "all byte strings, both values of the validation flag, all hash orders and tie-breaks; also all options within stated size limits, not only those of the target", "why_tests_cant": "This is what the fuzzer searches for a counterexample to; it never finishes, and has seen only finitely many inputs.", "anchors": ["src/fuzzing/ion.rs: OPTIONS, check", "src/fuzzing/func.rs: machine_env, spillslot_size, Func::arbitrary_with_options", "src/ion/mod.rs: run", "src/checker.rs: Checker"]}
{"id": "C53", "title": "The fuzz targets for dominator trees and parallel moves never fail, and what passing them means", "statement": "Whatever bytes they are given, the targets for dominator trees and for parallel moves neither panic nor fail an assertion. A table of dominators that passes on all paths of a graph reports only true dominators, but one that reports none passes as well. A sequence of moves passes just if every location it writes ends with the value asked for (or is a scratch location or unchanged), so a sequence that leaves out moves passes as well.", "quantifier": "all byte strings; for the second part all graphs, dominator tables, move sets and move sequences", "why_tests_cant": "The targets are the tests: running them finds no failure on the inputs seen, and cannot show which wrong results they would let through.", "anchors": ["src/fuzzing/domtree.rs: CFG::arbitrary, Path::choose_from_cfg, check_idom_violations, check", "src/fuzzing/moves.rs: TestCase::arbitrary, check", "src/domtree.rs: calculate, dominates", "src/moves.rs: ParallelMoves, MoveAndScratchResolver"]}
{"id": "C54", "title": "The single-pass allocator succeeds on every function the fuzz generator makes", "statement": "Whatever bytes the fuzz target of the single-pass allocator is given, the allocator returns an allocation for the function generated: it does not panic and does not report that there are too few registers, whether or not it validates the function first; the checker does not panic on the allocation, and accepts it. (Proved without the last part.)", "quantifier": "all byte strings, and all generator options whose instructions have few enough operands and clobbers for a machine with 32 registers per class; both settings of the validation option", "why_tests_cant": "The target is the test: it runs on the inputs a fuzzer finds. Success depends on how evictions, fixed registers, clobbers and outputs of calls add up at each of the instructions that can be generated.", "anchors": ["src/fuzzing/fastalloc.rs: OPTIONS, check", "src/fuzzing/func.rs: Func::arbitrary_with_options, machine_env", "src/fastalloc/mod.rs: run"]}
