# Formal model of regalloc2 in Lean 4: design

The model lives in `lean/Verif/`. Each source file of `/repo/src` that is
modelled has a `Verif/Model/<Name>.lean` file with computable definitions that
cite the file and lines they follow, a `Verif/Spec/<Name>.lean` file (only when
the property needs vocabulary that is not in the API, e.g. "path through a CFG")
and a `Verif/Proofs/<Name>.lean` file with helper lemmas. The theorems that
state the properties are in `Verif/Props/<Name>.lean`, each next to an `example`
that instantiates its hypotheses on a concrete non-trivial input.

Modelling conventions

* Machine integers are `Nat` with the truncation written out (`% 2^32`) where
  the Rust code casts or can overflow. Bounds are explicit hypotheses.
* `&mut self` becomes a returned new value. `panic!`, failed `assert!` and
  out-of-bounds indexing become an explicit `none` / `Except.error` value.
  `debug_assert!` is not part of the release behaviour. It is stated as a
  hypothesis of, or proved as a lemma about, the function that contains it.
* Hash maps are modelled by association lists or functions; iteration order of
  hash maps is never relied on by a theorem unless the code sorts afterwards.
* Loops are structural recursion, folds, or fuel with a proof that the fuel
  given is enough.

## Trusted base

* Lean's kernel (4.33.0) and the axioms `propext`, `Classical.choice`,
  `Quot.sound`. No other axiom, no `sorry`, no `native_decide`, no `bv_decide`.
  `AXIOMS.txt` lists, for every theorem named in `MANIFEST.json`, the axioms it
  depends on (generated by `axioms.sh` from `#print axioms`).
* The correspondence between the Rust text and the Lean definitions, which was
  made by reading. Each definition cites the lines it models and says where it
  simplifies.
* The small specification files `lean/Verif/Spec/*.lean`, which give meaning to
  the words of the properties (execution of a function before and after
  allocation, paths, liveness, valid assignments).

### What is modelled

| source | Lean | properties |
|--------|------|------------|
| `lib.rs`: RegClass, PReg, VReg, SpillSlot, Operand, Allocation, ProgPoint | `Model/Lib` | C04, C05 |
| `index.rs` (all), `fastalloc/iter.rs` (all) | `Model/Index` | C50 |
| `lib.rs`: PRegSet | `Model/PRegSet` | C06 |
| `lib.rs`: Output, OutputIter | `Model/Output` | C20, C21 |
| `moves.rs` (all) | `Model/Moves` | C01, C02, C03 |
| `indexset.rs` (all) | `Model/IndexSet` | C07 |
| `postorder.rs` (all), `domtree.rs` (all) | `Model/Postorder`, `Model/Domtree` | C08, C09 |
| `ssa.rs` (all), `cfg.rs` (all) | `Model/Ssa`, `Model/Cfg` | C10, C11, C32 |
| `checker.rs` (all but printing) | `Model/Checker` | C12, C13, C14 |
| `serialize.rs` (the copy; not the derived encoding) | `Model/Serialize` | C30 |
| `fastalloc/lru.rs`, `vregset.rs`, `mod.rs` (all but trace output) | `Model/Lru`, `Model/VRegSet`, `Model/Fastalloc`, `Model/FastDebug` | C15, C16, C22, C28, C29, C46, C47, C49 |
| `ion/requirement.rs`, `reg_traversal.rs`, `redundant_moves.rs`, `spill.rs` (all) | `Model/Requirement`, `RegTraversal`, `RedundantMoves`, `SpillSlots` | C17, C18, C19, C22, C23 |
| `ion/data_structures.rs`: CodeRange, preg maps, sort keys, InsertedMoves, Edits, spill weights, Ctx reset | `Model/RangeMap`, `InsertedMoves`, `Weights`, `Ctx` | C25, C26, C27, C35, C36 |
| `ion/liveranges.rs`: compute_liveness, build_liveranges, fixup_multi_fixed_vregs | `Model/Liveness`, `Model/LiveRanges`, `Model/FixMulti` | C24, C34, C39 |
| `ion/merge.rs` (all) | `Model/Merge` | C33 |
| `ion/moves.rs` (all) | `Model/ApplyMoves`, `Model/InsertedMoves`, `Model/DebugInfo` | C37, C38, C48 |
| `ion/process.rs` (all), `ion/spill.rs:22-68` | `Model/Process`, `Model/Split`, `Model/RangeMap`, `Model/Weights` | C25, C26, C31, C35, C40 |
| `ion/mod.rs`: run and its passes in sequence | `Model/Pipeline` | C41, C42, C44 |
| `lib.rs`: run, RegallocOptions, Algorithm | `Model/Run` | C43 |
| `fuzzing/func.rs` (all but printing) | `Model/FuzzFunc` | C51 |
| `fuzzing/ion.rs`; `fuzzing/func.rs` `machine_env` | `Model/FuzzIon`, `Model/FuzzFunc` | C52 |
| `fuzzing/fastalloc.rs` | `Model/FuzzFast` | C54 |
| `fuzzing/domtree.rs`, `fuzzing/moves.rs` | `Model/FuzzDomtree`, `Model/FuzzMoves` | C53 |

Not modelled: memory allocation and arena lifetimes (`bumpalo`, `SmallVec`
inlining), logging and tracing, `dump.rs`, formatting, `serde`
derives, statistics counters and the hash function.

## Plan per property

| id | modelled code | how it is stated and proved |
|----|---------------|------------------------------|
| C01, C02 | `ParallelMoves::resolve` (sort, dedup, retain, DFS with explicit stack) | store semantics `Loc → Val`; invariant of the DFS (every emitted suffix reads its sources unclobbered); sequential execution = simultaneous assignment |
| C03 | `MoveAndScratchResolver::compute` | simulation between the input sequence on a store with an abstract scratch cell and the output sequence, with an invariant describing which of register/save slot holds the borrowed value |
| C04, C05 | packed encodings of `lib.rs` | arithmetic round trips over `Nat` with explicit widths; order by `omega` |
| C06 | `PRegSet` as four 64-bit words | refinement to the membership predicate; iteration = increasing list of members |
| C07 | `AdaptiveMap`, `IndexSet` | representation invariant + refinement to a predicate on `Nat` |
| C08 | `postorder::calculate` with its explicit stack | loop invariant; reachability defined inductively in the spec |
| C09 | `domtree::calculate`, `merge_sets`, `dominates` | chain sets; soundness at the fixpoint by induction on paths, completeness by a monotone invariant, termination by a decreasing measure |
| C10 | `validate_ssa` | reduction to C09 and a local scan lemma; counterexamples for what is *not* checked |
| C11, C32 | `CFGInfo::init`, `choose_move_location` | decision logic over degrees + path semantics |
| C12, C13, C14 | whole of `checker.rs` (states, transfer, meet, worklist) | abstract-interpretation soundness against a concrete semantics of the allocated and the original program (instructions compute anything, also depending on all that was executed before); holes of the checker are proved as counterexamples |
| C15, C16 | `lru.rs`, `vregset.rs` | ring/list refinement |
| C17 | `requirement.rs` | satisfaction predicate; case analysis |
| C18 | `reg_traversal.rs` | list of yielded registers characterised |
| C19 | `redundant_moves.rs` and its driver | simulation invariant: `Copy(f)` entries denote equal contents |
| C20, C21 | `Output`, `OutputIter`, `Allocs` | refinement of the iterator to a filter/merge specification |
| C22 | both spill-slot counters | invariant over request lists |
| C23 | `spill.rs` slot sharing | invariant: ranges in one slot pairwise disjoint |
| C24 | `compute_liveness` | worklist fixpoint; exactness by path induction both ways |
| C25, C26 | preg allocation maps | ordered disjoint list refinement of the BTreeMap; overlap comparator laws |
| C27 | sort keys and edit list | order embedding of packed keys; stable sort |
| C28, C29 | `fastalloc/mod.rs` | backward simulation per instruction, then per block and path. `_partial`: three instruction shapes are excluded, on which the code is wrong (proved), and a few more (definitions without a register constraint, definitions on branches) |
| C30 | `serialize.rs` | query-by-query equality |
| C31 | bundle splitting | partition of the covered points |
| C33 | `merge_bundles` | two-pointer scan soundness and completeness |
| C34 | `build_liveranges` for whole functions | backward scan invariant per operand, instruction, block; composed with C24 into exact coverage of the live points |
| C35 | `SpillWeight` packing | arithmetic on the bit pattern of non-negative floats |
| C36 | `Env::new` reset | equality of reset states, with the parts of `Ctx` that survive listed |
| C37 | `resolve_inserted_moves` | groups by position and priority are resolved by C01/C03, redundant ones dropped by C19; the emitted edits are equivalent to the groups at every point of a block |
| C38 | `apply_allocations_and_insert_moves` | the inserted moves are characterised exactly; simulation between the original function and the allocated one, point by point, for any valid assignment of locations |
| C39 | `fixup_multi_fixed_vregs` | per group of uses at one point: what the search finds, which uses are rewritten; lifted over groups, ranges and registers; satisfiability stated with the admissible locations of each constraint; composed with C34 |
| C40 | `queue_bundles`, `process_bundles`, `try_allocating_regs_for_spilled_bundles` | the whole loop as a function with fuel; invariant over turns (shape of ranges, register maps, queue, spill list); termination by a lexicographic measure: splits left to count, bundles worth splitting, waiting bundles by weight; errors: the attempt loop fails only at its first turn, with every register blocked by a reservation or a bundle of at least the same weight, which for a minimal bundle is another minimal bundle of the instruction; the initial conditions are those the merge pass leaves, stated in `Spec/Process` |
| C41 | `ion/mod.rs` `run` | the models of the passes composed as one function; each pass's theorem (C24, C34, C39, C33, C40, C23) supplies what the next assumes, up to a valid assignment in the sense of C38, which with C37 gives equality of the traces of values read. `_partial`: the function must satisfy `ProgramOk`, which excludes shapes on which the code is wrong (C38) and unreachable blocks |
| C42 | `ion/mod.rs` `run`, all errors and panics | each pass succeeds on what the previous one leaves (C11, C24, C34, C39, C33, C23, C38, C37 totality theorems); the causes of the loop's errors (C40) are traced back, through the recorded uses and the reservations, to operands and clobbers of one instruction (`Overcommitted`); termination from C40. `_partial`: as for C41, and instructions must not contradict themselves (`Serviceable`) |
| C43 | `lib.rs` `run` with its options; `ion/mod.rs`, `fastalloc/mod.rs` `run` | case analysis of the entry points; soundness and completeness of validation from C10 and C11; what validation establishes replaces the SSA assumptions of C28 and C41, whose theorems then give equal behaviour for both algorithms. `_partial` where C28 and C41 are |
| C44 | `checker.rs` `Checker::run` on the output of `ion/mod.rs` `run` | a token run of the allocated code (each definition writes a token that names it) is related to the checker's labels; the invariant of C38 (every live value is in its range's location) is restated for the labels at block entries, kept by each block, each edge's parallel move, the meet, and hence by the whole worklist iteration. `_partial`: as for C41, and blocks must be numbered in order |
| C45 | `checker.rs` `Checker::run` on any output | converse of C12: instructions are made to compute fresh tokens, so that equal behaviour on all paths says which token each location holds when it is read; by induction over the worklist iteration the labels cover the tokens that all paths agree on. For fastalloc, a separate invariant shows that no edit goes from memory to memory (C29); with C28 and C29 its outputs qualify. `_partial` only for the functions of C28 |
| C46 | `fastalloc/mod.rs` (all), every `unwrap`, `unreachable!`, `todo!` and panic of the LRU and live sets | an invariant between instructions (the live set holds exactly the registers with a location, the LRU lists and free registers agree, a potential bounds the slots) kept by each step, then induction over operands, instructions and blocks. The output is well formed: each step adds edits at the current point only, in front, so they are in order. Not in the model: the debug assertions on the counters of free registers, and indexing by virtual register (bounded by a hypothesis) |
| C47 | `fastalloc/mod.rs`: every place that returns `TooManyLiveRegs` | the number of registers of a class that the instruction does not name and that are not free throughout stays below the number of operands seen that are neither fixed nor on the stack (not counting `Any` definitions of registers never read: these have no place when their definition is reached, and get a slot at once), plus one for a scratch register; induction over the same steps as C46. Full statement (`Placeable` at every instruction implies success) refuted by two concrete functions |
| C48 | `ion/moves.rs`: debug labels and their sorting, after the passes of C41 | `Locates` (Spec/DebugInfo): on every path to the point, the location holds what the original program has in the register; from the relation between both programs that proves C41, cut at the point instead of at the end of a block (`run_points`, `at_after`, `at_before`); coverage from the exactness of live ranges (C34) and of their pieces (C40) |
| C49 | `fastalloc/mod.rs`: `vreg_to_live_inst_range`, `build_debug_info`; each step of the allocator of C28 with its bookkeeping | `HoldsBefore` (Spec/FastDebug): on every path to the instruction, the location holds what the original program has in the register. The slot of a register that is live at a block boundary holds its value wherever it is needed (the simulation of C28, cut between instructions); an invariant over instructions and blocks says that this slot is what is reported. For registers that are only read in registers, a frame relation (`Wk`, Proofs/FastLocal) says that until they get a slot they stay where they are, and from then on are in the slot, so the location recorded at the definition is the one at every point after it. The recorded end is that of the last access: instructions are processed backwards, and an invariant (`En`, Proofs/FastDebugEndRun) says that a register which has a location, or is still listed in a physical register, has an end recorded that lies behind everything still to be processed, so no later step overwrites it with less. `_partial`: registers live within one block only and read on the stack or wherever (`Any`) are left out |
| C50 | `index.rs`, `fastalloc/iter.rs`: 32-bit indices, failing assertions as `none` | the range as a list `span a b`; direct proofs over numbers below `u32::MAX` |
| C51 | `fuzzing/func.rs`: the generator as a program that reads choices from a list of numbers | a postcondition logic (`Sat`: no panic, and the result satisfies a predicate) is pushed through the generator step by step: graph (`GraphOk`), plans of blocks, operands of one instruction (`Made`), blocks (`Chain`), and the assembled function (`Built`); the properties are read off `Built` |
| C52 | `fuzzing/ion.rs` `check`: allocator, then checker | the hypotheses of C42 (termination), C41 (behaviour) and C44 (the checker accepts) are discharged for every generated function on `machine_env`: sizes (`Small`) by a second pass of postconditions over the generator, reads of the entry block by dominance, register demand by counting operands and clobbers of an instruction. Not modelled: annotations, reuse of the context (C36). The order of hash maps, ties of sorts and the sums of weights (floats) stay arbitrary, the last as long as they depend on the ranges summed (`LocalTotal`) |
| C53 | `fuzzing/domtree.rs`, `fuzzing/moves.rs`: generators and checks | graphs and paths that are generated satisfy the hypotheses of C08 and C09, and climbing the tree and `dominates` are compared step by step; the moves target runs C03 with a weaker promise (registers offered may count as slots), and the simulation with hash maps is the execution of moves on the store that gives every location itself. The oracles are then characterised |
| C54 | `fuzzing/fastalloc.rs` `check`: allocator, then checker | the hypotheses of C46 (no panic) and C47 (enough registers) are discharged for every generated function on `machine_env`: places of writes are unique and dominators have smaller numbers, so definitions are laid out before reads; outputs of calls are numbered after all planned registers and never read, so C47 does not count them; the rest is counted against the 32 registers of a class. The output is well formed (C46), so the checker does not panic (C14). Open: that the checker accepts, as C28 does not cover `Any` definitions |

## Findings

Disagreements between what a user would expect and what the code does. Each is a
theorem about the model with a concrete witness, unless marked *(reading)*.

* C05: `Allocation::from_bits` has a debug assertion that fails on every valid word; `PReg::invalid()` is the valid register Int 63; a `ProgPoint` of an instruction at or above 2^30 does not round-trip.
* C06: `PRegSet::add_up_to` drops members instead of keeping them.
* C07: word indices are truncated to 32 bits, so indices 2^38 apart alias.
* C10: out-of-range uses panic instead of being reported; register classes are not compared across blocks; undefined branch arguments are accepted.
* C11: a return with a successor is accepted, and `choose_move_location` then panics.
* C12, C13: the checker accepts wrong outputs: stale label after a move from an unknown location; late uses beside a reused input; a late definition listed before an early one in the same location; late `Reuse` is never checked; `Limit` is satisfied by the stack; register classes are not checked.
* C15: poking a register that is not managed panics. C16: removing a register that is not in the set removes another.
* C17: `Limit(0)` merges without conflict. C18: a fixed register makes the traversal ignore limit and hint.
* C20: edits after the last instruction of a block are never yielded by the iterator.
* C24: liveness depends on operand order when one instruction uses and defines a register at the same position.
* C28: the single-pass allocator produces wrong code for a block laid out after a block that uses its definition, for a definition that reuses a fixed input that lives on, and for a definition constrained to the stack.
* C30: a copied function reports a returning branch only as a return; an empty block cannot be copied.
* C31: recomputing bundle properties forgets "fixed" and "stack"; dissolving a bundle loses points if a definition is not at the start of its range; trimming can create a range without a register.
* C33: merging into a bundle without ranges does not widen the extent of the spill set.
* C34: an instruction that uses one register twice, fixed to the same clobbered register, while it stays live, fails a debug assertion.
* C35: setting a flag on a bundle erases its weight if the flag occupies the weight's bits.
* C38: a branch that clobbers a register destroys moves placed before it for its successor's parameters; with two reused inputs in one instruction an input may be overwritten before it is read.
* C39: two uses in the same register beside one in another fail a debug assertion; two uses of one register on the stack panic ("not supported"); with two registers beyond a limit, a copy reads a register that another copy sets at the same time; if an output overwrites an input in another register, the copy for an early use is placed after the instruction that reads it.
* C40: if the class of an operand has no register (or none below its limit), the loop fails a debug assertion instead of reporting too many live registers.
* C41: an input that is reused by an output and asked for in a fixed register is found in the output's register instead.
* C42: if the first instruction asks for too many registers, the check for that takes `prev()` of the first program point and underflows, so an overflow-checked build panics instead of reporting too many live registers. If an instruction reuses an input, another input that is fixed to a clobbered register and dies there makes the allocator panic ("could not allocate minimal bundle"), with registers to spare.
* C44: the checker visits blocks in the order of their numbers and treats a block that no predecessor has reached yet as one where no location holds anything, so it rejects right outputs if a block comes before all its predecessors.
* C46: the single-pass allocator panics on `Limit` constraints, if a result reuses an input on the stack, if a result reuses an input read late, and if a class has fixed stack slots but no registers.
* C47: the single-pass allocator reports `TooManyLiveRegs` although allocation is possible: `num_available_pregs` is not decremented when an `Any` operand takes a register, so `Any` operands listed first starve `Reg` operands listed later (`C47_starved_violation`); and an instruction reading one register twice in the same fixed register is rejected (`C47_fixed_twice_violation`).
* C48: the moves for the parameters of a block with several predecessors are placed before the predecessor's branch, but ranges (and so debug locations) of the values passed extend beyond the branch; after the branch the location reported may hold another value (`C48_edge_violation`). `split_into_minimal_bundles` leaves a spill range that covers also the points of the minimal pieces, so two entries of one label overlap, although the documentation says they are disjoint (`C48_disjoint_violation`).
* C49: the single-pass allocator reports the whole live range of the register instead of the part asked for, so entries reach beyond the label and entries of one label overlap, although the documentation says that at most a subset is returned and that the ranges of a label are disjoint (`C49_extent_violation`); a label that extends beyond the live range is dropped (`C49_coverage_violation`); before a branch that passes arguments, slots of block parameters already hold the values of the next round while they are reported for the old ones (`C49_edge_violation`); the slot of a register that is read on the stack is reported from its definition on, but at the definition it is stored to from a register that has not got the value yet, so it is wrong until just before the read (`C49_local_violation`).
* C53: the target for moves passes if moves are left out, as it looks only at locations that were written; the one for dominators passes if all dominators are missing. The target for moves means registers 20 to 29 as stack slots, says its comment, but takes 21 and up, so the free registers 30 and 31 that it offers count as stack slots too, and moves through them remain stack-to-stack.
* *(reading)* `Limit` above 255 panics in the backtracking allocator.
