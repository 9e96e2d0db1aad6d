import Verif.Proofs.CheckerTotal

/-
C12, C13, C14: the checker (`/repo/src/checker.rs`).
-/
namespace Regalloc
open Exec
namespace Checker

/-- C12. If the checker accepts an allocation, then on every path through the
control-flow graph, for every behaviour of the instructions, every initial content
of virtual registers and locations, and whatever clobbers leave behind, the
allocated program executes the same instructions reading the same values as the
original program.

Partial: the full claim has no `FuncOk`/`NoStaleMoves` hypotheses. They cannot all be dropped:
see `C12_stale_label_accepted`, `C12_late_use_beside_reuse_accepted` and
`C12_two_defs_one_location_accepted`. The undefined-register
hypothesis holds when the entry block has no predecessor or when the path reads
no undefined register (C10 gives the latter for validated functions). -/
theorem C12_accepted_output_executes_alike_partial {Val : Type} (f : Func) (env : MachineEnv) (out : Output)
    (hf : FuncOk f out) (hacc : run? f env out = some []) (hmv : NoStaleMoves f out)
    (sem : Sem Val) (junk : Nat → Allocation → Val) (ks : List Nat) (A0 : Allocation → Val) (V0 : VReg → Val)
    (hundef : (∀ b, b < f.numBlocks → f.entry ∉ f.succs b) ∨ NoUndefinedReads f ks f.entry (fun _ => False)) :
    allocRun f out sem junk ks f.entry A0 [] = origRun f sem ks f.entry V0 [] := by
  unfold run? at hacc
  split at hacc
  · simp at hacc
  · next p hp =>
    obtain ⟨UA, UV, r, P, ha, W, hfix⟩ := analyze_spec f p hf.succLt
    rw [ha] at hacc
    simp only at hacc
    have htr := hmv p r hp ha
    have hlt : f.entry < r.length := by rw [W.len]; exact hf.entryLt
    rcases hundef with h | h
    · refine sim_run hf hp hfix hacc htr sem junk ks (D := fun _ => True) [] hf.entryLt
        (W.root f.entry hf.entryLt h) ?_ (noUndefined_true f ks _ _ (fun _ => trivial))
      intro a v ⟨s, hs, _⟩
      simp [CState.get] at hs
    · exact sim_run hf hp hfix hacc htr sem junk ks (D := fun _ => False) [] hf.entryLt
        (List.getElem?_eq_getElem hlt) (fun _ _ _ h => h.elim) h

/-- C13. In an accepted allocation every operand of every instruction has a
location its constraint allows.

Partial: operands in the late position of an instruction with a reused input are
never looked at (`C13_late_reuse_not_checked`), and a register limit is not
enforced on spill slots (`C13_limit_on_stack_accepted`). -/
theorem C13_constraints_hold_partial (f : Func) (env : MachineEnv) (out : Output)
    (hsort : SortedEdits out.edits) (hacc : run? f env out = some [])
    (b : Nat) (hb : b < f.numBlocks) (i : Nat) (hi : i ∈ f.blockInsts b) :
    ∃ as, out.instAllocs i = some as ∧
      ∀ p ∈ (f.operands i).zip as,
        (p.1.pos = .Early ∨ ∀ o ∈ f.operands i, ∀ k, o.constraint ≠ .Reuse k) →
        p.2 ≠ Allocation.none ∧
        (Allowed env as p.1 p.2 ∨ (∃ n, p.1.constraint = .Limit n) ∧ p.2.asReg = none) := by
  have hx : .inst i ∈ out.blockInstsAndEdits f b := by
    rw [← mem_instsOf, instsOf_eq hsort]; exact hi
  obtain ⟨ci, S1, S2, h0, h1, h2⟩ := accepted_items hacc hb hx
  simp only [itemInst?] at h0
  split at h0
  · simp at h0
  · next as has =>
    simp at h0; subst h0
    refine ⟨as, has, ?_⟩
    intro p hp hpos
    have key : ∃ S, checkVal env S i p.1 p.2 as = .ok := by
      cases hpp : p.1.pos with
      | Early =>
        simp only [check] at h1
        rw [if_neg (by simp)] at h1
        exact ⟨S1, checkOps_vals _ h1 p hp hpp⟩
      | Late =>
        rcases hpos with h | h
        · rw [hpp] at h; simp at h
        · simp only [check] at h2
          rw [if_neg] at h2
          · exact ⟨S2, checkOps_vals _ h2 p hp hpp⟩
          · simp only [and_true, hasReuse, Bool.not_eq_true, List.any_eq_false]
            intro o ho
            have := h o ho
            split
            · next k hk => exact absurd hk (this k)
            · simp
    obtain ⟨S, hS⟩ := key
    obtain ⟨ha, hc⟩ := checkVal_allowed hS
    exact ⟨ha, checkConstraint_allowed hc⟩

/-- C13. An accepted allocation contains no memory-to-memory move. -/
theorem C13_no_memory_to_memory_moves (f : Func) (env : MachineEnv) (out : Output)
    (hacc : run? f env out = some []) (b : Nat) (hb : b < f.numBlocks) (e : Edit)
    (he : .edit e ∈ out.blockInstsAndEdits f b) : ¬ (InMemory env e.src ∧ InMemory env e.dst) := by
  obtain ⟨ci, S1, S2, h0, h1, _⟩ := accepted_items hacc hb he
  simp only [itemInst?, Option.some.injEq] at h0
  subst h0
  intro h
  simp only [check] at h1
  rw [if_pos ⟨isStackAlloc_iff.mpr h.2, isStackAlloc_iff.mpr h.1⟩] at h1
  simp at h1

/-- C14. The checker returns on every input that meets the API preconditions: the
data-flow analysis reaches a fixed point and no panic occurs, in particular not
the one for removing a register from an over-defined location. -/
theorem C14_checker_returns (f : Func) (env : MachineEnv) (out : Output) (h : WellFormed f out) :
    ∃ errors, run? f env out = some errors := run_isSome h

/-- C14. The analysis terminates for any prepared instructions, and the bound on
its iterations plays no part: any larger bound gives the same result. -/
theorem C14_analysis_terminates (f : Func) (p : Prep)
    (hs : ∀ b, b < f.numBlocks → ∀ t ∈ f.succs b, t < f.numBlocks) :
    ∃ r, ∀ n, fuel f p ≤ n →
      analyzeLoop f p n ⟨List.replicate f.numBlocks .top, List.range f.numBlocks⟩ = some r := by
  obtain ⟨_, _, r, _, h, _⟩ := analyze_spec f p hs
  exact ⟨r, fun n hn => analyzeLoop_mono f p _ n _ r hn h⟩

/-! ### A concrete accepted allocation with a loop -/

def r (n : Nat) : Allocation := .reg (PReg.new n .Int)
def v (n : Nat) : VReg := VReg.new n .Int

/-- 0 defines v0, v1 and jumps to 1(v2 := v0); 1 defines v3 from v2 and v1, goes
to 2 or 3; 2 jumps back with v3; 3 returns v3. -/
def loopF : Func where
  numInsts := 6
  numBlocks := 4
  entry := 0
  insns := fun b => if b = 0 then (0, 2) else if b = 1 then (2, 4) else if b = 2 then (4, 5) else (5, 6)
  succs := fun b => if b = 0 then [1] else if b = 1 then [2, 3] else if b = 2 then [1] else []
  preds := fun b => if b = 1 then [0, 2] else if b = 2 then [1] else if b = 3 then [1] else []
  params := fun b => if b = 1 then [v 2] else []
  isRet := fun i => i = 5
  isBranch := fun i => i = 1 ∨ i = 3 ∨ i = 4
  args := fun b _ _ => if b = 0 then [v 0] else if b = 2 then [v 3] else []
  operands := fun i =>
    if i = 0 then [⟨v 0, .Any, .Def, .Late⟩, ⟨v 1, .Any, .Def, .Late⟩]
    else if i = 2 then [⟨v 3, .Reg, .Def, .Late⟩, ⟨v 2, .Any, .Use, .Early⟩, ⟨v 1, .Any, .Use, .Early⟩]
    else if i = 5 then [⟨v 3, .Any, .Use, .Early⟩] else []
  clobbers := fun i => if i = 2 then [PReg.new 7 .Int] else []
  numVregs := 4

def loopOut : Output where
  numSpillslots := 0
  edits := [(ptBefore 1, ⟨r 0, r 2⟩), (ptBefore 4, ⟨r 3, r 2⟩)]
  allocs := [r 0, r 1, r 3, r 2, r 1, r 3]
  offsets := [0, 2, 2, 5, 5, 5]

def exEnv : MachineEnv := ⟨fun _ => PRegSet.empty, fun _ => PRegSet.empty, fun _ => none, []⟩

theorem loop_insts {b i : Nat} (hb : b < 4) (hi : i ∈ loopF.blockInsts b) : i < 6 := by
  rcases (by omega : b = 0 ∨ b = 1 ∨ b = 2 ∨ b = 3) with rfl | rfl | rfl | rfl <;>
    simp [Func.blockInsts, loopF] at hi <;> omega

theorem loopOk : FuncOk loopF loopOut where
  entryLt := by decide
  sorted := by decide
  succLt := by decide
  nonempty := by decide
  edges := by
    intro b hb k k' s h h'
    have hb : b < 4 := hb
    rcases (by omega : b = 0 ∨ b = 1 ∨ b = 2 ∨ b = 3) with rfl | rfl | rfl | rfl <;> simp [loopF] at h h' <;>
      (rcases k with _ | _ | k <;> rcases k' with _ | _ | k' <;> simp_all)
    all_goals omega
  params := by decide
  branchLast := by decide
  insts := by
    intro b hb i hi
    have hi6 := loop_insts hb hi
    refine ⟨?_, ?_, ?_, ?_, ?_⟩
    · have : ∀ i, i < 6 → ((loopOut.instAllocs i).map List.length) = some (loopF.operands i).length := by decide +kernel
      have := this i hi6
      cases h : loopOut.instAllocs i with
      | none => rw [h] at this; simp at this
      | some as => rw [h] at this; exact ⟨as, rfl, by simpa using this⟩
    · have : ∀ i, i < 6 → ∀ w ∈ opReads (loopF.operands i), w ∉ opWrites (loopF.operands i) := by decide +kernel
      exact this i hi6
    · have : ∀ i, i < 6 → (opWrites (loopF.operands i)).Nodup := by decide +kernel
      exact this i hi6
    · intro l1 p l2 q l3 e _ _ hk hp
      exfalso
      have : ∀ i, i < 6 → ∀ q ∈ (loopF.operands i).zip ((loopOut.instAllocs i).getD []),
          q.1.kind = .Def → q.1.pos ≠ .Early := by decide +kernel
      exact this i hi6 q (by rw [e]; simp) hk hp
    · intro h
      have : ∀ i, i < 6 → hasReuse (loopF.operands i) = false := by decide +kernel
      rw [this i hi6] at h; simp at h

/-- The hypotheses of C12 hold for the loop, whose entry has no predecessor. -/
example : FuncOk loopF loopOut ∧ run? loopF exEnv loopOut = some [] ∧ NoStaleMoves loopF loopOut ∧
    (∀ b, b < loopF.numBlocks → loopF.entry ∉ loopF.succs b) :=
  ⟨loopOk, by decide +kernel, NoStaleMoves.of_decide (by decide +kernel), by decide⟩

/-- Two iterations of the loop: the sum `v3 = v2 + v1` is read back. -/
def exSem : Sem Nat := fun _ => ⟨fun i _ k => 100 + i + k, fun i e _ k => if i = 0 then 5 + k else e.sum⟩

example : allocRun loopF loopOut exSem (fun _ _ => 99) [0, 0, 0, 1] 0 (fun _ => 0) [] =
    [(0, [], []), (1, [], []), (2, [5, 6], []), (3, [], []), (4, [], []), (2, [11, 6], []), (3, [], []),
      (5, [17], [])] := by decide +kernel

/-- Dropping the move on the back edge is rejected. -/
example : run? loopF exEnv { loopOut with edits := [(ptBefore 1, ⟨r 0, r 2⟩)] } ≠ some [] := by decide +kernel

/-! ### What the checker does not catch -/

/-- A single block holding instructions with the given operands. -/
def lineF (ops : List (List Op)) : Func :=
  ⟨ops.length, 1, 0, fun _ => (0, ops.length), fun _ => [], fun _ => [], fun _ => [],
    fun i => i + 1 = ops.length, fun _ => false, fun _ _ _ => [], fun i => (ops[i]?).getD [], fun _ => [], 8⟩

/-- C12, negative. A move from a location the checker knows nothing about leaves
the old knowledge about the destination in place: here `v0` in `r0` is overwritten
from the never written `r1` and the later read of `v0` from `r0` is accepted. -/
theorem C12_stale_label_accepted :
    let f := lineF [[⟨v 0, .Any, .Def, .Late⟩], [⟨v 0, .Any, .Use, .Early⟩]]
    let out : Output := ⟨0, [(ptBefore 1, ⟨r 1, r 0⟩)], [r 0, r 0], [0, 1]⟩
    run? f exEnv out = some [] ∧
    allocRun f out exSem (fun _ _ => 0) [] 0 (fun _ => 77) [] = [(0, [], []), (1, [77], [])] ∧
    origRun f exSem [] 0 (fun _ => 77) [] = [(0, [], []), (1, [5], [])] := by
  refine ⟨by decide +kernel, by decide +kernel, by decide +kernel⟩

/-- C12, negative. Next to a reused input, late uses are not checked: the late use
of `v1` is given the location of `v0`. -/
theorem C12_late_use_beside_reuse_accepted :
    let f := lineF [[⟨v 0, .Any, .Def, .Late⟩, ⟨v 1, .Any, .Def, .Late⟩],
      [⟨v 2, .Reuse 1, .Def, .Late⟩, ⟨v 0, .Reg, .Use, .Early⟩, ⟨v 1, .Reg, .Use, .Late⟩]]
    let out : Output := ⟨0, [], [r 0, r 1, r 0, r 0, r 0], [0, 2]⟩
    run? f exEnv out = some [] ∧
    allocRun f out exSem (fun _ _ => 0) [] 0 (fun _ => 77) [] = [(0, [], []), (1, [5], [5])] ∧
    origRun f exSem [] 0 (fun _ => 77) [] = [(0, [], []), (1, [5], [6])] := by
  refine ⟨by decide +kernel, by decide +kernel, by decide +kernel⟩

/-- C12, negative. Definitions are processed in operand order whatever their
position: with a late definition listed before an early one in the same location
the checker believes the location holds the early one. -/
theorem C12_two_defs_one_location_accepted :
    let f := lineF [[⟨v 0, .Any, .Def, .Late⟩, ⟨v 1, .Any, .Def, .Early⟩], [⟨v 1, .Any, .Use, .Early⟩]]
    let out : Output := ⟨0, [], [r 0, r 0, r 0], [0, 2]⟩
    run? f exEnv out = some [] ∧
    allocRun f out exSem (fun _ _ => 0) [] 0 (fun _ => 77) [] = [(0, [], []), (1, [5], [])] ∧
    origRun f exSem [] 0 (fun _ => 77) [] = [(0, [], []), (1, [101], [])] := by
  refine ⟨by decide +kernel, by decide +kernel, by decide +kernel⟩

/-- C13, negative. A reused input is itself never enforced at the late position,
where the `reuse_def` constructor puts it: the definition may be elsewhere. -/
theorem C13_late_reuse_not_checked :
    let f := lineF [[⟨v 0, .Any, .Def, .Late⟩],
      [⟨v 1, .Reuse 1, .Def, .Late⟩, ⟨v 0, .Reg, .Use, .Early⟩]]
    let out : Output := ⟨0, [], [r 0, r 5, r 0], [0, 1]⟩
    run? f exEnv out = some [] ∧ out.instAllocs 1 = some [r 5, r 0] ∧
      ¬ Allowed exEnv [r 5, r 0] ⟨v 1, .Reuse 1, .Def, .Late⟩ (r 5) := by
  refine ⟨by decide +kernel, by decide +kernel, ?_⟩
  unfold Allowed
  simp only [not_and]
  intro h
  exact absurd h (by decide +kernel)

/-- C13, negative. A register limit is not enforced on a spill slot. -/
theorem C13_limit_on_stack_accepted :
    let f := lineF [[⟨v 0, .Limit 4, .Def, .Late⟩]]
    let out : Output := ⟨1, [], [.stack ⟨0⟩], [0]⟩
    run? f exEnv out = some [] ∧ ¬ Allowed exEnv [.stack ⟨0⟩] ⟨v 0, .Limit 4, .Def, .Late⟩ (.stack ⟨0⟩) := by
  refine ⟨by decide +kernel, ?_⟩
  unfold Allowed
  rintro ⟨p, hp, _⟩
  have : (Allocation.stack ⟨0⟩).asReg = none := by decide
  rw [this] at hp
  simp at hp

/-- C13. The register class of an operand is not compared with that of its
register. -/
theorem C13_class_not_checked :
    let f := lineF [[⟨VReg.new 0 .Float, .Reg, .Def, .Late⟩]]
    run? f exEnv ⟨0, [], [r 0], [0]⟩ = some [] := by
  decide +kernel

/-- The preconditions of C14 hold for the loop. -/
example : WellFormed loopF loopOut where
  succLt := loopOk.succLt
  sorted := loopOk.sorted
  allocs := fun b hb i hi => (loopOk.insts b hb i hi).len
  args := by
    intro b hb i hi _ k s hs
    have hb : b < 4 := hb
    rcases (by omega : b = 0 ∨ b = 1 ∨ b = 2 ∨ b = 3) with rfl | rfl | rfl | rfl <;> simp [loopF] at hs ⊢ <;>
      (rcases k with _ | _ | k <;> simp_all <;> (subst hs; simp))
  reuse := by
    intro b hb i hi o ho k hk
    exfalso
    have : ∀ i, i < 6 → ∀ o ∈ loopF.operands i, hasReuse [o] = false := by decide +kernel
    have := this i (loop_insts hb hi) o ho
    simp [hasReuse, hk] at this

end Checker
end Regalloc
