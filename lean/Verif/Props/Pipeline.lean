import Verif.Proofs.PipeRun
import Verif.Proofs.PipeFinite
import Verif.Proofs.PipeTotal

/-
C41: the backtracking allocator as a whole. If it returns an allocation, executing the
function with the allocated operands and the inserted moves reads the same values as the
original function; every operand is where its constraint asks for; and the moves can be
executed.

C42: it terminates, and fails only for the reasons it gives.
-/
namespace Regalloc.Pipeline

open Apply (OpAt)

/-- C41. If the allocator succeeds, the allocated program reads the same values as the original
one in every instruction, on every path through the function, whatever instructions compute,
whatever they leave in clobbered registers, and whatever registers, slots and virtual registers
hold initially. No order of hash maps or of equal elements in unstable sorts, and no sums of
weights make a difference to that.

Partial: `ProgramOk` asks for more than the interface does. Without `FuncOk` (clobbers on a
branch to a join, two outputs that reuse inputs) it is false, see C38. Unreachable blocks,
`layout`, `late` and `limits` are left out. -/
theorem C41_same_behaviour_partial {Val : Type} {i : Input} (hp : ProgramOk i) (hr : RegsOk i) {out : Output} (h : run i = .ok out)
    (hfit : Fits i out) (sem : Exec.Sem Val) (junk : Nat → Allocation → Val) (ks : List Nat) (A : Allocation → Val) (V : VReg → Val) :
    Exec.allocRun i.f out sem junk ks i.f.entry A [] = Exec.origRun i.f sem ks i.f.entry V [] := by
  obtain ⟨fr, q, ss, slots, num, ms, allocs, edits, s, H⟩ := ran hp hr h
  exact H.agrees hp hr hfit sem junk ks A V

theorem placeOf_reg (env : MachineEnv) (p : PReg) : placeOf env (Allocation.reg p) = some (Place.ofPReg env p) := by
  unfold placeOf
  rw [(C05_alloc_reg _).2.1]

/-- C41. If the allocator succeeds, every operand has a location that its constraint admits: a
register of its class, which may be allocated or is named by an operand, or a slot that exists.
An output that reuses an input has the location of the input.

Partial: an input that is reused may ask for any location or any register. Other constraints of
such an input may be ignored: `C41_reused_input_violation`. -/
theorem C41_operands_partial {i : Input} (hp : ProgramOk i) (hr : RegsOk i) {out : Output} (h : run i = .ok out) {j k : Nat} {o : Op}
    (ho : OpAt i.f j k o) (hre : (∃ k' o', OpAt i.f j k' o' ∧ o'.constraint = .Reuse k) → o.constraint = .Any ∨ o.constraint = .Reg) :
    ∃ a x, Output.operand out j k = some a ∧ placeOf i.env a = some x ∧ o.constraint.Admits i.env x ∧
      (∀ m, o.constraint = .Reuse m → Output.operand out j m = some a) ∧
      (∀ p, a.asReg = some p → a = Allocation.reg p ∧ p.class? = o.vreg.class? ∧ (∀ c, i.env.scratch c ≠ some p) ∧
        (Allocatable i.env p ∨ ∃ j k o, OpAt i.f j k o ∧ o.constraint = .FixedReg p)) ∧
      (∀ s, a.asStack = some s → s.index < out.numSpillslots) := by
  obtain ⟨fr, q, ss, slots, num, ms, allocs, edits, s, H⟩ := ran hp hr h
  have hloc := fun j k o (ho : OpAt i.f j k o) => Apply.C38_operand_locations (func_ok hp fr q ss slots) (H.valid hp hr) H.apply
    (i := j) (k := k) (o := o) ho
  have hreg : ∀ {a : Allocation} {p : PReg}, a = Allocation.reg p → ∀ p', a.asReg = some p' → p' = p := by
    intro a p h1 p' h2
    rw [h1, (C05_alloc_reg _).2.1] at h2
    exact (Option.some.inj h2).symm
  have hst : ∀ {a : Allocation} {p : PReg} {s : SpillSlot}, a = Allocation.reg p → a.asStack = some s → False := by
    intro a p s h1 h2
    rw [h1, (C05_alloc_reg _).2.2.1] at h2
    cases h2
  refine ⟨allocs j k, ?_⟩
  by_cases hno : ∃ k' o', OpAt i.f j k' o' ∧ o'.constraint = .Reuse k
  · obtain ⟨k', o', h1, h2⟩ := hno
    have h3 := (hloc j k' o' h1).1 k h2
    obtain ⟨h4, h5, w, h6, h7, -, h8⟩ := hp.func.reuse j k' k o' h1 h2
    have := opAt_eq h6 ho
    subst this
    have hno' : ¬ ∃ k2 o2, OpAt i.f j k2 o2 ∧ o2.constraint = .Reuse k' := by
      rintro ⟨k2, o2, g1, g2⟩
      obtain ⟨-, -, w2, g3, g4, -⟩ := hp.func.reuse j k2 k' o2 g1 g2
      rw [opAt_eq g3 h1, h4] at g4
      cases g4
    rcases H.located hp hr h1 hno' with ⟨p, g1, g2, g3, g4, g5⟩ | ⟨s', -, -, -, g1⟩
    · have ha : allocs j k = Allocation.reg p := h3.trans g1
      refine ⟨Place.ofPReg i.env p, H.operand hp ho.1 ho.2.1, by rw [ha]; exact placeOf_reg _ _, ?_, ?_, ?_, fun s' hs' => (hst ha hs').elim⟩
      · rw [h2] at g5
        rcases hre ⟨k', o', h1, h2⟩ with hc | hc <;> rw [hc]
        · trivial
        · exact g5
      · intro m hm
        rcases hre ⟨k', o', h1, h2⟩ with hc | hc <;> rw [hc] at hm <;> cases hm
      · intro p' hp'
        have := hreg ha p' hp'
        subst this
        exact ⟨ha, g2.trans h8.symm, g3, g4⟩
    · have := g1 0
      rw [h2] at this
      obtain ⟨p, hp'⟩ := this
      cases hp'
  · have hreuse : ∀ m, o.constraint = .Reuse m → Output.operand out j m = some (allocs j k) := by
      intro m hm
      have h1 := (hloc j k o ho).1 m hm
      obtain ⟨-, -, w, h2, -⟩ := hp.func.reuse j k m o ho hm
      rw [H.operand hp h2.1 h2.2.1, h1]
    rcases H.located hp hr ho hno with ⟨p, g1, g2, g3, g4, g5⟩ | ⟨s', g1, g2, g3, g4⟩
    · refine ⟨Place.ofPReg i.env p, H.operand hp ho.1 ho.2.1, by rw [g1]; exact placeOf_reg _ _, g5, hreuse, ?_, fun s' hs' => (hst g1 hs').elim⟩
      intro p' hp'
      have := hreg g1 p' hp'
      subst this
      exact ⟨g1, g2, g3, g4⟩
    · refine ⟨.slot s'.index, H.operand hp ho.1 ho.2.1, ?_, g4 _, hreuse, ?_, ?_⟩
      · unfold placeOf
        rw [g1, g2]
        rfl
      · intro p hp'
        rw [g1] at hp'
        cases hp'
      · intro s2 hs2
        rw [g2] at hs2
        have : s' = s2 := Option.some.inj hs2
        subst this
        have : num.toNat ≤ s.num.toNat := resolveSorted_mono H.resolve
        rw [H.out]
        show s'.index < s.num.toNat
        omega

/-- C41. An operand that names a register itself, without a virtual register, keeps it. -/
theorem C41_nonallocatable {i : Input} (hp : ProgramOk i) (hr : RegsOk i) {out : Output} (h : run i = .ok out) {b j k : Nat} {o : Op} {p : PReg}
    (hb : b < i.f.numBlocks) (hj : j ∈ i.f.blockInsts b) (ho : (i.f.operands j)[k]? = some o) (hn : o.asFixedNonallocatable = some p) :
    Output.operand out j k = some (Allocation.reg p) := by
  obtain ⟨fr, q, ss, slots, num, ms, allocs, edits, s, H⟩ := ran hp hr h
  rw [H.operand hp ⟨b, hb, hj⟩ ho, H.nonallocatable hp hr hb hj ho hn]

/-- C41. The moves are sorted by their points, and stand before instructions. Each has two
different locations, of which one at least is a register, and names only slots that exist. -/
theorem C41_edits {i : Input} (hp : ProgramOk i) (hr : RegsOk i) {out : Output} (h : run i = .ok out) (hfit : Fits i out) :
    out.edits.Pairwise (fun a b => a.1 ≤ b.1) ∧
    ∀ e ∈ out.edits, e.1 % 2 = 0 ∧ e.2.src ≠ e.2.dst ∧
      ((∃ p, placeOf i.env e.2.src = some (.reg p)) ∨ (∃ p, placeOf i.env e.2.dst = some (.reg p))) ∧
      ∀ a, a = e.2.src ∨ a = e.2.dst → (a.isStack = true ∨ ∃ p, a = Allocation.reg p) ∧ ∀ s, a.asStack = some s → s.index < out.numSpillslots := by
  obtain ⟨fr, q, ss, slots, num, ms, allocs, edits, s, H⟩ := ran hp hr h
  obtain ⟨h1, h2⟩ := H.edits_ok hp hr hfit
  have hmem : ∀ a : Allocation, ResolveMoves.Real a → (ResolveMoves.InMemory (moveEnv i fr.info q.maps allocs) a) ∨ ∃ p, placeOf i.env a = some (.reg p) := by
    rintro a (ha | ⟨p, rfl⟩)
    · exact .inl (.inl ha)
    · rw [placeOf_reg]
      unfold Place.ofPReg
      split
      · rename_i hm
        exact .inl (.inr ⟨p, rfl, decide_eq_true hm⟩)
      · exact .inr ⟨p, rfl⟩
  rw [H.out]
  constructor
  · show (edits.map _).Pairwise _
    rw [List.pairwise_map]
    exact h1
  · intro e he
    obtain ⟨m, hm, rfl⟩ := List.mem_map.mp he
    obtain ⟨g1, g2, g3, g4⟩ := h2 m hm
    rw [H.out] at g4
    refine ⟨g1, g2, ?_, g4⟩
    rcases hmem m.src (g4 _ (.inl rfl)).1 with k1 | k1
    · rcases hmem m.dst (g4 _ (.inr rfl)).1 with k2 | k2
      · exact absurd ⟨k1, k2⟩ g3
      · exact .inr k2
    · exact .inl k1

/-- C42. What the errors mean. A value is reported to be live at the entry just if it may be read
before it is written. Too many operands are reported only if an instruction has more than 2^16
of them. Too many live registers are reported only if the operands of a single instruction, with
its clobbers, ask for more registers than there are: pressure over several instructions is always
dealt with. There are no other errors. -/
theorem C42_errors {i : Input} (hp : ProgramOk i) (hr : RegsOk i) (hs : Serviceable i) :
    (run i = .error (.error .entryLivein) ↔ ∃ v, v < 2 ^ 30 ∧ Liveness.MayRead i.f i.f.entry v) ∧
    (run i = .error (.error .tooManyOperands) → ∃ j, 2 ^ 16 < (i.f.operands j).length) ∧
    (run i = .error (.error .tooManyLiveRegs) → Overcommitted i) ∧
    (∀ e, run i = .error (.error e) → e = .entryLivein ∨ e = .tooManyOperands ∨ e = .tooManyLiveRegs) := by
  unfold run
  rcases front_total hp hs with ⟨fr, h, hf⟩ | ⟨h, h1⟩ | ⟨h, h1⟩
  · rw [h]
    dsimp only
    have hne : ¬ ∃ v, v < 2 ^ 30 ∧ Liveness.MayRead i.f i.f.entry v := fun ⟨v, h1, h2⟩ => not_mayRead_entry hp hf.toMidOk v h1 h2
    rcases back_total hp hf hr hs with h2 | ⟨h2, h3⟩ | ⟨h2, -⟩ | ⟨out, h2, -⟩ <;> rw [h2]
    · simp [hne]
    · simp [hne, h3]
    · simp [hne]
    · simp [hne]
  · rw [h]
    simp [h1]
  · rw [h]
    simp [h1]

/-- C42. The allocator does not panic, unless there are too many operands at the very first point
of the program. -/
theorem C42_no_panic {i : Input} (hp : ProgramOk i) (hr : RegsOk i) (hs : Serviceable i) (hq : QuietStart i.f ∨ ¬ Overcommitted i) :
    run i ≠ .error .panic := by
  unfold run
  rcases front_total hp hs with ⟨fr, h, hf⟩ | ⟨h, h1⟩ | ⟨h, h1⟩ <;> rw [h]
  · dsimp only
    rcases back_total hp hf hr hs with h2 | ⟨h2, h3⟩ | ⟨h2, h3, h4⟩ | ⟨out, h2, -⟩ <;> rw [h2]
    · simp
    · simp
    · exact absurd h3 (hq.resolve_left h4)
    · simp
  · simp
  · simp

/-- C42. The allocator terminates: with fuel enough, more of it does not change the result. -/
theorem C42_terminates {i : Input} (hp : ProgramOk i) (hr : RegsOk i) (hs : Serviceable i) (hT : LocalTotal i) :
    ∃ n, ∀ m, n ≤ m → run { i with fuel := m } = run { i with fuel := n } ∧ run { i with fuel := m } ≠ .error .fuel := by
  have hrun : ∀ m, run { i with fuel := m } = match front i with | .error e => .error e | .ok fr => back { i with fuel := m } fr := fun _ => rfl
  rcases front_total hp hs with ⟨fr, h, hf⟩ | ⟨h, h1⟩ | ⟨h, h1⟩
  · obtain ⟨n, hn⟩ := back_ends hp hf hr hs hT
    refine ⟨n, fun m hm => ?_⟩
    rw [hrun, hrun, h]
    exact hn m hm
  · exact ⟨0, fun m _ => by rw [hrun, hrun, h]; simp⟩
  · exact ⟨0, fun m _ => by rw [hrun, hrun, h]; simp⟩

/-- C42. So a function whose instructions, each by itself, do not ask for too much is allocated,
and the result behaves like the original.

Partial for the reasons given at `C41_same_behaviour_partial`. -/
theorem C42_total_partial {Val : Type} {i : Input} (hp : ProgramOk i) (hr : RegsOk i) (hs : Serviceable i) (hT : LocalTotal i)
    (h1 : ¬ Overcommitted i) (h2 : ∀ v, v < 2 ^ 30 → ¬ Liveness.MayRead i.f i.f.entry v) (h3 : ∀ j, (i.f.operands j).length ≤ 2 ^ 16) :
    ∃ n out, (∀ m, n ≤ m → run { i with fuel := m } = .ok out) ∧ Fits i out ∧
      ∀ (sem : Exec.Sem Val) (junk : Nat → Allocation → Val) (ks : List Nat) (A : Allocation → Val) (V : VReg → Val),
        Exec.allocRun i.f out sem junk ks i.f.entry A [] = Exec.origRun i.f sem ks i.f.entry V [] := by
  obtain ⟨n, hn⟩ := C42_terminates hp hr hs hT
  have hp' := hp.fuel n
  have hr' := hr.fuel n
  have hs' := hs.fuel n
  obtain ⟨e1, e2, e3, e4⟩ := C42_errors hp' hr' hs'
  cases h : run { i with fuel := n } with
  | ok out =>
    have hfit : Fits { i with fuel := n } out := by
      unfold run at h
      rcases front_total hp' hs' with ⟨fr, g, hf⟩ | ⟨g, g1⟩ | ⟨g, g1⟩ <;> rw [g] at h
      · dsimp only at h
        rcases back_total hp' hf hr' hs' with g2 | ⟨g2, g3⟩ | ⟨g2, g3, g4⟩ | ⟨out', g2, g3⟩ <;> rw [g2] at h <;> cases h
        exact g3
      · cases h
      · cases h
    exact ⟨n, out, fun m hm => (hn m hm).1.trans h, hfit, fun sem junk ks A V => C41_same_behaviour_partial hp' hr' h hfit sem junk ks A V⟩
  | error e =>
    exfalso
    cases e with
    | fuel => exact (hn n (Nat.le_refl n)).2 h
    | panic => exact C42_no_panic hp' hr' hs' (.inr h1) h
    | error e =>
      rcases e4 e h with rfl | rfl | rfl
      · obtain ⟨v, hlt, hv⟩ := e1.mp h
        exact h2 v hlt hv
      · obtain ⟨j, hj⟩ := e2 h
        exact absurd (h3 j) (Nat.not_le.mpr hj)
      · exact h1 (e3 h)

/-! ### Concrete cases -/

section Example

open Apply (Data FuncB FuncB')

private def P (n : Nat) : PReg := .new n .Int
private def V (n : Nat) : VReg := .new n .Int
private def use (n : Nat) (c : OperandConstraint := .Any) : Op := ⟨V n, c, .Use, .Early⟩
private def define (n : Nat) (c : OperandConstraint := .Any) : Op := ⟨V n, c, .Def, .Late⟩
private def temp (n : Nat) : Op := ⟨V n, .Reg, .Def, .Early⟩
private def named (p : PReg) : Op := ⟨.new VReg.MAX .Int, .FixedReg p, .Use, .Early⟩

/-- A loop. Its body asks for register 1 in a fixed machine register, which it clobbers, although
register 1 is needed in the next round; its output reuses an input. The first instruction needs a
temporary register, and names a register that is not to be allocated. -/
def demoData : Data where
  blocks := [
    { insns := (0, 2), succs := [1], args := [[V 0]] },
    { insns := (2, 4), succs := [3, 2], preds := [0, 3], params := [V 2], args := [[], []] },
    { insns := (4, 5), preds := [1] },
    { insns := (5, 6), succs := [1], preds := [1], args := [[V 3]] }]
  insts := [
    { ops := [define 0, define 1, temp 4, named (P 7)] },
    { branch := true },
    { ops := [use 1 (.FixedReg (P 0)), use 2, define 3 (.Reuse 1)], clobbers := [P 0] },
    { branch := true },
    { ops := [use 3], ret := true },
    { branch := true }]
  vregs := [(V 0, []), (V 1, []), (V 2, []), (V 3, []), (V 4, [])]

/-- The allocator's input, with `k` registers. -/
def demo (d : Data) (k : Nat) : Input where
  f := d.func
  vreg := fun v => (d.vr v).1
  multi := false
  env := ⟨fun c => if c = .Int then PRegSet.ofList ((List.range k).map P) else PRegSet.ofList [], fun _ => PRegSet.ofList [], fun _ => none, []⟩
  size := fun _ => 1
  byLast := false
  ord := ⟨id, fun l => .refl l⟩
  tie := ⟨fun _ l => l, fun _ l => .refl l⟩
  total := fun _ _ => 1000
  fuel := 1000

theorem demoFuncB : FuncB demoData := by constructor <;> decide +kernel
theorem demoFuncB' : FuncB' demoData := by constructor <;> decide +kernel

example : ProgramOk (demo demoData 2) :=
  programOk_of (d := demoData) (place := fun v => if v = 1 then .reg (P 0) else .reg (P 1)) rfl rfl demoFuncB demoFuncB'
    (by constructor <;> decide +kernel)
example : ProgramOk (demo demoData 3) :=
  programOk_of (d := demoData) (place := fun v => if v = 1 then .reg (P 0) else .reg (P 1)) rfl rfl demoFuncB demoFuncB'
    (by constructor <;> decide +kernel)
example : RegsOk (demo demoData 2) := regsOk_of (d := demoData) rfl demoFuncB (by constructor <;> decide +kernel)
example : RegsOk (demo demoData 3) := regsOk_of (d := demoData) rfl demoFuncB (by constructor <;> decide +kernel)

/-- With three registers there is no need to spill. With two, register 1 lives in a slot; with one,
there is no allocation. -/
def demoOut (k : Nat) : Option Output := match run (demo demoData k) with | .ok out => some out | .error _ => none

example : (demoOut 3).map (fun o => (o.numSpillslots, o.edits)) =
    some (0, [(4, ⟨Allocation.reg (P 2), Allocation.reg (P 0)⟩)]) := by decide +kernel
example : (demoOut 2).map (fun o => (o.numSpillslots, o.edits)) =
    some (1, [(4, ⟨Allocation.stack (SpillSlot.new 0), Allocation.reg (P 0)⟩)]) := by decide +kernel
example : (demoOut 2).bind (fun o => Output.operand o 0 3) = some (Allocation.reg (P 7)) := by decide +kernel
example : (match run (demo demoData 1) with | .error e => some e | .ok _ => none) = some (.error .tooManyLiveRegs) := by decide +kernel
example : ∀ out, demoOut 2 = some out → Fits (demo demoData 2) out := by
  intro out h
  have h1 : (demoOut 2).map Output.numSpillslots = some 1 := by decide +kernel
  rw [h] at h1
  have h1 : out.numSpillslots = 1 := Option.some.inj h1
  unfold Fits
  rw [h1]
  decide

/-- Two registers are enough. Register 1 is copied to its fixed register, which is clobbered. -/
private def demoPick (j _ : Nat) : PReg := if j = 0 then P 0 else P 1

theorem demoCopied : ∀ j k o, (j, k) ∈ [(2, 0)] → OpAt demoData.func j k o → ∀ p, o.constraint = .FixedReg p →
    CopiedTo demoData.func j o p := by
  intro j k o h ho p hp
  simp only [List.mem_singleton, Prod.mk.injEq] at h
  obtain ⟨rfl, rfl⟩ := h
  have h1 : (demoData.func.operands 2)[0]? = some (use 1 (.FixedReg (P 0))) := by decide +kernel
  have := ho.2.1
  rw [h1] at this
  cases this
  cases hp
  refine ⟨1, by decide, by decide +kernel, ⟨by decide +kernel, rfl, rfl, rfl, .inl (by decide +kernel)⟩, .inl ⟨.inl ⟨3, by decide +kernel, ?_⟩, ?_⟩⟩
  · refine ⟨_, .step (i := 0) (c := 1) (by decide +kernel) (.stop 1), [.read 3, .write 2], [.read 2, .write 3], ?_, ?_⟩
    · decide +kernel
    · decide +kernel
  · intro d hd
    have := (demoData.defAt_iff demoFuncB.insts _ _).mp ⟨1, by decide, hd⟩
    revert this
    have : ∀ q ∈ demoData.defs, q.1 ≠ 1 ∨ q.2 / 2 ≤ 2 := by decide +kernel
    intro h
    rcases this _ h with h | h
    · exact absurd rfl h
    · exact h

theorem demoServB : ServB demoData (demo demoData 2) demoPick [(2, 0)] := by constructor <;> decide +kernel
theorem demoServiceable : Serviceable (demo demoData 2) := serviceable_of (d := demoData) rfl demoFuncB demoServB demoCopied
example : ¬ Overcommitted (demo demoData 2) :=
  not_overcommitted_of (d := demoData) rfl demoFuncB demoServB (by constructor <;> decide +kernel)
example : LocalTotal (demo demoData 2) := fun _ _ _ _ _ => rfl
example : ∀ v, v < 2 ^ 30 → ¬ Liveness.MayRead (demo demoData 2).f (demo demoData 2).f.entry v := by
  have hp : ProgramOk (demo demoData 2) :=
    programOk_of (d := demoData) (place := fun v => if v = 1 then .reg (P 0) else .reg (P 1)) rfl rfl demoFuncB demoFuncB'
      (by constructor <;> decide +kernel)
  have hr : RegsOk (demo demoData 2) := regsOk_of (d := demoData) rfl demoFuncB (by constructor <;> decide +kernel)
  intro v hv h
  have := (C42_errors hp hr demoServiceable).1.mpr ⟨v, hv, h⟩
  have h2 : (demoOut 2).isSome = true := by decide +kernel
  unfold demoOut at h2
  rw [this] at h2
  cases h2
example : ∀ j, ((demo demoData 2).f.operands j).length ≤ 2 ^ 16 := by
  intro j
  have : ∀ x ∈ demoData.insts, x.ops.length ≤ 2 ^ 16 := by decide +kernel
  rcases Nat.lt_or_ge j demoData.insts.length with h | h
  · refine this _ ?_
    show demoData.insts.getD j _ ∈ _
    rw [List.getD_eq_getElem?_getD, List.getElem?_eq_getElem h]
    exact List.getElem_mem h
  · show (demoData.inst j).ops.length ≤ _
    rw [demoData.inst_ge h]
    decide

/-! ### Panics -/

/-- Two temporaries in the first instruction, and one register. -/
def firstData : Data where
  blocks := [{ insns := (0, 2) }]
  insts := [{ ops := [temp 0, temp 1] }, { ret := true }]
  vregs := [(V 0, []), (V 1, [])]

theorem firstFuncB : FuncB firstData := by constructor <;> decide +kernel
theorem firstFuncB' : FuncB' firstData := by constructor <;> decide +kernel

/-- C42 fails: if the first instruction asks for too many registers, this is not reported as an
error. The point before it is computed (`/repo/src/ion/process.rs:1217`), but there is none: the
subtraction overflows, which is a panic if overflows are checked. -/
theorem C42_first_instruction_violation : ∃ i, ProgramOk i ∧ RegsOk i ∧ Serviceable i ∧ Overcommitted i ∧ run i = .error .panic := by
  have hrun : (match run (demo firstData 1) with | .error .panic => true | _ => false) = true := by decide +kernel
  have hr : run (demo firstData 1) = .error .panic := by
    split at hrun
    · assumption
    · cases hrun
  have hp := programOk_of (i := demo firstData 1) (d := firstData) (place := fun _ => .reg (P 0)) rfl rfl firstFuncB firstFuncB'
    (by constructor <;> decide +kernel)
  have hg := regsOk_of (i := demo firstData 1) (d := firstData) rfl firstFuncB (by constructor <;> decide +kernel)
  have hs := serviceable_of (i := demo firstData 1) (d := firstData) (pick := fun _ _ => P 0) (copied := []) rfl firstFuncB
    (by constructor <;> decide +kernel) (fun _ _ _ h => absurd h List.not_mem_nil)
  refine ⟨_, hp, hg, hs, Classical.byContradiction (fun ho => C42_no_panic hp hg hs (.inr ho) hr), hr⟩

/-- An input that is fixed to a register, which is clobbered, and is not needed afterwards. The
instruction reuses another input. -/
def dyingData : Data where
  blocks := [{ insns := (0, 3) }]
  insts := [
    { ops := [define 0, define 1] },
    { ops := [use 0 (.FixedReg (P 0)), use 1, define 2 (.Reuse 1)], clobbers := [P 0] },
    { ops := [use 2], ret := true }]
  vregs := [(V 0, []), (V 1, []), (V 2, [])]

theorem dyingFuncB : FuncB dyingData := by constructor <;> decide +kernel
theorem dyingFuncB' : FuncB' dyingData := by constructor <;> decide +kernel

/-- C42 fails: the input stays in its register until the end of the instruction, since another
input is reused, and the register is clobbered there. It is not copied, since it is not needed
afterwards. The allocator panics, although three registers are more than enough. -/
theorem C42_dying_input_violation : ∃ i, ProgramOk i ∧ RegsOk i ∧ ¬ Overcommitted i ∧ run i = .error .panic := by
  have hrun : (match run (demo dyingData 3) with | .error .panic => true | _ => false) = true := by decide +kernel
  have hr : run (demo dyingData 3) = .error .panic := by
    split at hrun
    · assumption
    · cases hrun
  exact ⟨_, programOk_of (i := demo dyingData 3) (d := dyingData) (place := fun v => if v = 0 then .reg (P 0) else .reg (P 1)) rfl rfl dyingFuncB
      dyingFuncB' (by constructor <;> decide +kernel),
    regsOk_of (d := dyingData) rfl dyingFuncB (by constructor <;> decide +kernel),
    not_overcommitted_of (d := dyingData) (pick := fun _ _ => P 1) (copied := [(1, 0)]) rfl dyingFuncB (by constructor <;> decide +kernel)
      (by constructor <;> decide +kernel), hr⟩

/-! ### A reused input whose constraint is ignored -/

/-- The input is asked for in register 1, the output, which reuses it, in register 0. -/
def reusedData : Data where
  blocks := [{ insns := (0, 3) }]
  insts := [
    { ops := [define 0] },
    { ops := [use 0 (.FixedReg (P 1)), define 1 (.Reuse 0)] },
    { ops := [use 1 (.FixedReg (P 0))], ret := true }]
  vregs := [(V 0, []), (V 1, [])]

theorem reusedFuncB : FuncB reusedData := by constructor <;> decide +kernel
theorem reusedFuncB' : FuncB' reusedData := by constructor <;> decide +kernel

/-- C41 fails: an input that is reused is asked for in a fixed register, and is found in
another one, in which the output is asked for later. -/
theorem C41_reused_input_violation : ∃ i out, ProgramOk i ∧ RegsOk i ∧ run i = .ok out ∧ Fits i out ∧ ∃ j k o p a x,
    OpAt i.f j k o ∧ o.constraint = .FixedReg p ∧ Output.operand out j k = some a ∧ placeOf i.env a = some x ∧
    ¬ o.constraint.Admits i.env x := by
  have hrun : (match run (demo reusedData 2) with | .ok out => some (out.numSpillslots, Output.operand out 1 0) | .error _ => none) =
      some (0, some (Allocation.reg (P 0))) := by decide +kernel
  cases h : run (demo reusedData 2) with
  | error e => rw [h] at hrun; cases hrun
  | ok out =>
    rw [h] at hrun
    have hrun : (out.numSpillslots, Output.operand out 1 0) = (0, some (Allocation.reg (P 0))) := Option.some.inj hrun
    refine ⟨demo reusedData 2, out, ?_, ?_, h, ?_, 1, 0, use 0 (.FixedReg (P 1)), P 1, Allocation.reg (P 0), .reg (P 0), ?_, rfl,
      congrArg Prod.snd hrun, ?_, ?_⟩
    · exact programOk_of (d := reusedData) (place := fun _ => .reg (P 1)) rfl rfl reusedFuncB reusedFuncB' (by constructor <;> decide +kernel)
    · exact regsOk_of (d := reusedData) rfl reusedFuncB (by constructor <;> decide +kernel)
    · have h1 : out.numSpillslots = 0 := congrArg Prod.fst hrun
      unfold Fits
      rw [h1]
      decide
    · exact (reusedData.opAt_iff reusedFuncB.insts _ _ _).mpr (by decide +kernel)
    · rw [placeOf_reg]; rfl
    · intro hc
      have hc : Place.reg (P 0) = Place.reg (P 1) := hc
      exact absurd hc (by decide +kernel)

end Example

end Regalloc.Pipeline
