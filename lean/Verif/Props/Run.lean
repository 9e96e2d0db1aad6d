import Verif.Proofs.RunOk
import Verif.Props.Pipeline
import Verif.Props.Complete

/-
C43: the entry point `run`, with its options. Validating the function beforehand only rejects
functions; what is accepted is in SSA form, and is allocated correctly by either algorithm.
-/
namespace Regalloc.Api

open Pipeline (Input Fail)
open Apply (OpAt)

/-- C43. Validation changes nothing but that some functions are rejected: with it, `run` returns an
allocation if and only if the function is valid and `run` returns this allocation without it. -/
theorem C43_validation_only_rejects (i : Input) (a : Algorithm) (out : Output) :
    run i ⟨true, a⟩ = .ok out ↔ validate i.f = .ok () ∧ run i ⟨false, a⟩ = .ok out := by
  cases a with
  | ion =>
    unfold run ionRun validate
    cases h : Cfg.init i.f with
    | panic => simp
    | err e => simp
    | ok info => cases h2 : Ssa.validate i.f info <;> simp [h2]
  | fastalloc =>
    unfold run
    cases h : validate i.f with
    | error e => simp
    | ok u => cases u; simp

/-- C43. A function that is in SSA form, without critical edges, whose blocks are all reachable and
whose registers have one class, passes validation, so that the option makes no difference. -/
theorem C43_ssa_accepted (i : Input) (a : Algorithm) (hm : EdgesMatch i.f) (hn : ∀ b, b < i.f.numBlocks → (i.f.insns b).2 ≤ i.f.numInsts)
    (hs : InSsa i.f) (hreach : ∀ b, b < i.f.numBlocks → Reaches i.f.succs i.f.entry b)
    (hcls : ∀ b, b < i.f.numBlocks → ∀ j ∈ i.f.blockInsts b, ∀ v ∈ opReads (i.f.operands j), ∀ w ∈ allWrites i.f, w.vreg = v.vreg → w = v) :
    run i ⟨true, a⟩ = run i ⟨false, a⟩ := by
  obtain ⟨info, h1⟩ := (C11_accepts_iff i.f hm hn).1.mpr hs.critical
  have h2 := C10_accepts_ssa i.f info h1 hm hreach hs.single hs.range hcls hs.reads hs.terminators hs.entry
  have h3 := (validate_iff i.f).mpr ⟨info, h1, h2⟩
  cases a with
  | ion =>
    unfold run ionRun
    rw [h1]
    simp [h2]
  | fastalloc =>
    unfold run
    rw [h3]
    rfl

/-- C43. If `run` returns an allocation with validation on, the function is in SSA form, and has no
critical edges. -/
theorem C43_accepted_is_ssa (i : Input) (a : Algorithm) (out : Output) (hm : EdgesMatch i.f)
    (hn : ∀ b, b < i.f.numBlocks → (i.f.insns b).2 ≤ i.f.numInsts) (h : run i ⟨true, a⟩ = .ok out) : InSsa i.f :=
  inSsa_of hm hn ((C43_validation_only_rejects i a out).mp h).1

/-- The single-pass allocator is given a function as C28 requires. -/
structure FastOk (i : Input) : Prop where
  shape : FastShape i.f i.vreg
  env : Fast.EnvOk (fastCx i)

/-- The backtracking allocator is given a function as C41 requires, and its slots can be encoded. -/
structure IonOk (i : Input) (out : Output) : Prop where
  shape : IonShape i
  regs : Pipeline.RegsOk i
  fits : Pipeline.Fits i out

theorem ion_ok {i : Input} {v : Bool} {out : Output} (h : run i ⟨v, .ion⟩ = .ok out) : Pipeline.run i = .ok out := by
  unfold run ionRun at h
  dsimp only at h
  split at h
  · cases h
  · cases h
  · split at h
    · split at h
      · cases h
      · cases h
      · exact h
    · exact h

theorem fast_ok {i : Input} {v : Bool} {out : Output} (h : run i ⟨v, .fastalloc⟩ = .ok out) : Fast.run (fastCx i) = .ok out := by
  have key : ∀ {out}, fastRun i = .ok out → Fast.run (fastCx i) = .ok out := by
    intro out h
    unfold fastRun at h
    split at h
    · rename_i o ho; cases h; exact ho
    · cases h
    · cases h
  unfold run at h
  dsimp only at h
  split at h
  · split at h
    · cases h
    · exact key h
  · exact key h

/-- C43. If `run` returns an allocation with validation on, the allocated program shows each
instruction what the original shows it, on every path, whichever algorithm is chosen. That the
function is in SSA form need not be assumed. Partial for the reasons given at C28 and C41. -/
theorem C43_same_behaviour_partial (i : Input) (a : Algorithm) (out : Output) (h : run i ⟨true, a⟩ = .ok out)
    (hok : match a with | .ion => IonOk i out | .fastalloc => FastOk i) (ks : List Nat) : Exec.SameOn i.f out ks := by
  obtain ⟨hv, h'⟩ := (C43_validation_only_rejects i a out).mp h
  cases a with
  | ion =>
    exact fun _ sem junk V A => Pipeline.C41_same_behaviour_partial (programOk_of_valid hv hok.shape) hok.regs (ion_ok h') hok.fits sem junk ks A V
  | fastalloc =>
    exact Fast.C28_fastalloc_preserves_partial (fastCx i) i.vreg hok.env (funcOk_of_valid hv hok.shape) out (fast_ok h') ks

/-- C43. The two algorithms return programs that behave alike. -/
theorem C43_algorithms_agree_partial (i : Input) (out out' : Output) (h : run i ⟨true, .ion⟩ = .ok out) (h' : run i ⟨true, .fastalloc⟩ = .ok out')
    (hi : IonOk i out) (hf : FastOk i) {Val : Type} (sem : Exec.Sem Val) (junk junk' : Nat → Allocation → Val) (A A' : Allocation → Val)
    (ks : List Nat) :
    Exec.allocRun i.f out sem junk ks i.f.entry A [] = Exec.allocRun i.f out' sem junk' ks i.f.entry A' [] :=
  (C43_same_behaviour_partial i .ion out h hi ks Val sem junk (fun _ => A Allocation.none) A).trans
    (C43_same_behaviour_partial i .fastalloc out' h' hf ks Val sem junk' (fun _ => A Allocation.none) A').symm

/-! ### A concrete case -/

section Example

open Apply (Data FuncB FuncB')
open Pipeline (demo programOk_of regsOk_of)

private def P (n : Nat) : PReg := .new n .Int
private def V (n : Nat) : VReg := .new n .Int
private def use (n : Nat) (c : OperandConstraint := .Reg) : Op := ⟨V n, c, .Use, .Early⟩
private def define (n : Nat) (c : OperandConstraint := .Reg) : Op := ⟨V n, c, .Def, .Late⟩

/-- A loop. Its body asks for register 1 in a fixed machine register, which it clobbers, although
register 1 is needed in the next round; its output reuses an input. -/
def bothData : Data where
  blocks := [
    { insns := (0, 2), succs := [1], args := [[V 0]] },
    { insns := (2, 4), succs := [2, 3], preds := [0, 2], params := [V 2], args := [[], []] },
    { insns := (4, 5), succs := [1], preds := [1], args := [[V 3]] },
    { insns := (5, 6), preds := [1] }]
  insts := [
    { ops := [define 0, define 1] },
    { branch := true },
    { ops := [use 1 (.FixedReg (P 0)), use 2, define 3 (.Reuse 1)], clobbers := [P 0] },
    { branch := true },
    { branch := true },
    { ops := [use 3, use 1 .Any], ret := true }]
  vregs := [(V 0, []), (V 1, []), (V 2, []), (V 3, [])]

theorem bothFuncB : FuncB bothData := by constructor <;> decide +kernel
theorem bothFuncB' : FuncB' bothData := by constructor <;> decide +kernel

def both : Input := demo bothData 2

theorem bothProgram : Pipeline.ProgramOk both :=
  programOk_of (d := bothData) (place := fun v => if v = 1 then .reg (P 0) else .reg (P 1)) rfl rfl bothFuncB bothFuncB'
    (by constructor <;> decide +kernel)

theorem bothRegs : Pipeline.RegsOk both := regsOk_of (d := bothData) rfl bothFuncB (by constructor <;> decide +kernel)

/-- What `ProgramOk` says beyond SSA form. -/
theorem ionShape_of {i : Input} (h : Pipeline.ProgramOk i) (beyond : ∀ b, i.f.numBlocks ≤ b → i.f.succs b = [] ∧ i.f.params b = [])
    (outside : ∀ j, (∀ b, b < i.f.numBlocks → j ∉ i.f.blockInsts b) → i.f.operands j = [])
    (ret : ∀ b, b < i.f.numBlocks → i.f.isRet (i.f.lastInst b) = true → i.f.succs b = []) : IonShape i where
  beyond := beyond
  outside := outside
  nonempty := h.func.ready.nonempty
  ordered := h.func.ready.ordered
  edges := h.func.edges
  small := h.func.small
  insts := h.func.insts
  tiled := h.tiled
  succs_nodup := h.func.succs_nodup
  ret := ret
  reach := h.reach
  join_clobbers := h.func.join_clobbers
  vregs := h.vregs
  classes := h.classes
  index := h.func.index
  named := h.func.named
  named_params := fun b p hp => (h.func.named_params b p hp).1
  named_args := h.func.named_args
  args := h.args
  args_class := h.func.args_class
  reuse := h.func.reuse
  reuse_one := h.func.reuse_one
  layout := h.layout
  late := h.late
  limits := h.limits

theorem bothIonShape : IonShape both := by
  refine ionShape_of bothProgram ?_ ?_ (by decide +kernel)
  · intro b hb
    have : bothData.blocks.length ≤ b := hb
    have e : bothData.block b = ⟨(0, 0), [], [], [], [], []⟩ := by unfold Data.block; rw [List.getD_eq_getElem?_getD, List.getElem?_eq_none this]; rfl
    exact ⟨congrArg (·.succs) e, congrArg (·.params) e⟩
  · intro j hj
    by_cases hlt : j < bothData.insts.length
    · obtain ⟨b, hb, hm⟩ := bothProgram.tiled j hlt
      exact absurd hm (hj b hb)
    · have e : bothData.inst j = ⟨[], [], false, false, []⟩ := by unfold Data.inst; rw [List.getD_eq_getElem?_getD, List.getElem?_eq_none (by omega)]; rfl
      exact congrArg (·.ops) e

theorem bothEnv : Fast.EnvOk (fastCx both) where
  class_ok := fun c p hp => (bothRegs.alloc_ok c p hp).1
  real := fun c p hp => (bothRegs.alloc_ok c p hp).2
  scratch := fun _ _ h => by cases h
  invalid := bothRegs.invalid
  size_pos := fun _ => Nat.zero_lt_one
  size_le := fun _ => (by decide : 1 ≤ 2 ^ 20)

/-- Registers that are written by the end of a block. -/
def written (b : Nat) : List VReg := if b = 0 then [V 0, V 1] else [V 0, V 1, V 2, V 3]

theorem bothWritten {b : Nat} {l : List Nat} (h : Walk both.f.succs both.f.entry b l) : b < 4 ∧ ∀ w ∈ written b, RegEvent.write w ∈ pathEvents both.f l := by
  have key : ∀ b, b < 4 → ∀ s ∈ both.f.succs b, s < 4 ∧ ∀ w ∈ written s, w ∈ written b ∨ RegEvent.write w ∈ blockEvents both.f s := by decide +kernel
  induction h with
  | start => exact ⟨by decide, by decide +kernel⟩
  | step _ hs ih =>
    obtain ⟨h1, h2⟩ := key _ ih.1 _ hs
    refine ⟨h1, fun w hw => ?_⟩
    rw [Ssa.pathEvents_cons, List.mem_append]
    exact (h2 w hw).imp (ih.2 w) id

theorem bothFastShape : FastShape both.f both.vreg where
  first := by decide +kernel
  next := by
    have : ∀ b, b < 3 → (both.f.insns (b + 1)).1 = (both.f.insns b).2 := by decide +kernel
    intro b hb
    have h2 : both.f.numBlocks = 4 := rfl
    exact this b (by omega)
  nonempty := by decide +kernel
  count := by
    intro b hb
    have h2 : both.f.numBlocks = 4 := rfl
    have : b = 3 := by omega
    subst this; decide +kernel
  edges := bothProgram.func.edges
  ret := bothIonShape.ret
  succs_nodup := by decide +kernel
  branch_uses := by decide +kernel
  vregs := by decide +kernel
  operands := by
    have : ∀ j, j < both.f.numInsts → (both.f.operands j).all (Fast.opOkB both.f both.vreg j) = true ∧ (Fast.reusesOf both.f j).Nodup := by
      decide +kernel
    exact fun j hj => Fast.operandsOk_of (this j hj).1 (this j hj).2
  params := by decide +kernel
  args := by
    have : ∀ b, b < both.f.numBlocks → ∀ x ∈ (both.f.succs b).zipIdx,
      (∀ a ∈ both.f.args b (both.f.lastInst b) x.2, a = both.vreg a.vreg ∧ a.vreg < both.f.numVregs) ∧
      ∀ m ∈ (both.f.params x.1).zip (both.f.args b (both.f.lastInst b) x.2), m.1.class? = m.2.class? := by decide +kernel
    exact fun b hb k s hs => this b hb (s, k) (List.mem_zipIdx_iff_getElem?.mpr hs)
  args_defined := by
    have : ∀ b, b < 4 → ∀ x ∈ (both.f.succs b).zipIdx, ∀ a ∈ both.f.args b (both.f.lastInst b) x.2, a ∈ written b := by decide +kernel
    intro b l hw k s hs a ha
    obtain ⟨h1, h2⟩ := bothWritten hw
    exact ⟨a, h2 a (this b h1 (s, k) (List.mem_zipIdx_iff_getElem?.mpr hs) a ha), rfl⟩
  use_after_def := by
    have : ∀ i, i < both.f.numInsts → ∀ i', i' < both.f.numInsts → ∀ v ∈ opWrites (both.f.operands i), ∀ w ∈ opReads (both.f.operands i'),
      v.vreg = w.vreg → i < i' := by decide +kernel
    exact fun i i' hi hi' => this i hi i' hi'
  arg_after_def := by
    have : ∀ i, i < both.f.numInsts → ∀ b, b < both.f.numBlocks → ∀ x ∈ (both.f.succs b).zipIdx,
      ∀ v ∈ opWrites (both.f.operands i), ∀ w ∈ both.f.args b (both.f.lastInst b) x.2, v.vreg = w.vreg → i < both.f.lastInst b := by decide +kernel
    exact fun i b k s hi hb hs => this i hi b hb (s, k) (List.mem_zipIdx_iff_getElem?.mpr hs)
  use_after_param := by
    have : ∀ b, b < both.f.numBlocks → ∀ i, i < both.f.numInsts → ∀ v ∈ both.f.params b, ∀ w ∈ opReads (both.f.operands i),
      v.vreg = w.vreg → (both.f.insns b).1 ≤ i := by decide +kernel
    exact fun b i hb hi => this b hb i hi
  arg_after_param := by
    have : ∀ b, b < both.f.numBlocks → ∀ b', b' < both.f.numBlocks → ∀ x ∈ (both.f.succs b').zipIdx,
      ∀ v ∈ both.f.params b, ∀ w ∈ both.f.args b' (both.f.lastInst b') x.2, v.vreg = w.vreg → b ≤ b' := by decide +kernel
    exact fun b b' k s hb hb' hs => this b hb b' hb' (s, k) (List.mem_zipIdx_iff_getElem?.mpr hs)

/-- Both algorithms allocate the example, with validation on, and differently; the two programs
behave alike. -/
theorem bothAgree : ∃ out out', run both ⟨true, .ion⟩ = .ok out ∧ run both ⟨true, .fastalloc⟩ = .ok out' ∧ out.edits.length < out'.edits.length ∧
    IonOk both out ∧ FastOk both ∧ ∀ {Val : Type} (sem : Exec.Sem Val) (junk junk' : Nat → Allocation → Val) (A A' : Allocation → Val) (ks : List Nat),
      Exec.allocRun both.f out sem junk ks both.f.entry A [] = Exec.allocRun both.f out' sem junk' ks both.f.entry A' [] := by
  have h1 : (match run both ⟨true, .ion⟩ with | .ok out => some (out.numSpillslots, out.edits.length) | .error _ => none) = some (1, 2) := by
    decide +kernel
  have h2 : (match run both ⟨true, .fastalloc⟩ with | .ok out => some (out.edits.length) | .error _ => none) = some 11 := by decide +kernel
  cases e1 : run both ⟨true, .ion⟩ with
  | error _ => rw [e1] at h1; cases h1
  | ok out =>
    cases e2 : run both ⟨true, .fastalloc⟩ with
    | error _ => rw [e2] at h2; cases h2
    | ok out' =>
      rw [e1] at h1
      rw [e2] at h2
      have h1 := Option.some.inj h1
      have h2 := Option.some.inj h2
      have hfit : Pipeline.Fits both out := by
        have : out.numSpillslots = 1 := congrArg Prod.fst h1
        unfold Pipeline.Fits
        rw [this]
        decide
      have hi : IonOk both out := ⟨bothIonShape, bothRegs, hfit⟩
      have hf : FastOk both := ⟨bothFastShape, bothEnv⟩
      refine ⟨out, out', rfl, rfl, ?_, hi, hf, fun sem junk junk' A A' ks => C43_algorithms_agree_partial both out out' e1 e2 hi hf sem junk junk' A A' ks⟩
      have : out.edits.length = 2 := congrArg Prod.snd h1
      omega

/-- A second definition of a register is rejected. -/
example : validate { both.f with operands := fun j => if j = 3 then [define 0] else both.f.operands j } ≠ .ok () := by
  intro h
  have := (validate_iff _).mp h
  obtain ⟨info, h1, h2⟩ := this
  have h3 := (C10_single_definition _ info h2).1
  revert h3
  decide +kernel

end Example

end Regalloc.Api
