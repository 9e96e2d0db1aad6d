import Verif.Model.Fastalloc
import Verif.Spec.Exec

/-
Specification vocabulary for the single-pass allocator (C28, C29): what is asked
of the machine environment and of the function.
-/
namespace Regalloc
namespace Fast
open Exec

/-- `p` is allocatable for class `c`. -/
def AllocatableIn (env : MachineEnv) (c : RegClass) (p : PReg) : Prop :=
  (env.preferred c).contains p = true ∨ (env.nonPreferred c).contains p = true

/-- The machine environment makes sense: registers are listed under their class,
an allocatable register is not a fixed stack slot, a dedicated scratch register is
neither, and spill slots have a positive, moderate size. -/
structure EnvOk (cx : Cx) : Prop where
  class_ok : ∀ c p, AllocatableIn cx.env c p → p.class? = some c
  real : ∀ c p, AllocatableIn cx.env c p → p ∉ cx.env.fixedStackSlots
  scratch : ∀ c r, cx.env.scratch c = some r → r ∉ cx.env.fixedStackSlots ∧ ∀ c', ¬ AllocatableIn cx.env c' r
  invalid : PReg.invalid ∉ cx.env.fixedStackSlots
  size_pos : ∀ c, 0 < cx.size c
  size_le : ∀ c, cx.size c ≤ 2 ^ 20

/-- What is asked of the operands of instruction `i`. `C n` is the register
numbered `n`, so that one number is not used with two classes. Definitions are
plain registers, fixed registers that the instruction does not clobber, or reuse an
early plain register input of the same class; each input is reused at most once.
(Definitions constrained to the stack, and reuse of fixed inputs, are the cases of
`C28_stack_def_violation` and `C28_reuse_fixed_violation`.) -/
structure OperandsOk (f : Func) (C : Nat → VReg) (i : Nat) : Prop where
  regs : ∀ o ∈ f.operands i, o.asFixedNonallocatable = none → o.vreg = C o.vreg.vreg ∧ o.vreg.vreg < f.numVregs
  defs : ∀ o ∈ f.operands i, o.kind = .Def → o.asFixedNonallocatable = none ∧
    (o.constraint = .Reg ∨ (∃ p, o.constraint = .FixedReg p ∧ p ∉ f.clobbers i) ∨
      ∃ (j : Nat) (oj : Op), o.constraint = .Reuse j ∧ (f.operands i)[j]? = some oj ∧ oj.kind = .Use ∧ oj.pos = .Early ∧
        oj.constraint = .Reg ∧ oj.vreg.class? = o.vreg.class? ∧ o.pos = .Late)
  reuse_once : ∀ (k k' : Nat) o o' j, (f.operands i)[k]? = some o → (f.operands i)[k']? = some o' →
    o.constraint = .Reuse j → o'.constraint = .Reuse j → k = k'
  uses : ∀ o ∈ f.operands i, o.kind = .Use → ∀ j, o.constraint ≠ .Reuse j
  class_ok : ∀ o ∈ f.operands i, o.asFixedNonallocatable = none → ∃ c, o.vreg.class? = some c
  fixed_class : ∀ o ∈ f.operands i, ∀ p, o.asFixedNonallocatable = none → o.constraint = .FixedReg p →
    p.class? = o.vreg.class?

/-- What is asked of the function. -/
structure FuncOk (f : Func) (C : Nat → VReg) : Prop where
  /-- Blocks are numbered in the order of their instructions, and none is empty. -/
  first : (f.insns 0).1 = 0
  next : ∀ b, b + 1 < f.numBlocks → (f.insns (b + 1)).1 = (f.insns b).2
  nonempty : ∀ b, b < f.numBlocks → (f.insns b).1 < (f.insns b).2
  count : ∀ b, b + 1 = f.numBlocks → (f.insns b).2 = f.numInsts
  /-- The control-flow graph. -/
  entry : f.entry < f.numBlocks
  succs : ∀ b, b < f.numBlocks → ∀ s ∈ f.succs b, s < f.numBlocks
  preds : ∀ b s, s < f.numBlocks → (b ∈ f.preds s ↔ b < f.numBlocks ∧ s ∈ f.succs b)
  succs_nodup : ∀ b, b < f.numBlocks → (f.succs b).Nodup
  entry_params : f.params f.entry = []
  no_critical : ∀ b b' s, b < f.numBlocks → b' < f.numBlocks → s ∈ f.succs b → s ∈ f.succs b' →
    1 < (f.succs b).length → b' = b
  /-- Branches end blocks; blocks with successors end in branches; a branch into a
  block with other predecessors has no operands; no branch defines registers. -/
  branch_last : ∀ b, b < f.numBlocks → ∀ i ∈ f.blockInsts b, f.isBranch i = true → i = f.lastInst b
  succs_branch : ∀ b, b < f.numBlocks → f.succs b ≠ [] → f.isBranch (f.lastInst b) = true
  branch_join : ∀ b b' s, b < f.numBlocks → b' < f.numBlocks → s ∈ f.succs b → s ∈ f.succs b' → b' ≠ b →
    f.operands (f.lastInst b) = []
  branch_uses : ∀ b, b < f.numBlocks → f.isBranch (f.lastInst b) = true →
    ∀ o ∈ f.operands (f.lastInst b), o.kind = .Use
  /-- Registers. -/
  vregs : f.numVregs ≤ VReg.MAX
  operands : ∀ i, i < f.numInsts → OperandsOk f C i
  params : ∀ b, b < f.numBlocks → ∀ p ∈ f.params b, p = C p.vreg
  args : ∀ b, b < f.numBlocks → ∀ k s, (f.succs b)[k]? = some s →
    (f.args b (f.lastInst b) k).length = (f.params s).length ∧
    (∀ a ∈ f.args b (f.lastInst b) k, a = C a.vreg ∧ a.vreg < f.numVregs) ∧
    ∀ m ∈ (f.params s).zip (f.args b (f.lastInst b) k), m.1.class? = m.2.class?
  /-- Static single assignment. -/
  single : ((allWrites f).map VReg.vreg).Nodup
  defined : ∀ ks, Exec.NoUndefinedReads f ks f.entry (fun _ => False)
  /-- Blocks are laid out so that a definition comes before its uses (the source does
  not require it; `C28_layout_violation` shows it is needed). -/
  use_after_def : ∀ i i', i < f.numInsts → i' < f.numInsts → ∀ v ∈ opWrites (f.operands i), ∀ w ∈ opReads (f.operands i'),
    v.vreg = w.vreg → i < i'
  arg_after_def : ∀ i b k s, i < f.numInsts → b < f.numBlocks → (f.succs b)[k]? = some s →
    ∀ v ∈ opWrites (f.operands i), ∀ w ∈ f.args b (f.lastInst b) k, v.vreg = w.vreg → i < f.lastInst b
  use_after_param : ∀ b i, b < f.numBlocks → i < f.numInsts → ∀ v ∈ f.params b, ∀ w ∈ opReads (f.operands i),
    v.vreg = w.vreg → (f.insns b).1 ≤ i
  arg_after_param : ∀ b b' k s, b < f.numBlocks → b' < f.numBlocks → (f.succs b')[k]? = some s →
    ∀ v ∈ f.params b, ∀ w ∈ f.args b' (f.lastInst b') k, v.vreg = w.vreg → b ≤ b'

/-! ### Meeting operand constraints -/

/-- Location `a` meets the constraint of operand `o`, in an environment `env`, when
the operands of the instruction are at `as` (`/repo/src/lib.rs:567-585`). -/
def Satisfies (env : MachineEnv) (as : List Allocation) (o : Op) (a : Allocation) : Prop :=
  match o.constraint with
  | .Any => True
  | .Reg => ∃ p c, a = Allocation.reg p ∧ o.vreg.class? = some c ∧ AllocatableIn env c p
  | .Stack => (∃ n, a = Allocation.stack (SpillSlot.new n)) ∨ ∃ p ∈ env.fixedStackSlots, a = Allocation.reg p
  | .FixedReg p => a = Allocation.reg p
  | .Reuse j => as[j]? = some a ∧ ∃ p c, a = Allocation.reg p ∧ o.vreg.class? = some c ∧ AllocatableIn env c p
  | .Limit n => ∃ p c, a = Allocation.reg p ∧ o.vreg.class? = some c ∧ AllocatableIn env c p ∧ p.hwEnc < n

/-- The location of the operand must hold its value just before / just after the
instruction (`/repo/src/lib.rs:607-627`): an early definition and a late use are
alive throughout. -/
def HeldBefore (o : Op) : Prop := o.kind = .Use ∨ o.pos = .Early
def HeldAfter (o : Op) : Prop := o.kind = .Def ∨ o.pos = .Late

/-- Two operands that cannot share a location: both need it at one moment, and they
are not two reads of one register. -/
def Conflict (o o' : Op) : Prop :=
  ((HeldBefore o ∧ HeldBefore o') ∨ (HeldAfter o ∧ HeldAfter o')) ∧
    ¬ (o.kind = .Use ∧ o'.kind = .Use ∧ o.vreg = o'.vreg)

end Fast
end Regalloc
