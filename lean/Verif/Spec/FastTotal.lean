import Verif.Model.Fastalloc
import Verif.Spec.Fastalloc
import Verif.Spec.Ssa

/-
Specification vocabulary for C46: functions on which the single-pass allocator must not panic.
-/
namespace Regalloc
namespace Fast

/-- What is asked of the operands of an instruction. `C n` is the register numbered `n`. Any
constraint but `Limit` (which the code does not support) is allowed; an output may reuse an early
input that asks for a register. -/
structure WorkableOps (cx : Cx) (C : Nat → VReg) (i : Nat) : Prop where
  regs : ∀ o ∈ cx.f.operands i, o.asFixedNonallocatable = none → o.vreg = C o.vreg.vreg ∧ o.vreg.vreg < cx.f.numVregs
  limits : ∀ o ∈ cx.f.operands i, ∀ n, o.constraint ≠ .Limit n
  uses : ∀ o ∈ cx.f.operands i, o.kind = .Use → ∀ j, o.constraint ≠ .Reuse j
  defs : ∀ o ∈ cx.f.operands i, o.kind = .Def → o.asFixedNonallocatable = none
  reuse : ∀ o ∈ cx.f.operands i, ∀ j, o.constraint = .Reuse j → o.pos = .Late ∧
    ∃ oj, (cx.f.operands i)[j]? = some oj ∧ oj.kind = .Use ∧ oj.pos = .Early ∧ (oj.constraint = .Reg ∨ ∃ p, oj.constraint = .FixedReg p)

/-- What is asked of the function. Compared with `FuncOk` (C28), definitions may have any
constraint, nothing is asked about critical edges, undefined registers and register classes of
moves, and branches into joins may have operands. -/
structure Workable (cx : Cx) (C : Nat → VReg) : Prop where
  /-- Blocks are laid out in the order of their numbers. -/
  layout : ∀ b b', b < b' → b' < cx.f.numBlocks → (cx.f.insns b).2 ≤ (cx.f.insns b').1
  /-- Edges are known at both ends, and pass as many arguments as there are parameters. -/
  succs : ∀ b, b < cx.f.numBlocks → ∀ s ∈ cx.f.succs b, s < cx.f.numBlocks
  succs_nodup : ∀ b, b < cx.f.numBlocks → (cx.f.succs b).Nodup
  preds : ∀ b, b < cx.f.numBlocks → ∀ p ∈ cx.f.preds b, p < cx.f.numBlocks ∧ b ∈ cx.f.succs p
  lengths : ∀ b, b < cx.f.numBlocks → ∀ k s, (cx.f.succs b)[k]? = some s →
    (cx.f.args b (cx.f.lastInst b) k).length = (cx.f.params s).length
  /-- Branches end blocks and do not define registers. -/
  branch_last : ∀ b, b < cx.f.numBlocks → ∀ i ∈ cx.f.blockInsts b, cx.f.isBranch i = true → i = cx.f.lastInst b
  branch_uses : ∀ b, b < cx.f.numBlocks → cx.f.succs b ≠ [] ∨ cx.f.isBranch (cx.f.lastInst b) = true →
    ∀ o ∈ cx.f.operands (cx.f.lastInst b), o.kind = .Use
  /-- Registers. -/
  vregs : cx.f.numVregs ≤ VReg.MAX
  operands : ∀ b, b < cx.f.numBlocks → ∀ i ∈ cx.f.blockInsts b, WorkableOps cx C i
  params : ∀ b, b < cx.f.numBlocks → ∀ p ∈ cx.f.params b, p = C p.vreg ∧ p.vreg < cx.f.numVregs
  args : ∀ b, b < cx.f.numBlocks → ∀ k s, (cx.f.succs b)[k]? = some s →
    ∀ a ∈ cx.f.args b (cx.f.lastInst b) k, a = C a.vreg ∧ a.vreg < cx.f.numVregs
  /-- Every class that occurs has an allocatable register. -/
  classes : ∀ v, v < cx.f.numVregs → ∃ p, AllocatableIn cx.env (vcls (C v)) p
  /-- Each register is defined once, and laid out before the instructions that read it. -/
  single : ((allWrites cx.f).map VReg.vreg).Nodup
  use_after_def : ∀ b b' i i', b < cx.f.numBlocks → b' < cx.f.numBlocks → i ∈ cx.f.blockInsts b → i' ∈ cx.f.blockInsts b' →
    ∀ v ∈ opWrites (cx.f.operands i), ∀ w ∈ opReads (cx.f.operands i'), v.vreg = w.vreg → i < i'
  use_after_param : ∀ b b' i, b < cx.f.numBlocks → b' < cx.f.numBlocks → i ∈ cx.f.blockInsts b' →
    ∀ v ∈ cx.f.params b, ∀ w ∈ opReads (cx.f.operands i), v.vreg = w.vreg → b ≤ b'

/-- The largest spill slot size. -/
def maxSize (cx : Cx) : Nat := max (cx.size .Int) (max (cx.size .Float) (cx.size .Vector))

/-- The number of branches. -/
def branchCount (f : Func) : Nat := (((List.range f.numBlocks).flatMap f.blockInsts).filter (fun i => f.isBranch i)).length

/-- Slot numbers stay in their encoding: a slot for each register, and six temporary ones for each
branch, may each take twice the largest size (because of alignment). -/
def SlotsFit (cx : Cx) : Prop := 2 * maxSize cx * (cx.f.numVregs + 6 * branchCount cx.f) ≤ SpillSlot.MAX

/-! ### Enough registers (C47) -/

/-- Allocation is possible at instruction `i`: there are locations for its operands that meet their
constraints, are different for operands that need them at the same moment, and survive the clobbers
when they are needed after the instruction. (Everything else can be kept in spill slots.) -/
def Placeable (env : MachineEnv) (f : Func) (i : Nat) : Prop := ∃ as : List Allocation, as.length = (f.operands i).length ∧
  (∀ (k : Nat) (o : Op) (a : Allocation), (f.operands i)[k]? = some o → as[k]? = some a → Satisfies env as o a) ∧
  (∀ (k k' : Nat) (o o' : Op), (f.operands i)[k]? = some o → (f.operands i)[k']? = some o' → k ≠ k' → Conflict o o' → as[k]? ≠ as[k']?) ∧
  ∀ (k : Nat) (o : Op) (p : PReg), (f.operands i)[k]? = some o → HeldAfter o → as[k]? = some (Allocation.reg p) → p ∉ f.clobbers i

/-- Instruction `i` names register `p`: it clobbers it, or an operand is fixed to it. -/
def Names (f : Func) (i : Nat) (p : PReg) : Prop := p ∈ f.clobbers i ∨ ∃ o ∈ f.operands i, o.constraint = .FixedReg p

/-- The operand is neither on the stack nor in a register it names. -/
def Flexible (o : Op) : Prop := o.constraint ≠ .Stack ∧ ∀ p, o.constraint ≠ .FixedReg p

instance (o : Op) : Decidable (Flexible o) :=
  match h : o.constraint with
  | .Any => .isTrue ⟨by rw [h]; simp, by rw [h]; simp⟩
  | .Reg => .isTrue ⟨by rw [h]; simp, by rw [h]; simp⟩
  | .Stack => .isFalse (fun x => x.1 h)
  | .FixedReg p => .isFalse (fun x => x.2 p h)
  | .Reuse _ => .isTrue ⟨by rw [h]; simp, by rw [h]; simp⟩
  | .Limit _ => .isTrue ⟨by rw [h]; simp, by rw [h]; simp⟩

/-- The register numbered `w` is never read: it is not passed to a block, and all operands that
mention it are definitions that may be anywhere. -/
structure Unread (f : Func) (w : Nat) : Prop where
  operands : ∀ b, b < f.numBlocks → ∀ i ∈ f.blockInsts b, ∀ o ∈ f.operands i, o.asFixedNonallocatable = none → o.vreg.vreg = w →
    o.kind = .Def ∧ o.constraint = .Any
  args : ∀ b, b < f.numBlocks → ∀ k s, (f.succs b)[k]? = some s → ∀ a ∈ f.args b (f.lastInst b) k, a.vreg ≠ w

/-- How many operands of the instruction are flexible, leaving out the registers in `U`. -/
def flexCount (f : Func) (U : Nat → Bool) (i : Nat) : Nat := (f.operands i).countP (fun o => decide (Flexible o) && !U o.vreg.vreg)

/-- One register if there is no dedicated scratch register. -/
def scratchNeed (env : MachineEnv) (c : RegClass) : Nat := if env.scratch c = none then 1 else 0

/-- The instruction leaves enough registers alone; the registers in `U` are never read. -/
structure RoomyInst (cx : Cx) (C : Nat → VReg) (U : Nat → Bool) (i : Nat) : Prop where
  /-- An input that is reused asks for any register. -/
  reuse : ∀ o ∈ cx.f.operands i, ∀ j, o.constraint = .Reuse j → ∃ oj, (cx.f.operands i)[j]? = some oj ∧ oj.constraint = .Reg
  /-- Operands are fixed to registers that may be allocated, or to fixed stack slots. -/
  fixed : ∀ o ∈ cx.f.operands i, ∀ p, o.constraint = .FixedReg p → o.asFixedNonallocatable = none →
    (∃ c, AllocatableIn cx.env c p) ∨ p ∈ cx.env.fixedStackSlots
  /-- Two operands fixed to one register do not need it at the same moment. -/
  apart : ∀ (k k' : Nat) (o o' : Op) (p : PReg), (cx.f.operands i)[k]? = some o → (cx.f.operands i)[k']? = some o' → k ≠ k' →
    o.constraint = .FixedReg p → o'.constraint = .FixedReg p → ¬ (HeldBefore o ∧ HeldBefore o') ∧ ¬ (HeldAfter o ∧ HeldAfter o')
  /-- In each class that occurs, there are as many registers that the instruction does not name as
  it has flexible operands (of any class, not counting registers that are never read), and one more if a scratch register may be needed. -/
  room : ∀ v, v < cx.f.numVregs → ∃ l : List PReg, l.Nodup ∧ (∀ p ∈ l, AllocatableIn cx.env (vcls (C v)) p ∧ ¬ Names cx.f i p) ∧
    flexCount cx.f U i + scratchNeed cx.env (vcls (C v)) ≤ l.length

/-- Every instruction leaves enough registers alone. -/
def Roomy (cx : Cx) (C : Nat → VReg) : Prop := ∃ U : Nat → Bool, (∀ w, U w = true → Unread cx.f w) ∧
  ∀ b, b < cx.f.numBlocks → ∀ i ∈ cx.f.blockInsts b, RoomyInst cx C U i

end Fast
end Regalloc
