import Verif.Model.Pipeline
import Verif.Spec.ApplyMoves
import Verif.Spec.Requirement

/-
Specification vocabulary for C41: what is required of the input of the backtracking allocator,
and what its output must satisfy. The run of the original and of the allocated program is in
`Spec/Exec.lean`.
-/
namespace Regalloc.Pipeline

open Apply (OpAt DefAt entryPt exitPt)

/-- The function and its registers, without anything the allocator computes. -/
def Input.base (i : Input) : Apply.Env where
  f := i.f
  numVregs := i.f.numVregs
  vreg := i.vreg
  ranges := fun _ => []
  insnBlock := fun _ => 0
  liveIn := fun _ _ => false
  ins := []
  outs := []
  fixups := []
  allocs := fun _ _ => Allocation.none

/-- The register may be allocated for values of some class. -/
def Allocatable (env : MachineEnv) (p : PReg) : Prop :=
  ∃ c, (env.preferred c).contains p = true ∨ (env.nonPreferred c).contains p = true

/-- The function: it is accepted (`Apply.Accepted`), in SSA form, without unreachable blocks. -/
structure ProgramOk (i : Input) : Prop where
  func : Apply.FuncOk i.base
  reach : ∀ b, b < i.f.numBlocks → Reaches i.f.succs i.f.entry b
  tiled : ∀ j, j < i.f.numInsts → ∃ b, b < i.f.numBlocks ∧ j ∈ i.f.blockInsts b
  vregs : i.f.numVregs ≤ VReg.MAX
  args : ∀ b k, b < i.f.numBlocks → k < (i.f.succs b).length → ∀ a ∈ i.f.args b (i.f.lastInst b) k, a.vreg < i.f.numVregs
  classes : ∀ v, v < i.f.numVregs → (i.vreg v).class? ≠ none
  /-- A register is defined by one operand, or is a block parameter. -/
  one_def : ∀ j j' k k' o o', OpAt i.f j k o → OpAt i.f j' k' o' → o.kind = .Def → o'.kind = .Def →
    o.vreg.vreg = o'.vreg.vreg → j = j' ∧ k = k'
  param_def : ∀ b v, v ∈ (i.f.params b).map VReg.vreg → ∀ p, ¬ DefAt i.f v p
  /-- A register that is defined at the very first point of a block (by an early definition) is
  not live at the end of the block placed just before it. -/
  layout : ∀ a b v, a < i.f.numBlocks → b < i.f.numBlocks → (i.f.insns a).2 = (i.f.insns b).1 → DefAt i.f v (entryPt i.f b) →
    ¬ Build.LiveAt i.f (Liveness.MayReadAfter i.f a v ∨ Build.PassedOn i.f a v) a v (exitPt i.f a)
  /-- Operands of one instruction that name the same register and count until its end ask for
  locations that can be had together. -/
  late : ∀ j v, ∃ x : Place, ∀ k o, OpAt i.f j k o → o.vreg.vreg = v → Build.recordPoint i.f j o = ptAfter j →
    o.constraint.Admits i.env x
  /-- Likewise, they do not ask for a register beyond a limit. -/
  limits : ∀ j k k' o o' p n, OpAt i.f j k o → OpAt i.f j k' o' → o.vreg.vreg = o'.vreg.vreg → o.constraint = .FixedReg p →
    p ∉ i.env.fixedStackSlots → o'.constraint = .Limit n → p.hwEnc < n

/-- The machine, and the registers that the function names. -/
structure RegsOk (i : Input) : Prop where
  disjoint : ∀ c p, ¬ ((i.env.preferred c).contains p = true ∧ (i.env.nonPreferred c).contains p = true)
  alloc_ok : ∀ c p, (i.env.preferred c).contains p = true ∨ (i.env.nonPreferred c).contains p = true →
    p.class? = some c ∧ p ∉ i.env.fixedStackSlots
  scratch_ok : ∀ c p, i.env.scratch c = some p → p.class? = some c ∧ p ∉ i.env.fixedStackSlots ∧ ¬ Allocatable i.env p
  invalid : PReg.invalid ∉ i.env.fixedStackSlots
  size_ok : ∀ c, Spill.Pow2 (i.size c).toNat
  /-- Operands are fixed to registers of their class, which are no scratch registers. -/
  fixed_ok : ∀ j k o p, OpAt i.f j k o → o.constraint = .FixedReg p → p.class? = o.vreg.class? ∧ ∀ c, i.env.scratch c ≠ some p
  /-- Registers that operands name without a virtual register are not used otherwise. -/
  nonalloc : ∀ b, b < i.f.numBlocks → ∀ j ∈ i.f.blockInsts b, ∀ o ∈ i.f.operands j, ∀ p, o.asFixedNonallocatable = some p →
    ¬ Allocatable i.env p ∧ ∀ j' k' o', OpAt i.f j' k' o' → o'.constraint ≠ .FixedReg p

/-- Operand `o` of instruction `j` needs its place at point `x`: a use from the start of the
instruction, a definition until its end. -/
def CountsAt (f : Func) (j : Nat) (o : Op) (x : Nat) : Prop :=
  x / 2 = j ∧ (o.kind = .Use → x ≤ Build.recordPoint f j o) ∧ (o.kind = .Def → Build.recordPoint f j o ≤ x)

/-- The value of operand `o`, fixed to register `p`, is copied there just for the start of the
instruction, since `p` is overwritten but the value needed later. -/
def CopiedTo (f : Func) (j : Nat) (o : Op) (p : PReg) : Prop :=
  ∃ b, b < f.numBlocks ∧ j ∈ f.blockInsts b ∧ Build.Overwritten f j o p ∧
    Build.NeededAfter f (Liveness.MayReadAfter f b o.vreg.vreg ∨ Build.PassedOn f b o.vreg.vreg) b o.vreg.vreg j

/-- Operand `o` is fixed to register `p` and occupies it at point `x`. -/
def Occupies (f : Func) (j : Nat) (o : Op) (p : PReg) (x : Nat) : Prop :=
  o.constraint = .FixedReg p ∧ CountsAt f j o x ∧ (CopiedTo f j o p → x = ptBefore j)

/-- The operand asks for any register of its class, or one below a limit. -/
def AsksReg (o : Op) : Prop := o.constraint = .Reg ∨ (∃ k, o.constraint = .Reuse k) ∨ ∃ n, o.constraint = .Limit n

/-- Register `p` is one that operand `o`, which asks for a register, may be given. -/
def MayHave (i : Input) (o : Op) (p : PReg) : Prop :=
  (∃ c, o.vreg.class? = some c ∧ ((i.env.preferred c).contains p = true ∨ (i.env.nonPreferred c).contains p = true)) ∧
  ∀ n, o.constraint = .Limit n → p.hwEnc < n

/-- What the function must not ask for, lest the allocator panic. -/
structure Serviceable (i : Input) : Prop where
  clash : Build.NoClash i.f
  /-- An operand on the stack is not accompanied by another one that names the same virtual
  register and counts until the same point. -/
  stack : ∀ j k k' o o', OpAt i.f j k o → OpAt i.f j k' o' → o.constraint = .Stack → o'.vreg.vreg = o.vreg.vreg →
    Build.recordPoint i.f j o' = Build.recordPoint i.f j o → k' = k
  /-- There is a register for each operand by itself. -/
  supply : ∀ j k o, OpAt i.f j k o → AsksReg o → ∃ p, MayHave i o p
  /-- Limits are those that can be encoded (`Operand::new`). -/
  limit : ∀ j k o n, OpAt i.f j k o → o.constraint = .Limit n → n ≤ PReg.MAX + 1
  /-- No two operands occupy a register by name at the same point, nor is it clobbered there. -/
  apart : ∀ j k k' o o' p x, OpAt i.f j k o → OpAt i.f j k' o' → Occupies i.f j o p x → Occupies i.f j o' p x → k = k'
  clobber : ∀ j k o p, OpAt i.f j k o → Occupies i.f j o p (ptAfter j) → p ∉ i.f.clobbers j
  /-- There is room for a slot for every virtual register. -/
  space : ∀ c, 2 * (i.f.numVregs * (i.size c).toNat) +
    8 * ((i.size .Int).toNat + (i.size .Float).toNat + (i.size .Vector).toNat) + 2 ≤ 2 ^ 24

/-- The sum of the weights of the ranges of a bundle depends on those ranges only. -/
def LocalTotal (i : Input) : Prop := ∀ st st' b, (st'.bundles b).ranges = (st.bundles b).ranges →
  (∀ e ∈ (st.bundles b).ranges, st'.ranges e.index = st.ranges e.index) → i.total st' b = i.total st b

/-- At the very first point of the program, no operand asks for a register. -/
def QuietStart (f : Func) : Prop := ∀ k o, OpAt f 0 k o → CountsAt f 0 o 0 → ¬ AsksReg o

/-- An instruction asks for more registers than there are: for one of its operands, each register
that it may have is clobbered while the operand counts, or goes to another operand of the
instruction that counts at the same point and does not accept any place; and each goes to a
different one (`taken` gives its index). -/
def Overcommitted (i : Input) : Prop :=
  ∃ j k o, OpAt i.f j k o ∧ AsksReg o ∧ ∃ taken : PReg → Option Nat,
    (∀ p, MayHave i o p → match taken p with
      | none => p ∈ i.f.clobbers j ∧ CountsAt i.f j o (ptAfter j)
      | some k' => k' ≠ k ∧ ∃ o', OpAt i.f j k' o' ∧ o'.constraint ≠ .Any ∧ o'.constraint.Admits i.env (Place.ofPReg i.env p) ∧
          ∃ x, CountsAt i.f j o x ∧ CountsAt i.f j o' x) ∧
    ∀ p p', MayHave i o p → MayHave i o p' → taken p = taken p' → taken p ≠ none → p = p'

/-- The slots fit into the encoding, with room for those that moves may need in addition. -/
def Fits (i : Input) (out : Output) : Prop :=
  out.numSpillslots + 4 * ((i.size .Int).toNat + (i.size .Float).toNat + (i.size .Vector).toNat) + 2 ≤ 2 ^ 24

/-- The place an allocation stands for. -/
def placeOf (env : MachineEnv) (a : Allocation) : Option Place :=
  match a.asReg with
  | some p => some (Place.ofPReg env p)
  | none => a.asStack.map (fun s => .slot s.index)

/-- The `k`-th operand of instruction `j` in the output. -/
def Output.operand (out : Output) (j k : Nat) : Option Allocation :=
  (out.instAllocs j).bind (·[k]?)

end Regalloc.Pipeline
