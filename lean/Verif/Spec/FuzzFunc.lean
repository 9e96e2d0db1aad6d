import Verif.Model.FuzzFunc

/-
Specification vocabulary for C51: options that make sense, and operands that an
instruction may have.
-/
namespace Regalloc.FuzzGen

/-- The ranges in the options are not empty, there is a block, and the numbers of inputs can be
encoded. -/
structure OptionsOk (o : Options) : Prop where
  blocks : 0 < o.numBlocks.1 ∧ o.numBlocks.1 ≤ o.numBlocks.2
  vregs : o.numVregs.1 ≤ o.numVregs.2
  uses : o.numUses.1 ≤ o.numUses.2
  callsite : o.numCallsite.1 ≤ o.numCallsite.2
  clobbers : o.numClobbers.1 ≤ o.numClobbers.2
  reuse : o.reusedInputs = true → o.numUses.2 ≤ 31

/-- Operands and clobbers of an instruction do not contradict each other. -/
structure OperandsOk (ops : List Op) (cl : List PReg) : Prop where
  /-- Inputs are read at the start. -/
  early : ∀ o ∈ ops, o.kind = .Use → o.pos = .Early
  /-- Which constraints there are. -/
  kinds : ∀ o ∈ ops, o.constraint = .Any ∨ o.constraint = .Reg ∨ (∃ p, o.constraint = .FixedReg p) ∨ ∃ m, o.constraint = .Reuse m
  /-- An operand is fixed to a register of its class. -/
  fixed_class : ∀ o ∈ ops, ∀ p, o.constraint = .FixedReg p → p.class? = o.vreg.class?
  /-- If two operands are fixed to the same register, one is an input, read at the start, and the
  other an output, written at the end. -/
  fixed_apart : ∀ (k k' : Nat) (o o' : Op) (p : PReg), ops[k]? = some o → ops[k']? = some o' → k ≠ k' →
    o.constraint = .FixedReg p → o'.constraint = .FixedReg p →
    (o.kind = .Use ∧ o.pos = .Early ∧ o'.kind = .Def ∧ o'.pos = .Late) ∨
    (o'.kind = .Use ∧ o'.pos = .Early ∧ o.kind = .Def ∧ o.pos = .Late)
  /-- An output fixed to a register is not clobbered. -/
  clobber : ∀ o ∈ ops, ∀ p, o.kind = .Def → o.constraint = .FixedReg p → p ∉ cl
  /-- At most one operand reuses an input; it is a late output, the input asks for any register of
  the same class, and the number of the input can be encoded. -/
  reuse : ∀ (k m : Nat) (o : Op), ops[k]? = some o → o.constraint = .Reuse m → k = 0 ∧ o.kind = .Def ∧ o.pos = .Late ∧ m ≤ 31 ∧
    ∃ o', ops[m]? = some o' ∧ o'.kind = .Use ∧ o'.constraint = .Reg ∧ o'.vreg.class? = o.vreg.class?
  /-- Reuse and fixed registers are not combined. -/
  reuse_plain : (∃ o ∈ ops, ∃ m, o.constraint = .Reuse m) → ∀ o ∈ ops, ∀ p, o.constraint ≠ .FixedReg p

end Regalloc.FuzzGen
