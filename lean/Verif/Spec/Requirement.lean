import Verif.Model.Requirement

/-
Specification for C17: which locations an operand constraint, or a requirement,
admits. Fixed stack slots are `PReg`s that stand for memory (`/repo/src/lib.rs:1561-1571`).
-/
namespace Regalloc

/-- A location is a machine register, a fixed stack slot named by a `PReg`, or a
spill slot. -/
inductive Place
  | reg (p : PReg)
  | fixedStack (p : PReg)
  | slot (n : Nat)
  deriving DecidableEq, Repr

/-- The place named by the `PReg` `p`. -/
def Place.ofPReg (env : MachineEnv) (p : PReg) : Place :=
  if p ∈ env.fixedStackSlots then .fixedStack p else .reg p

/-- Places admitted by an operand constraint (`/repo/src/lib.rs:567-585`). `Reuse`
is resolved separately by tying the operand to its input; by itself it asks for a
register. -/
def OperandConstraint.Admits (env : MachineEnv) : OperandConstraint → Place → Prop
  | .Any, _ => True
  | .Reg, x => ∃ p, x = .reg p
  | .Stack, x => ∀ p, x ≠ .reg p
  | .FixedReg p, x => x = Place.ofPReg env p
  | .Reuse _, x => ∃ p, x = .reg p
  | .Limit n, x => ∃ p, x = .reg p ∧ p.hwEnc < n

/-- Places admitted by a requirement. -/
def Requirement.Admits : Requirement → Place → Prop
  | .Any, _ => True
  | .Register, x => ∃ p, x = .reg p
  | .FixedReg p, x => x = .reg p
  | .Limit n, x => ∃ p, x = .reg p ∧ p.hwEnc < n
  | .Stack, x => ∀ p, x ≠ .reg p
  | .FixedStack p, x => x = .fixedStack p

end Regalloc
