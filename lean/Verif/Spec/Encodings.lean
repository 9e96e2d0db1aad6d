/-
Specification side of C04: which constraints an operand constructor accepts.
-/
import Verif.Model.Lib

namespace Regalloc

/-- The constraints `Operand::new` accepts for a virtual register of class `cls`
(the documented preconditions, lib.rs:709-731): a fixed register must have the
vreg's class, a reused operand index fits five bits, a limit is a power of two
no larger than the number of register encodings (64). -/
def OperandConstraint.Legal (cls : RegClass) : OperandConstraint → Prop
  | .Any => True
  | .Reg => True
  | .Stack => True
  | .FixedReg p => p.class? = some cls
  | .Reuse i => i < 32
  | .Limit n => ∃ k, k ≤ 6 ∧ n = 2 ^ k

end Regalloc
