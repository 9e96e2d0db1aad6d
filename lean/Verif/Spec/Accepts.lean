import Verif.Spec.Pipeline
import Verif.Model.Checker

/-
Specification vocabulary for C44: for which functions the checker accepts what the backtracking
allocator returns.
-/
namespace Regalloc.Pipeline

open Apply (OpAt)

/-- Only the last instruction of a block is a branch. -/
def BranchLast (f : Func) : Prop := ∀ b, b < f.numBlocks → ∀ j ∈ f.blockInsts b, f.isBranch j = true → j = f.lastInst b

/-- Every block but the entry has a predecessor with a smaller number. -/
def InOrder (f : Func) : Prop := ∀ b, b < f.numBlocks → b ≠ f.entry → ∃ a, a < b ∧ b ∈ f.succs a

/-- Inputs that an output reuses may be anywhere, or in any register. -/
def PlainReuse (f : Func) : Prop := ∀ j k k' o o', OpAt f j k' o' → o'.constraint = .Reuse k → OpAt f j k o →
  o.constraint = .Any ∨ o.constraint = .Reg

end Regalloc.Pipeline
