import Verif.Model.FuzzFast
import Verif.Spec.FuzzIon

/-
Specification vocabulary for C54.
-/
namespace Regalloc.FuzzGen

/-- Bounds on the sizes of generated functions: those of the targets are well within. -/
structure FastModerate (o : Options) : Prop where
  /-- The operands of an instruction other than what calls define besides, and its clobbers, leave
  one of the 32 registers of a class. -/
  regs : o.numUses.2 + 3 + o.numClobbers.2 < 32
  /-- Spill slots can be numbered. -/
  slots : 4 * (o.numBlocks.2 * o.numVregs.2 + o.numBlocks.2 * (o.numVregs.2 * o.numCallsite.2) + 6 * (o.numBlocks.2 * (o.numVregs.2 + 1))) ≤ SpillSlot.MAX

end Regalloc.FuzzGen
