import Verif.Model.FuzzIon
import Verif.Spec.Pipeline
import Verif.Spec.Ssa

/-
Specification vocabulary for C52: the allocator is given a generated function and the machine of
the fuzz targets.
-/
namespace Regalloc.FuzzGen

/-- The allocator's input is function `x` on the machine of the fuzz targets. How hash maps and
unstable sorts order things, and how weights of ranges add up, is left open. -/
structure InputOf (x : Fn) (i : Pipeline.Input) : Prop where
  func : i.f = x.func
  env : i.env = machineEnv
  size : i.size = slotSize
  /-- Registers are known by the class they are defined with. -/
  vreg : ∀ w ∈ allWrites x.func, i.vreg w.vreg = w
  total : Pipeline.LocalTotal i

/-- Bounds on the sizes of generated functions: those of the targets are well within. -/
structure Moderate (o : Options) : Prop where
  /-- The operands of an instruction that ask for a register, and its clobbers, leave one of the 32
  registers of a class. -/
  regs : o.numUses.2 + 2 + o.numClobbers.2 < 32
  /-- Registers and instructions can be numbered. -/
  vregs : o.numBlocks.2 * o.numVregs.2 + o.numBlocks.2 * (o.numVregs.2 * o.numCallsite.2) ≤ 2000000
  insts : o.numBlocks.2 * (o.numVregs.2 + 1) ≤ 2 ^ 30
  ops : o.numUses.2 + 2 + o.numCallsite.2 ≤ 2 ^ 16

end Regalloc.FuzzGen
