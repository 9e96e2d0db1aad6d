import Verif.Model.Run
import Verif.Spec.Pipeline
import Verif.Spec.Fastalloc
import Verif.Spec.Ssa
import Verif.Spec.Cfg

/-
Specification vocabulary for C43: what is left to require of a function once it has been validated.
-/
namespace Regalloc.Api

open Pipeline (Input)
open Apply (OpAt DefAt entryPt exitPt)

/-- The function is in SSA form, and its control-flow graph has no critical edges. -/
structure InSsa (f : Func) : Prop where
  /-- Every register is defined once. -/
  single : ((allWrites f).map VReg.vreg).Nodup
  range : ∀ w ∈ allWrites f, w.vreg < f.numVregs
  /-- On every path, each read comes after a write. -/
  reads : ∀ b l, Walk f.succs f.entry b l → ReadsDefined (pathEvents f l)
  terminators : TerminatorsOk f
  entry : f.params f.entry = []
  critical : ∀ a, a < f.numBlocks → (∀ b, ¬ CriticalEdge f a b) ∧ ¬ BadBranchArg f a

/-- What the backtracking allocator requires of a function besides its being validated: `ProgramOk`
without what `InSsa` says. -/
structure IonShape (i : Input) : Prop where
  /-- There is nothing beyond the last block, nor outside of blocks. -/
  beyond : ∀ b, i.f.numBlocks ≤ b → i.f.succs b = [] ∧ i.f.params b = []
  outside : ∀ j, (∀ b, b < i.f.numBlocks → j ∉ i.f.blockInsts b) → i.f.operands j = []
  nonempty : ∀ b, b < i.f.numBlocks → (i.f.insns b).1 < (i.f.insns b).2
  ordered : ∀ b c, b < c → c < i.f.numBlocks → (i.f.insns b).2 ≤ (i.f.insns c).1
  edges : EdgesMatch i.f
  small : ∀ b, b < i.f.numBlocks → (i.f.insns b).2 ≤ 2 ^ 30
  insts : ∀ b, b < i.f.numBlocks → (i.f.insns b).2 ≤ i.f.numInsts
  tiled : ∀ j, j < i.f.numInsts → ∃ b, b < i.f.numBlocks ∧ j ∈ i.f.blockInsts b
  succs_nodup : ∀ b, (i.f.succs b).Nodup
  /-- Returns have no successors. -/
  ret : ∀ b, b < i.f.numBlocks → i.f.isRet (i.f.lastInst b) = true → i.f.succs b = []
  reach : ∀ b, b < i.f.numBlocks → Reaches i.f.succs i.f.entry b
  join_clobbers : ∀ b c, c ∈ i.f.succs b → 1 < Cfg.inEdges i.f c → i.f.clobbers (i.f.lastInst b) = []
  /-- Names and classes of registers. -/
  vregs : i.f.numVregs ≤ VReg.MAX
  classes : ∀ v, v < i.f.numVregs → (i.vreg v).class? ≠ none
  index : ∀ v, v < i.f.numVregs → (i.vreg v).vreg = v
  named : ∀ j, ∀ o ∈ i.f.operands j, o.asFixedNonallocatable = none → o.vreg = i.vreg o.vreg.vreg ∧ o.vreg.vreg < i.f.numVregs
  named_params : ∀ b, ∀ p ∈ i.f.params b, p = i.vreg p.vreg
  named_args : ∀ b k, ∀ a ∈ i.f.args b (i.f.lastInst b) k, a = i.vreg a.vreg
  args : ∀ b k, b < i.f.numBlocks → k < (i.f.succs b).length → ∀ a ∈ i.f.args b (i.f.lastInst b) k, a.vreg < i.f.numVregs
  args_class : ∀ b k c, (i.f.succs b)[k]? = some c →
    ∀ m ∈ (i.f.params c).zip (i.f.args b (i.f.lastInst b) k), m.1.class? = m.2.class?
  /-- Operands. -/
  reuse : ∀ j k m o, OpAt i.f j k o → o.constraint = .Reuse m → o.kind = .Def ∧ o.pos = .Late ∧
    ∃ o', OpAt i.f j m o' ∧ o'.kind = .Use ∧ o'.pos = .Early ∧ o'.vreg.class? = o.vreg.class?
  reuse_one : ∀ j k k' m m' o o', OpAt i.f j k o → OpAt i.f j k' o' → o.constraint = .Reuse m → o'.constraint = .Reuse m' → k = k'
  layout : ∀ a b v, a < i.f.numBlocks → b < i.f.numBlocks → (i.f.insns a).2 = (i.f.insns b).1 → DefAt i.f v (entryPt i.f b) →
    ¬ Build.LiveAt i.f (Liveness.MayReadAfter i.f a v ∨ Build.PassedOn i.f a v) a v (exitPt i.f a)
  late : ∀ j v, ∃ x : Place, ∀ k o, OpAt i.f j k o → o.vreg.vreg = v → Build.recordPoint i.f j o = ptAfter j →
    o.constraint.Admits i.env x
  limits : ∀ j k k' o o' p n, OpAt i.f j k o → OpAt i.f j k' o' → o.vreg.vreg = o'.vreg.vreg → o.constraint = .FixedReg p →
    p ∉ i.env.fixedStackSlots → o'.constraint = .Limit n → p.hwEnc < n

/-- What the single-pass allocator requires of a function besides its being validated: `FuncOk`
without what `InSsa` says. Validation does not look at the arguments of branches. -/
structure FastShape (f : Func) (C : Nat → VReg) : Prop where
  first : (f.insns 0).1 = 0
  next : ∀ b, b + 1 < f.numBlocks → (f.insns (b + 1)).1 = (f.insns b).2
  nonempty : ∀ b, b < f.numBlocks → (f.insns b).1 < (f.insns b).2
  count : ∀ b, b + 1 = f.numBlocks → (f.insns b).2 = f.numInsts
  edges : EdgesMatch f
  ret : ∀ b, b < f.numBlocks → f.isRet (f.lastInst b) = true → f.succs b = []
  succs_nodup : ∀ b, b < f.numBlocks → (f.succs b).Nodup
  branch_uses : ∀ b, b < f.numBlocks → f.isBranch (f.lastInst b) = true →
    ∀ o ∈ f.operands (f.lastInst b), o.kind = .Use
  vregs : f.numVregs ≤ VReg.MAX
  operands : ∀ i, i < f.numInsts → Fast.OperandsOk f C i
  params : ∀ b, b < f.numBlocks → ∀ p ∈ f.params b, p = C p.vreg
  args : ∀ b, b < f.numBlocks → ∀ k s, (f.succs b)[k]? = some s →
    (∀ a ∈ f.args b (f.lastInst b) k, a = C a.vreg ∧ a.vreg < f.numVregs) ∧
    ∀ m ∈ (f.params s).zip (f.args b (f.lastInst b) k), m.1.class? = m.2.class?
  args_defined : ∀ b l, Walk f.succs f.entry b l → ∀ k s, (f.succs b)[k]? = some s → ∀ a ∈ f.args b (f.lastInst b) k,
    ∃ w, RegEvent.write w ∈ pathEvents f l ∧ w.vreg = a.vreg
  use_after_def : ∀ i i', i < f.numInsts → i' < f.numInsts → ∀ v ∈ opWrites (f.operands i), ∀ w ∈ opReads (f.operands i'),
    v.vreg = w.vreg → i < i'
  arg_after_def : ∀ i b k s, i < f.numInsts → b < f.numBlocks → (f.succs b)[k]? = some s →
    ∀ v ∈ opWrites (f.operands i), ∀ w ∈ f.args b (f.lastInst b) k, v.vreg = w.vreg → i < f.lastInst b
  use_after_param : ∀ b i, b < f.numBlocks → i < f.numInsts → ∀ v ∈ f.params b, ∀ w ∈ opReads (f.operands i),
    v.vreg = w.vreg → (f.insns b).1 ≤ i
  arg_after_param : ∀ b b' k s, b < f.numBlocks → b' < f.numBlocks → (f.succs b')[k]? = some s →
    ∀ v ∈ f.params b, ∀ w ∈ f.args b' (f.lastInst b') k, v.vreg = w.vreg → b ≤ b'

end Regalloc.Api
