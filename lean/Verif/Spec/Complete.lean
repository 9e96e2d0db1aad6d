import Verif.Spec.Checker

/-
Vocabulary for C45: which outputs the checker has to accept.
-/
namespace Regalloc.Checker

/-- The operands of instruction `i` do not disturb each other. -/
structure Undisturbed (f : Func) (out : Output) (i : Nat) : Prop where
  /-- Operands naming a non-allocatable register are uses. -/
  real : ∀ o ∈ f.operands i, o.kind = .Def → o.asFixedNonallocatable = none
  /-- SSA: definitions are distinct registers, none of which the instruction reads. -/
  once : (opWrites (f.operands i)).Nodup
  useDef : ∀ v ∈ opReads (f.operands i), v ∉ opWrites (f.operands i)
  /-- Definitions are in distinct locations. -/
  defs : ∀ as, out.instAllocs i = some as → ∀ (k k' : Nat) o o', (f.operands i)[k]? = some o → (f.operands i)[k']? = some o' →
    k ≠ k' → o.kind = .Def → o'.kind = .Def → as[k]? ≠ as[k']?
  /-- Late uses are neither in a location that is defined nor in a register that is clobbered. -/
  late : ∀ as, out.instAllocs i = some as → ∀ (k : Nat) o, (f.operands i)[k]? = some o → o.kind = .Use → o.pos = .Late →
    o.asFixedNonallocatable = none →
    (∀ (k' : Nat) o', (f.operands i)[k']? = some o' → o'.kind = .Def → as[k]? ≠ as[k']?) ∧
    ∀ p ∈ f.clobbers i, as[k]? ≠ some (Allocation.reg p)

/-- Each operand has a location that satisfies its constraint. -/
def ConstraintsMet (f : Func) (env : MachineEnv) (out : Output) (i : Nat) : Prop :=
  ∀ as, out.instAllocs i = some as → ∀ (k : Nat) o a, (f.operands i)[k]? = some o → as[k]? = some a →
    a ≠ .none ∧ Allowed env as o a

/-- The function is laid out so that each block has instructions, branches at most at its end, and,
unless it is the entry, a predecessor with a smaller number. Between two blocks there is at most
one edge that passes arguments. -/
structure LaidOut (f : Func) : Prop where
  nonempty : ∀ b, b < f.numBlocks → (f.insns b).1 < (f.insns b).2
  branchLast : ∀ b, b < f.numBlocks → ∀ i ∈ f.blockInsts b, f.isBranch i = true → i = f.lastInst b
  inOrder : ∀ b, b < f.numBlocks → b ≠ f.entry → ∃ a, a < b ∧ b ∈ f.succs a
  edges : ∀ b, b < f.numBlocks → ∀ (k k' s : Nat), (f.succs b)[k]? = some s → (f.succs b)[k']? = some s →
    k = k' ∨ f.params s = []

end Regalloc.Checker
