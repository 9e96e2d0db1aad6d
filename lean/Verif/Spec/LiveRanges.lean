import Verif.Model.LiveRanges

/-
Specification vocabulary for C34: at which program points a virtual register is live.
-/
namespace Regalloc.Build

/-- The register of the input that an output of the instruction reuses, if any (of the
first such output). -/
def reusedReg (ops : List Op) : Option VReg :=
  (ops.findSome? (fun o => match o.constraint with | .Reuse j => some j | _ => none)).bind
    (fun j => ops[j]?.map (·.vreg))

/-- The last point at which an instruction needs a register it uses. A late use needs it
while results are written. So does an early use if an output overwrites an input in another
register, because that input is copied into place before the instruction runs. -/
def usePoint (f : Func) (i : Nat) (o : Op) : Nat :=
  if o.pos = .Late ∨ ∃ r, reusedReg (f.operands i) = some r ∧ r ≠ o.vreg then ptAfter i else ptBefore i

/-- The point at which an instruction writes a register. -/
def defPoint (i : Nat) (o : Op) : Nat := if o.pos = .Late then ptAfter i else ptBefore i

/-- An instruction of the block uses the register, until point `p`. -/
def UsedAt (f : Func) (b v p : Nat) : Prop :=
  ∃ i ∈ f.blockInsts b, ∃ o ∈ f.operands i, o.asFixedNonallocatable = none ∧ o.kind = .Use ∧ o.vreg.vreg = v ∧
    p = usePoint f i o

/-- An instruction of the block defines the register, at point `p`. -/
def DefinedAt (f : Func) (b v p : Nat) : Prop :=
  ∃ i ∈ f.blockInsts b, ∃ o ∈ f.operands i, o.asFixedNonallocatable = none ∧ o.kind = .Def ∧ o.vreg.vreg = v ∧
    p = defPoint i o

/-- The register is live at point `p` of block `b`; `out` says that its value is needed once
the block has been left. Either
* the value there is needed at the end of the block and not redefined in between, or
* it is used at `p` or later and not redefined in between, or
* it was written at or before `p` by the same instruction (even if it is never used), or
* it is a parameter of the block and `p` is the start of the block. -/
def LiveAt (f : Func) (out : Prop) (b v p : Nat) : Prop :=
  (out ∧ ∀ d, DefinedAt f b v d → d ≤ p) ∨
  (∃ u, p ≤ u ∧ UsedAt f b v u ∧ ∀ d, DefinedAt f b v d → p < d → u < d) ∨
  (∃ d, d ≤ p ∧ DefinedAt f b v d ∧ p / 2 = d / 2) ∨
  (v ∈ (f.params b).map VReg.vreg ∧ p = ptBefore (f.insns b).1)

/-- The point lies in one of the ranges. -/
def Covered (rs : List LR) (p : Nat) : Prop := ∃ r ∈ rs, r.range.fr ≤ p ∧ p < r.range.to

/-- The register is passed as an argument on one of the edges that leave the block. -/
def PassedOn (f : Func) (b v : Nat) : Prop :=
  ∃ k c : Nat, (f.succs b)[k]? = some c ∧ v ∈ (f.args b (f.lastInst b) k).map VReg.vreg

/-- Point `p` belongs to an instruction of block `b`. -/
def InBlock (f : Func) (b p : Nat) : Prop := ptBefore (f.insns b).1 ≤ p ∧ p < ptBefore (f.insns b).2

/-- What the pass requires of the function: blocks are not empty and are laid out in order;
blocks with successors end in a branch that passes as many arguments as the successor has
parameters; an instruction that defines a register names it in no other operand; a block does
not redefine its parameters and has each of them once. All of it holds of SSA functions. -/
structure Ready (f : Func) : Prop where
  nonempty : ∀ b, b < f.numBlocks → (f.insns b).1 < (f.insns b).2
  ordered : ∀ b c, b < c → c < f.numBlocks → (f.insns b).2 ≤ (f.insns c).1
  branches : ∀ b, f.succs b ≠ [] → f.isBranch (f.lastInst b) = true
  arity : ∀ b k c, (f.succs b)[k]? = some c → (f.args b (f.lastInst b) k).length = (f.params c).length
  once : ∀ (i j k : Nat) (o o' : Op), (f.operands i)[j]? = some o → (f.operands i)[k]? = some o' → j ≠ k →
    o.asFixedNonallocatable = none → o'.asFixedNonallocatable = none → o.vreg.vreg = o'.vreg.vreg → o.kind = .Use
  params : ∀ b, ((f.params b).map VReg.vreg).Nodup
  params_def : ∀ b, ∀ v ∈ f.params b, ∀ p, ¬ DefinedAt f b v.vreg p

/-- Further requirements, without which a debug assertion fails: reused inputs exist and can be
allocated, and an instruction has at most one early use fixed to any one register. -/
structure NoClash (f : Func) : Prop where
  reuse : ∀ (i j : Nat), ∀ o ∈ f.operands i, o.constraint = .Reuse j →
    ∃ r, (f.operands i)[j]? = some r ∧ r.asFixedNonallocatable = none
  fixed : ∀ (i j k : Nat) (o o' : Op) (p : PReg), (f.operands i)[j]? = some o → (f.operands i)[k]? = some o' →
    o.constraint = .FixedReg p → o'.constraint = .FixedReg p → o.kind = .Use → o'.kind = .Use →
    o.pos = .Early → o'.pos = .Early → j = k

/-- How operand `o`, the `k`-th of instruction `i`, may be recorded: as it is, without a fixup
move, or, if it is an early use fixed to a register, without the constraint, which a fixup move
then meets. -/
def RecordedAs (fixups : List Fixup) (i k : Nat) (o o' : Op) : Prop :=
  (o' = o ∧ ∀ fx ∈ fixups, fx.pos = ptBefore i → fx.slot ≠ k) ∨ ∃ p, o.constraint = .FixedReg p ∧ o.kind = .Use ∧ o.pos = .Early ∧ o.asFixedNonallocatable = none ∧
    o' = { o with constraint := .Any } ∧ ⟨ptBefore i, k, p, o.vreg.vreg⟩ ∈ fixups

/-- The point at which an operand is recorded. -/
def recordPoint (f : Func) (i : Nat) (o : Op) : Nat :=
  match o.kind with
  | .Use => usePoint f i o
  | .Def => defPoint i o

/-- The value that `v` has before instruction `i` of block `b`, and that the instruction does not
overwrite, is needed after it: at the end of the block (`out`) or by a later instruction. -/
def NeededAfter (f : Func) (out : Prop) (b v i : Nat) : Prop :=
  (out ∧ ∀ d, DefinedAt f b v d → d / 2 ≤ i) ∨
  ∃ u, UsedAt f b v u ∧ i < u / 2 ∧ ∀ d, DefinedAt f b v d → i < d / 2 → u < d

/-- Operand `o` of instruction `i` is an early use fixed to register `p`, and the instruction
overwrites `p`: it clobbers it or has a late definition fixed to it. -/
def Overwritten (f : Func) (i : Nat) (o : Op) (p : PReg) : Prop :=
  o.asFixedNonallocatable = none ∧ o.constraint = .FixedReg p ∧ o.kind = .Use ∧ o.pos = .Early ∧
    (p ∈ f.clobbers i ∨ ∃ o' ∈ f.operands i, o'.constraint = .FixedReg p ∧ o'.pos = .Late ∧ o'.kind = .Def)

end Regalloc.Build
