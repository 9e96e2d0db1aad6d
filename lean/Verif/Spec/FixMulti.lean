import Verif.Model.FixMulti
import Verif.Spec.Ion
import Verif.Spec.LiveRanges

/-
Specification vocabulary for C39.
-/
namespace Regalloc.Build

/-- What may become of a use: it stays, or its fixed register is left to a fixup move. -/
def Relaxed (fx : List Apply.Fixup) (u u' : Ion.Use) : Prop :=
  u' = u ∨ ∃ p, u.op.constraint = .FixedReg p ∧ u' = { u with op := { u.op with constraint := .Any } } ∧
    ∃ x ∈ fx, x.pos = u.pos ∧ x.toSlot = u.slot ∧ x.preg = p ∧ x.vreg = u.op.vreg.vreg

/-- The uses at one point. -/
def usesAt (us : List Ion.Use) (p : Nat) : List Ion.Use := us.filter (fun u => decide (u.pos = p))

/-- Two uses at one point of which one names a register beyond the limit of the other. -/
def BeyondLimit (env : MachineEnv) (us : List Ion.Use) : Prop :=
  ∃ u ∈ us, ∃ u' ∈ us, u.pos = u'.pos ∧ ∃ p n, u.op.constraint = .FixedReg p ∧ p ∉ env.fixedStackSlots ∧
    u'.op.constraint = .Limit n ∧ n ≤ p.hwEnc

/-- No two reservations of a register overlap. -/
def NoOverlap (l : List (PReg × RKey)) : Prop :=
  l.Pairwise (fun a b => a.1 = b.1 → a.2.to ≤ b.2.fr ∨ b.2.to ≤ a.2.fr)

/-- What the pass needs in order not to panic: an operand on the stack is not accompanied by
another one that names the same register and counts until the same point, and operands that name
the same register and count until the end of the instruction ask for locations that can be had
together. -/
structure Servable (env : MachineEnv) (f : Func) : Prop where
  stack : ∀ b, b < f.numBlocks → ∀ i ∈ f.blockInsts b, ∀ (k k' : Nat) (o o' : Op), (f.operands i)[k]? = some o →
    (f.operands i)[k']? = some o' → o.asFixedNonallocatable = none → o'.asFixedNonallocatable = none → o.constraint = .Stack →
    o'.vreg.vreg = o.vreg.vreg → recordPoint f i o' = recordPoint f i o → k' = k
  late : ∀ b, b < f.numBlocks → ∀ i ∈ f.blockInsts b, ∀ v, ∃ x : Place, ∀ (k : Nat) (o : Op), (f.operands i)[k]? = some o →
    o.asFixedNonallocatable = none → o.vreg.vreg = v → recordPoint f i o = ptAfter i → o.constraint.Admits env x

end Regalloc.Build
