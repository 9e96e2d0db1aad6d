import Verif.Model.Ion
import Verif.Spec.Requirement

/-
Vocabulary for the properties of bundles (C31, C33, C34).
-/
namespace Regalloc.Ion

/-- The program point `p` lies in the range `r`, end excluded. -/
def Covers (r : RKey) (p : Nat) : Prop := r.fr ≤ p ∧ p < r.to

/-- No point lies in both ranges. -/
def Apart (a b : RKey) : Prop := ∀ p, ¬ (Covers a p ∧ Covers b p)

/-- A list of non-empty ranges in increasing order, without overlap. -/
def Tidy (es : List Entry) : Prop :=
  (∀ e ∈ es, e.range.fr < e.range.to) ∧ es.Pairwise (fun a b => a.range.to ≤ b.range.fr)

/-- The uses attached to the ranges of a bundle. -/
def usesOf (st : St) (b : Nat) : List Use := (st.bundles b).ranges.flatMap (fun e => (st.ranges e.index).uses)

/-- One location satisfies every one of these uses. -/
def Satisfiable (env : MachineEnv) (us : List Use) : Prop :=
  ∃ x : Place, ∀ u ∈ us, u.op.constraint.Admits env x

/-- `Limit(0)` admits no register at all; an operand cannot encode it. -/
def NoZeroLimit (us : List Use) : Prop := ∀ u ∈ us, u.op.constraint ≠ .Limit 0

/-- The cached flags of a bundle announce the constraints of its uses. -/
def FlagsSound (b : Bundle) (us : List Use) : Prop :=
  ∀ u ∈ us,
    (∀ p, u.op.constraint = .FixedReg p → b.fixed = true ∧ (u.op.kind = .Def → b.fixedDef = true)) ∧
    (u.op.constraint = .Stack → b.stack = true) ∧
    (∀ n, u.op.constraint = .Limit n → b.limit.isSome = true ∨ (b.fixed = true ∧ b.stack = true))

end Regalloc.Ion
