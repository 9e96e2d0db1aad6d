import Verif.Spec.Requirement

/-
C17: merging requirements.
-/
namespace Regalloc
namespace Requirement

/-- C17. A merged requirement admits exactly the places both admit. -/
theorem C17_merge_exact (a b r : Requirement) (h : a.merge b = some r) (x : Place) :
    r.Admits x ↔ a.Admits x ∧ b.Admits x := by
  cases a <;> cases b <;> simp only [merge, Option.some.injEq, reduceCtorEq] at h <;>
    first
    | (subst h; simp [Admits]; done)
    | (subst h; simp only [Admits]; grind)
    | (split at h <;> simp only [Option.some.injEq, reduceCtorEq] at h; subst h; simp only [Admits]; grind)

/-- C17. A conflict is reported only when no place satisfies both. -/
theorem C17_conflict_sound (a b : Requirement) (h : a.merge b = none) (x : Place) :
    ¬ (a.Admits x ∧ b.Admits x) := by
  cases a <;> cases b <;> simp only [merge, reduceCtorEq] at h <;>
    first
    | (simp only [Admits]; grind)
    | (split at h <;> simp only [reduceCtorEq] at h; simp only [Admits]; grind)

/-- C17. If both requirements can be met, a conflict is reported iff they cannot be
met together. -/
theorem C17_conflict_iff (a b : Requirement) (ha : ∃ x, a.Admits x) (hb : ∃ x, b.Admits x) :
    a.merge b = none ↔ ¬ ∃ x, a.Admits x ∧ b.Admits x := by
  constructor
  · rintro h ⟨x, hx⟩
    exact C17_conflict_sound a b h x hx
  · intro h
    cases e : a.merge b with
    | none => rfl
    | some r =>
      exfalso
      apply h
      have hr : r = a ∨ r = b := by
        cases a <;> cases b <;> simp only [merge, Option.some.injEq, reduceCtorEq] at e <;>
          first
          | (subst e; simp; done)
          | (subst e; simp; omega)
          | (split at e <;> simp only [Option.some.injEq, reduceCtorEq] at e; subst e; simp)
      rcases hr with rfl | rfl
      · obtain ⟨x, hx⟩ := ha; exact ⟨x, (C17_merge_exact _ _ _ e x).mp hx⟩
      · obtain ⟨x, hx⟩ := hb; exact ⟨x, (C17_merge_exact _ _ _ e x).mp hx⟩

/-- C17. Merging is commutative. -/
theorem C17_merge_comm (a b : Requirement) : a.merge b = b.merge a := by
  cases a <;> cases b <;> simp only [merge] <;> grind

/-- C17. Merging is associative, conflicts included. -/
theorem C17_merge_assoc (a b c : Requirement) :
    (a.merge b).bind (fun r => r.merge c) = (b.merge c).bind (fun r => a.merge r) := by
  cases a <;> cases b <;> cases c <;> simp only [merge, Option.bind_some, Option.bind_none] <;>
    repeat' split
  all_goals simp_all [merge]
  all_goals grind

/-- The requirement of an operand admits exactly the places its constraint does. -/
theorem C17_operand_exact (env : MachineEnv) (c : OperandConstraint) (x : Place) :
    (ofConstraint env c).Admits x ↔ c.Admits env x := by
  cases c with
  | FixedReg p =>
    simp only [ofConstraint, OperandConstraint.Admits, Place.ofPReg]
    split <;> simp [Admits]
  | _ => rfl

theorem getLast_cons_getD {α β : Type} (f : α → β) (u : α) (us : List α) (d : β) :
    (((u :: us).getLast?).map f).getD d = ((us.getLast?).map f).getD (f u) := by
  cases us with
  | nil => rfl
  | cons v vs =>
    rw [List.getLast?_cons_cons, List.getLast?_eq_some_getLast (by simp)]; rfl

theorem computeRange_spec (env : MachineEnv) (us : List ReqUse) : ∀ (req : Requirement) (last : Nat),
    (∀ m, computeRange env us (req, last) = .ok m →
      (∀ x, m.1.Admits x ↔ req.Admits x ∧ ∀ u ∈ us, u.constraint.Admits env x) ∧
      m.2 = ((us.getLast?).map ReqUse.pos).getD last) ∧
    (∀ e, computeRange env us (req, last) = .error e →
      ∃ pre u post, us = pre ++ u :: post ∧
        (∃ m, computeRange env pre (req, last) = .ok m) ∧
        (∀ x, ¬ (req.Admits x ∧ ∀ v ∈ pre ++ [u], v.constraint.Admits env x)) ∧
        (e.splitPoint = u.pos ∨ e = .RegToStack (((pre.getLast?).map ReqUse.pos).getD last))) := by
  induction us with
  | nil =>
    intro req last
    refine ⟨?_, by simp [computeRange]⟩
    intro m hm
    simp only [computeRange, Except.ok.injEq] at hm
    subst hm
    simp
  | cons u us ih =>
    intro req last
    constructor
    · intro m hm
      simp only [computeRange] at hm
      split at hm
      · rename_i m' hm'
        obtain ⟨h1, h2⟩ := (ih m' u.pos).1 m hm
        refine ⟨?_, ?_⟩
        · intro x
          rw [h1, C17_merge_exact _ _ _ hm', C17_operand_exact]
          simp [and_assoc]
        · rw [h2, getLast_cons_getD]
      · split at hm
        · simp at hm
        · split at hm <;> simp at hm
    · intro e he
      simp only [computeRange] at he
      split at he
      · rename_i m' hm'
        obtain ⟨pre, v, post, e1, ⟨m, hm⟩, h3, h4⟩ := (ih m' u.pos).2 e he
        refine ⟨u :: pre, v, post, by simp [e1], ⟨m, ?_⟩, ?_, ?_⟩
        · simp only [computeRange, hm']; exact hm
        · intro x hx
          apply h3 x
          rw [C17_merge_exact _ _ _ hm', C17_operand_exact]
          refine ⟨⟨hx.1, hx.2 u (by simp)⟩, fun w hw => hx.2 w (by simp at hw ⊢; grind)⟩
        · rcases h4 with h4 | h4
          · exact .inl h4
          · right; rw [h4, getLast_cons_getD]
      · rename_i hm'
        refine ⟨[], u, us, rfl, ⟨_, rfl⟩, ?_, ?_⟩
        · intro x hx
          apply C17_conflict_sound _ _ hm' x
          rw [C17_operand_exact]
          exact ⟨hx.1, hx.2 u (by simp)⟩
        · split at he
          · simp only [Except.error.injEq] at he; subst he; left; rfl
          · split at he <;> (simp only [Except.error.injEq] at he; subst he)
            · right; simp
            · left; rfl

theorem computeRange_append (env : MachineEnv) (us vs : List ReqUse) : ∀ st,
    computeRange env (us ++ vs) st =
      match computeRange env us st with
      | .error e => .error e
      | .ok st => computeRange env vs st := by
  induction us with
  | nil => intro st; rfl
  | cons u us ih =>
    intro st
    obtain ⟨req, last⟩ := st
    simp only [List.cons_append, computeRange]
    split
    · exact ih _
    · split
      · rfl
      · split <;> rfl

theorem computeRanges_flatten (env : MachineEnv) (rs : List (List ReqUse)) : ∀ st,
    computeRanges env rs st = computeRange env rs.flatten st := by
  induction rs with
  | nil => intro st; rfl
  | cons us rs ih =>
    intro st
    rw [List.flatten_cons, computeRange_append]
    simp only [computeRanges]
    split <;> simp_all

/-- C17. The requirement computed for a bundle admits exactly the places that every
use of the bundle admits. -/
theorem C17_bundle_exact (env : MachineEnv) (ranges : List (List ReqUse)) (r : Requirement)
    (h : compute env ranges = .ok r) (x : Place) :
    r.Admits x ↔ ∀ us ∈ ranges, ∀ u ∈ us, u.constraint.Admits env x := by
  unfold compute at h
  rw [computeRanges_flatten] at h
  split at h
  · simp at h
  · rename_i r' l heq
    simp only [Except.ok.injEq] at h
    subst h
    rw [((computeRange_spec env _ .Any 0).1 _ heq).1 x]
    simp only [Admits, true_and, List.mem_flatten]
    grind

/-- C17. If a bundle's uses conflict, no place serves them all; the suggested split
point is at the first use that cannot be added to the earlier ones, or, for a change
from register to stack, at the use before it. -/
theorem C17_bundle_conflict (env : MachineEnv) (ranges : List (List ReqUse)) (e : RequirementConflictAt)
    (h : compute env ranges = .error e) :
    (¬ ∃ x : Place, ∀ us ∈ ranges, ∀ u ∈ us, u.constraint.Admits env x) ∧
    ∃ pre u post, ranges.flatten = pre ++ u :: post ∧ (∃ r, compute env [pre] = .ok r) ∧
      (¬ ∃ x : Place, ∀ v ∈ pre ++ [u], v.constraint.Admits env x) ∧
      (e.splitPoint = u.pos ∨ e = .RegToStack (((pre.getLast?).map ReqUse.pos).getD 0)) := by
  unfold compute at h
  rw [computeRanges_flatten] at h
  split at h
  · rename_i e' heq
    simp only [Except.error.injEq] at h
    subst h
    obtain ⟨pre, u, post, e1, ⟨m, hm⟩, h3, h4⟩ := (computeRange_spec env _ .Any 0).2 _ heq
    have hno : ¬ ∃ x : Place, ∀ v ∈ pre ++ [u], v.constraint.Admits env x := by
      rintro ⟨x, hx⟩
      exact h3 x ⟨trivial, hx⟩
    refine ⟨?_, pre, u, post, e1, ⟨m.1, ?_⟩, hno, h4⟩
    · rintro ⟨x, hx⟩
      apply hno
      refine ⟨x, fun v hv => ?_⟩
      have : v ∈ ranges.flatten := by rw [e1]; simp at hv ⊢; grind
      obtain ⟨us, h1, h2⟩ := List.mem_flatten.mp this
      exact hx us h1 v h2
    · unfold compute
      rw [computeRanges_flatten]
      simp [hm]
  · simp at h

/-- C17. Two bundles' requirements merge to what all uses of both admit; a conflict
means no place serves the uses of both. -/
theorem C17_two_bundles (env : MachineEnv) (a b : List (List ReqUse)) :
    (∀ r, mergeBundles env a b = some r →
      ∀ x : Place, r.Admits x ↔ ∀ us ∈ a ++ b, ∀ u ∈ us, u.constraint.Admits env x) ∧
    (mergeBundles env a b = none →
      ¬ ∃ x : Place, ∀ us ∈ a ++ b, ∀ u ∈ us, u.constraint.Admits env x) := by
  unfold mergeBundles
  constructor
  · intro r h x
    split at h
    · rename_i ra rb ha hb
      rw [C17_merge_exact _ _ _ h, C17_bundle_exact env a ra ha, C17_bundle_exact env b rb hb]
      simp only [List.mem_append]
      grind
    · simp at h
  · rintro h ⟨x, hx⟩
    cases ha : compute env a with
    | error e => exact (C17_bundle_conflict env a e ha).1 ⟨x, fun us hu => hx us (by simp [hu])⟩
    | ok ra =>
      cases hb : compute env b with
      | error e => exact (C17_bundle_conflict env b e hb).1 ⟨x, fun us hu => hx us (by simp [hu])⟩
      | ok rb =>
        simp only [ha, hb] at h
        apply C17_conflict_sound _ _ h x
        rw [C17_bundle_exact env a ra ha, C17_bundle_exact env b rb hb]
        exact ⟨fun us hu => hx us (by simp [hu]), fun us hu => hx us (by simp [hu])⟩

/-- C17, limit of the "iff": `Limit(0)` admits no place, and is merged with
`Register` without a conflict. -/
theorem C17_empty_limit_not_reported :
    merge (.Limit 0) .Register = some (.Limit 0) ∧ ¬ ∃ x, (Requirement.Limit 0).Admits x := by
  refine ⟨rfl, ?_⟩
  rintro ⟨x, p, -, h⟩
  omega

/-- Concrete: a register use and a limit combine; a later stack use conflicts, with a
split suggested at the last register use. -/
example :
    let env : MachineEnv := ⟨fun _ => PRegSet.empty, fun _ => PRegSet.empty, fun _ => none, [PReg.new 9 .Int]⟩
    compute env [[⟨4, .Reg⟩, ⟨8, .Limit 8⟩], [⟨12, .Any⟩]] = .ok (.Limit 8) ∧
    compute env [[⟨4, .Reg⟩, ⟨8, .Limit 8⟩], [⟨12, .FixedReg (PReg.new 9 .Int)⟩]] = .error (.RegToStack 8) ∧
    (Requirement.Limit 8).Admits (.reg (PReg.new 3 .Int)) := by
  refine ⟨rfl, rfl, ⟨PReg.new 3 .Int, rfl, by decide +kernel⟩⟩

end Requirement
end Regalloc
