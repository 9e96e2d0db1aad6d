import Verif.Props.Requirement
import Verif.Proofs.Merge
import Verif.Model.Process

/-
What the requirement computed for a bundle says about its uses. Helper lemmas for C40.
-/
namespace Regalloc.Ion

open Requirement (ReqUse computeRange computeRanges compute ofConstraint)

def toReq (u : Use) : ReqUse := ⟨u.pos, u.op.constraint⟩

theorem reqUses_flatten (st : St) (b : Nat) : (st.reqUses b).flatten = (usesOf st b).map toReq := by
  unfold St.reqUses usesOf
  rw [List.map_flatMap, List.flatMap_def]
  rfl

theorem compute_range {env : MachineEnv} {st : St} {b : Nat} {r : Requirement} (h : compute env (st.reqUses b) = .ok r) :
    ∃ l, computeRange env ((usesOf st b).map toReq) (.Any, 0) = .ok (r, l) := by
  unfold compute at h
  rw [Requirement.computeRanges_flatten, reqUses_flatten] at h
  split at h
  · cases h
  · rename_i r' l heq
    cases h
    exact ⟨l, heq⟩

theorem computeRange_cons {env : MachineEnv} {u : Use} {us : List Use} {req : Requirement} {l : Nat} {x : Requirement × Nat}
    (h : computeRange env ((u :: us).map toReq) (req, l) = .ok x) :
    ∃ m, Requirement.merge req (ofConstraint env u.op.constraint) = some m ∧ computeRange env (us.map toReq) (m, u.pos) = .ok x := by
  rw [List.map_cons, show toReq u = ⟨u.pos, u.op.constraint⟩ from rfl, computeRange] at h
  dsimp only at h
  cases hm : Requirement.merge req (ofConstraint env u.op.constraint) with
  | some m => rw [hm] at h; exact ⟨m, rfl, h⟩
  | none =>
    rw [hm] at h
    dsimp only at h
    by_cases h1 : (req.isStack && (ofConstraint env u.op.constraint).isReg) = true
    · rw [if_pos h1] at h; cases h
    · rw [if_neg h1] at h
      by_cases h2 : (req.isReg && (ofConstraint env u.op.constraint).isStack) = true
      · rw [if_pos h2] at h; cases h
      · rw [if_neg h2] at h; cases h

/-- A property of the result that merging keeps is one of the parts. -/
theorem computeRange_parts {env : MachineEnv} {F : Requirement → Prop}
    (hF : ∀ a b r, Requirement.merge a b = some r → F r → F a ∧ F b) (us : List Use) :
    ∀ {req r : Requirement} {l l' : Nat}, computeRange env (us.map toReq) (req, l) = .ok (r, l') → F r →
      F req ∧ ∀ u ∈ us, F (ofConstraint env u.op.constraint) := by
  induction us with
  | nil => intro req r l l' h hr; cases h; exact ⟨hr, by simp⟩
  | cons u us ih =>
    intro req r l l' h hr
    obtain ⟨m, hm, h⟩ := computeRange_cons h
    obtain ⟨h1, h2⟩ := ih h hr
    obtain ⟨h3, h4⟩ := hF _ _ _ hm h1
    refine ⟨h3, ?_⟩
    intro v hv
    rcases List.mem_cons.mp hv with rfl | hv
    · exact h4
    · exact h2 v hv

theorem merge_any (a b r : Requirement) (h : Requirement.merge a b = some r) (hr : r = .Any) : a = .Any ∧ b = .Any := by
  subst hr
  cases a <;> cases b <;> simp only [Requirement.merge, Option.some.injEq, reduceCtorEq] at h <;>
    first | exact ⟨rfl, rfl⟩ | (split at h <;> simp at h)

theorem merge_stack (a b r : Requirement) (h : Requirement.merge a b = some r) (hr : r = .Any ∨ r = .Stack) :
    (a = .Any ∨ a = .Stack) ∧ (b = .Any ∨ b = .Stack) := by
  rcases hr with rfl | rfl <;>
  cases a <;> cases b <;> simp only [Requirement.merge, Option.some.injEq, reduceCtorEq] at h <;>
    first | (simp; done) | (split at h <;> simp at h)

/-- Any register will do, maybe below a limit. -/
def FreeReq : Requirement → Prop
  | .Any => True
  | .Register => True
  | .Limit _ => True
  | _ => False

def limOf : Requirement → Option Nat
  | .Limit n => some n
  | _ => none

theorem merge_free (a b r : Requirement) (h : Requirement.merge a b = some r) (hr : FreeReq r) : FreeReq a ∧ FreeReq b := by
  cases a <;> cases b <;> simp only [Requirement.merge, Option.some.injEq, reduceCtorEq] at h <;>
    first | (simp [FreeReq]; done) | (subst h; exact absurd hr (by simp [FreeReq])) |
      (split at h <;> simp at h; subst h; exact absurd hr (by simp [FreeReq]))

theorem ofConstraint_any {env : MachineEnv} {c : OperandConstraint} (h : ofConstraint env c = .Any) : c = .Any := by
  cases c <;> simp only [ofConstraint, reduceCtorEq] at h ⊢
  split at h <;> cases h

theorem ofConstraint_stack {env : MachineEnv} {c : OperandConstraint} (h : ofConstraint env c = .Stack) : c = .Stack := by
  cases c <;> simp only [ofConstraint, reduceCtorEq] at h ⊢
  split at h <;> cases h

theorem compute_any {env : MachineEnv} {st : St} {b : Nat} (h : compute env (st.reqUses b) = .ok .Any) :
    ∀ u ∈ usesOf st b, u.op.constraint = .Any := by
  obtain ⟨l, hl⟩ := compute_range h
  intro u hu
  exact ofConstraint_any ((computeRange_parts (F := (· = .Any)) merge_any _ hl rfl).2 u hu)

theorem compute_stack {env : MachineEnv} {st : St} {b : Nat} (h : compute env (st.reqUses b) = .ok .Stack) :
    ∀ u ∈ usesOf st b, u.op.constraint = .Any ∨ u.op.constraint = .Stack := by
  obtain ⟨l, hl⟩ := compute_range h
  intro u hu
  rcases (computeRange_parts (F := fun r => r = .Any ∨ r = .Stack) merge_stack _ hl (.inr rfl)).2 u hu with h1 | h1
  · exact .inl (ofConstraint_any h1)
  · exact .inr (ofConstraint_stack h1)

/-- The requirement is that of a use. -/
theorem computeRange_source {env : MachineEnv} (us : List Use) :
    ∀ {req r : Requirement} {l l' : Nat}, computeRange env (us.map toReq) (req, l) = .ok (r, l') →
      r = req ∨ ∃ u ∈ us, ofConstraint env u.op.constraint = r := by
  induction us with
  | nil => intro req r l l' h; cases h; exact .inl rfl
  | cons u us ih =>
    intro req r l l' h
    obtain ⟨m, hm, h⟩ := computeRange_cons h
    rcases ih h with h1 | ⟨v, hv, h1⟩
    · subst h1
      have : r = req ∨ r = ofConstraint env u.op.constraint := by
        generalize ofConstraint env u.op.constraint = c at *
        cases req <;> cases c <;> simp only [Requirement.merge, Option.some.injEq, reduceCtorEq] at hm <;>
          first | (subst hm; simp; done) | (subst hm; simp; omega) | (split at hm <;> simp at hm; subst hm; simp_all; done) | grind
      rcases this with h2 | h2
      · exact .inl h2
      · exact .inr ⟨u, List.mem_cons_self .., h2.symm⟩
    · exact .inr ⟨v, List.mem_cons_of_mem _ hv, h1⟩

theorem compute_register {env : MachineEnv} {st : St} {b : Nat} (h : compute env (st.reqUses b) = .ok .Register) :
    ∃ u ∈ usesOf st b, u.op.constraint = .Reg ∨ ∃ k, u.op.constraint = .Reuse k := by
  obtain ⟨l, hl⟩ := compute_range h
  rcases computeRange_source _ hl with h1 | ⟨u, hu, h1⟩
  · cases h1
  · refine ⟨u, hu, ?_⟩
    cases hc : u.op.constraint <;> rw [hc] at h1 <;> simp only [ofConstraint, reduceCtorEq] at h1 <;> simp
    split at h1 <;> cases h1

theorem compute_limit {env : MachineEnv} {st : St} {b n : Nat} (h : compute env (st.reqUses b) = .ok (.Limit n)) :
    ∃ u ∈ usesOf st b, u.op.constraint = .Limit n := by
  obtain ⟨l, hl⟩ := compute_range h
  rcases computeRange_source _ hl with h1 | ⟨u, hu, h1⟩
  · cases h1
  · refine ⟨u, hu, ?_⟩
    cases hc : u.op.constraint <;> rw [hc] at h1 <;> simp only [ofConstraint, reduceCtorEq] at h1
    · split at h1 <;> cases h1
    · cases h1; rfl

/-- The requirement of a named place comes from a use. -/
theorem computeRange_fixed {env : MachineEnv} {p : PReg} {f : PReg → Requirement} (hf : f = .FixedReg ∨ f = .FixedStack) (us : List Use) :
    ∀ {req : Requirement} {l l' : Nat}, computeRange env (us.map toReq) (req, l) = .ok (f p, l') →
      req = f p ∨ ∃ u ∈ us, ofConstraint env u.op.constraint = f p := by
  induction us with
  | nil => intro req l l' h; cases h; exact .inl rfl
  | cons u us ih =>
    intro req l l' h
    obtain ⟨m, hm, h⟩ := computeRange_cons h
    · rcases ih h with h1 | ⟨v, hv, h1⟩
      · subst h1
        have : req = f p ∨ ofConstraint env u.op.constraint = f p := by
          generalize ofConstraint env u.op.constraint = c at *
          rcases hf with rfl | rfl <;>
          cases req <;> cases c <;> simp only [Requirement.merge, Option.some.injEq, reduceCtorEq] at hm <;>
            first | (subst hm; simp; done) | (simp at hm; done) | (simp only [hm]; simp; done) | grind
        rcases this with h2 | h2
        · exact .inl h2
        · exact .inr ⟨u, List.mem_cons_self .., h2⟩
      · exact .inr ⟨v, List.mem_cons_of_mem _ hv, h1⟩

theorem compute_fixedReg {env : MachineEnv} {st : St} {b : Nat} {p : PReg} (h : compute env (st.reqUses b) = .ok (.FixedReg p)) :
    p ∉ env.fixedStackSlots ∧ ∃ u ∈ usesOf st b, u.op.constraint = .FixedReg p := by
  obtain ⟨l, hl⟩ := compute_range h
  rcases computeRange_fixed (f := .FixedReg) (.inl rfl) _ hl with h1 | ⟨u, hu, h1⟩
  · cases h1
  · cases hc : u.op.constraint <;> rw [hc] at h1 <;> simp only [ofConstraint, reduceCtorEq] at h1
    split at h1
    · cases h1
    · cases h1; exact ⟨by assumption, u, hu, hc⟩

theorem compute_fixedStack {env : MachineEnv} {st : St} {b : Nat} {p : PReg} (h : compute env (st.reqUses b) = .ok (.FixedStack p)) :
    p ∈ env.fixedStackSlots ∧ ∃ u ∈ usesOf st b, u.op.constraint = .FixedReg p := by
  obtain ⟨l, hl⟩ := compute_range h
  rcases computeRange_fixed (f := .FixedStack) (.inr rfl) _ hl with h1 | ⟨u, hu, h1⟩
  · cases h1
  · cases hc : u.op.constraint <;> rw [hc] at h1 <;> simp only [ofConstraint, reduceCtorEq] at h1
    split at h1
    · cases h1; exact ⟨by assumption, u, hu, hc⟩
    · cases h1

/-- A use that any register can serve, maybe below a limit. -/
def FreeUse (u : Use) : Prop := u.op.constraint ≠ .Stack ∧ ∀ p, u.op.constraint ≠ .FixedReg p

theorem freeUse_of {env : MachineEnv} {u : Use} (h : FreeReq (ofConstraint env u.op.constraint)) : FreeUse u := by
  unfold FreeUse
  cases hc : u.op.constraint <;> rw [hc] at h <;> first
    | (simp; done)
    | (simp only [ofConstraint] at h; split at h <;> exact h.elim)
    | exact h.elim

theorem useLimit_append (us vs : List Use) (h : ∀ u ∈ us, FreeUse u) : ∀ l, useLimit (us ++ vs) l = useLimit vs (useLimit us l) := by
  induction us with
  | nil => intro l; rfl
  | cons u us ih =>
    intro l
    have ih := ih (fun v hv => h v (List.mem_cons_of_mem _ hv))
    have hu := h u (List.mem_cons_self ..)
    unfold FreeUse at hu
    simp only [List.cons_append, useLimit]
    cases hc : u.op.constraint <;> rw [hc] at hu <;> simp at hu <;> dsimp only <;> (try exact ih _)
    cases l <;> exact ih _

theorem bundleLimit_eq (st : St) (es : List Entry) (h : ∀ e ∈ es, ∀ u ∈ (st.ranges e.index).uses, FreeUse u) :
    ∀ l, es.foldl (fun l e => useLimit (st.ranges e.index).uses l) l = useLimit (es.flatMap (fun e => (st.ranges e.index).uses)) l := by
  induction es with
  | nil => intro l; rfl
  | cons e es ih =>
    intro l
    rw [List.foldl_cons, List.flatMap_cons, useLimit_append _ _ (h e (List.mem_cons_self ..)), ih (fun e he => h e (List.mem_cons_of_mem _ he))]

theorem computeRange_limit {env : MachineEnv} (us : List Use) :
    ∀ {req r : Requirement} {l l' : Nat}, computeRange env (us.map toReq) (req, l) = .ok (r, l') → FreeReq r →
      useLimit us (limOf req) = limOf r := by
  induction us with
  | nil => intro req r l l' h _; cases h; rfl
  | cons u us ih =>
    intro req r l l' h hr
    have hp := computeRange_parts (F := FreeReq) merge_free _ h hr
    obtain ⟨m, hm, h⟩ := computeRange_cons h
    have ih := ih h hr
    have h1 := hp.1
    have h2 := hp.2 u (List.mem_cons_self ..)
    rw [← ih]
    simp only [useLimit]
    cases hc : u.op.constraint <;> rw [hc] at hm h2 <;> simp only [ofConstraint] at hm h2 <;>
      (try (exact h2.elim)) <;> (try (split at h2 <;> exact h2.elim)) <;>
      cases req <;> first
        | exact h1.elim
        | (simp only [Requirement.merge, Option.some.injEq] at hm; subst hm; rfl)

/-- A bundle any register can serve: its uses, and the limit. -/
theorem compute_free {env : MachineEnv} {st : St} {b : Nat} {r : Requirement} (h : compute env (st.reqUses b) = .ok r)
    (hr : FreeReq r) : (∀ u ∈ usesOf st b, FreeUse u) ∧ bundleLimit st (st.bundles b).ranges = limOf r := by
  obtain ⟨l, hl⟩ := compute_range h
  have h1 : ∀ u ∈ usesOf st b, FreeUse u := fun u hu => freeUse_of ((computeRange_parts (F := FreeReq) merge_free _ hl hr).2 u hu)
  refine ⟨h1, ?_⟩
  unfold bundleLimit
  rw [bundleLimit_eq _ _ (fun e he u hu => h1 u ((mem_usesOf _ _ _).mpr ⟨e, he, hu⟩))]
  exact computeRange_limit _ hl hr

/-- The uses of a bundle are served by a place its requirement admits. -/
theorem compute_admits {env : MachineEnv} {st : St} {b : Nat} {r : Requirement} (h : compute env (st.reqUses b) = .ok r) {x : Place}
    (hx : r.Admits x) : ∀ u ∈ usesOf st b, u.op.constraint.Admits env x :=
  (reqUses_constraints st b (fun c => c.Admits env x)).mp ((Requirement.C17_bundle_exact env _ r h x).mp hx)

theorem computeRange_error {env : MachineEnv} {c : RequirementConflictAt} (us : List Use) :
    ∀ {req : Requirement} {l : Nat}, computeRange env (us.map toReq) (req, l) = .error c →
      us ≠ [] ∧ (c.splitPoint = l ∨ ∃ u ∈ us, c.splitPoint = u.pos) := by
  induction us with
  | nil => intro req l h; cases h
  | cons u us ih =>
    intro req l h
    refine ⟨by simp, ?_⟩
    rw [List.map_cons, show toReq u = ⟨u.pos, u.op.constraint⟩ from rfl, computeRange] at h
    dsimp only at h
    cases hm : Requirement.merge req (ofConstraint env u.op.constraint) with
    | some m =>
      rw [hm] at h
      rcases (ih h).2 with h1 | ⟨v, hv, h1⟩
      · exact .inr ⟨u, by simp, h1⟩
      · exact .inr ⟨v, by simp [hv], h1⟩
    | none =>
      rw [hm] at h
      dsimp only at h
      by_cases h1 : (req.isStack && (ofConstraint env u.op.constraint).isReg) = true
      · rw [if_pos h1] at h; cases h; exact .inr ⟨u, by simp, rfl⟩
      · rw [if_neg h1] at h
        by_cases h2 : (req.isReg && (ofConstraint env u.op.constraint).isStack) = true
        · rw [if_pos h2] at h; cases h; exact .inl rfl
        · rw [if_neg h2] at h; cases h; exact .inr ⟨u, by simp, rfl⟩

/-- A bundle with at most one use has no conflict, and the suggested split point is at a use. -/
theorem compute_conflict {env : MachineEnv} {st : St} {b : Nat} {c : RequirementConflictAt} (h : compute env (st.reqUses b) = .error c) :
    2 ≤ (usesOf st b).length ∧ ∃ u ∈ usesOf st b, c.splitPoint = u.pos := by
  unfold compute at h
  rw [Requirement.computeRanges_flatten, reqUses_flatten] at h
  split at h
  · rename_i c' heq
    cases h
    cases hu : usesOf st b with
    | nil => rw [hu] at heq; cases heq
    | cons u us =>
      rw [hu, List.map_cons, show toReq u = ⟨u.pos, u.op.constraint⟩ from rfl, computeRange] at heq
      dsimp only at heq
      have hm : Requirement.merge .Any (ofConstraint env u.op.constraint) = some (ofConstraint env u.op.constraint) := by
        cases ofConstraint env u.op.constraint <;> rfl
      rw [hm] at heq
      obtain ⟨h1, h2⟩ := computeRange_error us heq
      refine ⟨?_, ?_⟩
      · have := List.length_pos_iff.mpr h1
        rw [List.length_cons]; omega
      · rcases h2 with h2 | ⟨v, hv, h2⟩
        · exact ⟨u, by simp, h2⟩
        · exact ⟨v, by simp [hv], h2⟩
  · cases h

end Regalloc.Ion
