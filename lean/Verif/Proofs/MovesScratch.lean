import Verif.Proofs.MovesResolve

namespace Regalloc.Moves

variable {T : Type} {V : Type u} [Inhabited T]

/-- Expansion with a free scratch register. -/
theorem expand_free (e : ScratchEnv) (sr : Allocation) (L : List (Move T)) :
    ∀ (d s : Bool), ¬ Mentions L sr →
      ∃ out, expand e sr none L d s = some out ∧
        (∀ (σ τ : Store V), (∀ l, l ≠ sr → τ l = σ l) → ∀ l, l ≠ sr → exec τ out l = exec σ L l) ∧
        (e.isStack sr = false → ∀ m ∈ out, e.isS2S m = false) := by
  induction L with
  | nil =>
    intro d s _
    exact ⟨[], rfl, fun σ τ h => h, by simp⟩
  | cons m L ih =>
    intro d s hm
    have hm' : ¬ Mentions L sr := by
      rintro ⟨x, hx, h⟩; exact hm ⟨x, List.mem_cons_of_mem _ hx, h⟩
    have hsrc : m.src ≠ sr := fun h => hm ⟨m, by simp, .inl h⟩
    have hdst : m.dst ≠ sr := fun h => hm ⟨m, by simp, .inr h⟩
    unfold expand
    by_cases hs2s : e.isS2S m = true
    · obtain ⟨out, h1, h2, h3⟩ := ih true s hm'
      simp only [hs2s, if_true, h1]
      refine ⟨_, rfl, ?_, ?_⟩
      · intro σ τ h l hl
        simp only [List.nil_append, exec_cons]
        refine h2 _ _ ?_ l hl
        intro l hl
        simp only [step]
        by_cases e1 : l = m.dst
        · simp [e1, h _ hsrc]
        · simp [e1, hl, h _ hl]
      · intro hst x hx
        simp only [List.nil_append, List.mem_cons] at hx
        rcases hx with rfl | rfl | hx
        · simp [ScratchEnv.isS2S, hst]
        · simp [ScratchEnv.isS2S, hst]
        · exact h3 hst x hx
    · obtain ⟨out, h1, h2, h3⟩ := ih d s hm'
      simp only [hs2s, Bool.false_eq_true, if_false, hsrc, hdst, false_and, h1]
      refine ⟨_, rfl, ?_, ?_⟩
      · intro σ τ h l hl
        simp only [List.nil_append, exec_cons]
        refine h2 _ _ ?_ l hl
        intro l hl
        simp only [step]
        by_cases e1 : l = m.dst
        · simp [e1, h _ hsrc]
        · simp [e1, h _ hl]
      · intro hst x hx
        simp only [List.nil_append, List.mem_cons] at hx
        rcases hx with rfl | hx
        · simpa using hs2s
        · exact h3 hst x hx

/-- Relation between the plain store `σ` and the store `τ` of the expanded
sequence, with a borrowed register `sr` saved in `sv`. -/
structure Sim (sr sv : Allocation) (σ τ : Store V) (d s : Bool) : Prop where
  off : ∀ l, l ≠ sr → l ≠ sv → τ l = σ l
  excl : d = true → s = false
  reg : d = false → τ sr = σ sr
  save : s = false → τ sv = σ sr

theorem expand_borrowed (e : ScratchEnv) {sr sv : Allocation} (hsr : e.isStack sr = false)
    (hsv : e.isStack sv = true) (L : List (Move T)) :
    ∀ (d s : Bool), ¬ Mentions L sv → (d = true → s = false) →
      ∃ out, expand e sr (some sv) L d s = some out ∧
        (∀ (σ τ : Store V), Sim sr sv σ τ d s → ∀ l, l ≠ sv → exec τ out l = exec σ L l) ∧
        (∀ m ∈ out, e.isS2S m = false) := by
  have hne : sr ≠ sv := by intro h; rw [h, hsv] at hsr; simp at hsr
  have hne' : sv ≠ sr := Ne.symm hne
  induction L with
  | nil =>
    intro d s _ _
    cases d with
    | false =>
      refine ⟨[], rfl, ?_, by simp⟩
      intro σ τ h l hl
      by_cases hl' : l = sr
      · subst hl'; exact h.reg rfl
      · exact h.off l hl' hl
    | true =>
      refine ⟨[⟨sv, sr, default⟩], rfl, ?_, ?_⟩
      · intro σ τ h l hl
        simp only [exec_cons, exec_nil, step]
        by_cases hl' : l = sr
        · subst hl'; simp [h.save (h.excl rfl)]
        · simp [hl', h.off l hl' hl]
      · intro m hm
        simp only [List.mem_singleton] at hm
        subst hm
        simp [ScratchEnv.isS2S, hsr]
  | cons m L ih =>
    intro d s hm hx
    have hm' : ¬ Mentions L sv := by
      rintro ⟨x, hx, h⟩; exact hm ⟨x, List.mem_cons_of_mem _ hx, h⟩
    have hsrc : m.src ≠ sv := fun h => hm ⟨m, by simp, .inl h⟩
    have hdst : m.dst ≠ sv := fun h => hm ⟨m, by simp, .inr h⟩
    unfold expand
    by_cases hs2s : e.isS2S m = true
    · have hst : m.src ≠ sr ∧ m.dst ≠ sr := by
        simp only [ScratchEnv.isS2S, Bool.and_eq_true] at hs2s
        constructor
        · intro h; rw [h, hsr] at hs2s; simp at hs2s
        · intro h; rw [h, hsr] at hs2s; simp at hs2s
      obtain ⟨hsrc', hdst'⟩ := hst
      cases s with
      | true =>
        obtain ⟨out, h1, h2, h3⟩ := ih true false hm' (fun _ => rfl)
        simp only [hs2s, if_true, h1]
        refine ⟨_, rfl, ?_, ?_⟩
        · intro σ τ h l hl
          have hd : d = false := by
            cases d with
            | false => rfl
            | true => exact absurd (hx rfl) (by simp)
          simp only [List.cons_append, List.nil_append, exec_cons]
          refine h2 _ _ ?_ l hl
          constructor
          · intro l h1 h2
            simp only [step]
            by_cases e1 : l = m.dst
            · simp [e1, hsrc, h.off _ hsrc' hsrc]
            · simp [e1, h1, h2, h.off _ h1 h2]
          · exact fun _ => rfl
          · intro h; simp at h
          · intro _
            simp [step, hdst.symm, hdst'.symm, hne', h.reg hd]
        · intro x hx
          simp only [List.cons_append, List.nil_append, List.mem_cons] at hx
          rcases hx with rfl | rfl | rfl | hx
          · simp [ScratchEnv.isS2S, hsr]
          · simp [ScratchEnv.isS2S, hsr]
          · simp [ScratchEnv.isS2S, hsr]
          · exact h3 x hx
      | false =>
        obtain ⟨out, h1, h2, h3⟩ := ih true false hm' (fun _ => rfl)
        simp only [hs2s, if_true, Bool.false_eq_true, if_false, h1]
        refine ⟨_, rfl, ?_, ?_⟩
        · intro σ τ h l hl
          simp only [List.nil_append, exec_cons]
          refine h2 _ _ ?_ l hl
          constructor
          · intro l h1 h2
            simp only [step]
            by_cases e1 : l = m.dst
            · simp [e1, h.off _ hsrc' hsrc]
            · simp [e1, h1, h.off _ h1 h2]
          · exact fun _ => rfl
          · intro h; simp at h
          · intro _
            simp [step, hdst.symm, hdst'.symm, hne', h.save rfl]
        · intro x hx
          simp only [List.nil_append, List.mem_cons] at hx
          rcases hx with rfl | rfl | hx
          · simp [ScratchEnv.isS2S, hsr]
          · simp [ScratchEnv.isS2S, hsr]
          · exact h3 x hx
    · -- one step of an ordinary move, from a state where a read of `sr` is good
      have main : ∀ (d : Bool), (d = true → s = false) → (d = true → m.src ≠ sr) →
          ∃ out, expand e sr (some sv) L (if m.dst = sr then (false, true) else (d, s)).1
              (if m.dst = sr then (false, true) else (d, s)).2 = some out ∧
            (∀ (σ τ : Store V), Sim sr sv σ τ d s → ∀ l, l ≠ sv →
              exec τ (m :: out) l = exec σ (m :: L) l) ∧
            (∀ x ∈ m :: out, e.isS2S x = false) := by
        intro d hx hread
        have hval : ∀ (σ τ : Store V), Sim sr sv σ τ d s → τ m.src = σ m.src := by
          intro σ τ h
          by_cases e1 : m.src = sr
          · cases d with
            | true => exact absurd e1 (hread rfl)
            | false => rw [e1]; exact h.reg rfl
          · exact h.off _ e1 hsrc
        by_cases hd : m.dst = sr
        · simp only [hd, if_true]
          obtain ⟨out, h1, h2, h3⟩ := ih false true hm' (by simp)
          refine ⟨out, h1, ?_, ?_⟩
          · intro σ τ h l hl
            simp only [exec_cons]
            refine h2 _ _ ?_ l hl
            constructor
            · intro l h1 h2
              simp [step, hd, h1, h.off _ h1 h2]
            · intro h; simp at h
            · intro _; simp [step, hd, hval σ τ h]
            · intro h; simp at h
          · intro x hx
            rcases List.mem_cons.mp hx with rfl | hx
            · simpa using hs2s
            · exact h3 x hx
        · simp only [hd, if_false]
          obtain ⟨out, h1, h2, h3⟩ := ih d s hm' hx
          refine ⟨out, h1, ?_, ?_⟩
          · intro σ τ h l hl
            simp only [exec_cons]
            refine h2 _ _ ?_ l hl
            have hd' : sr ≠ m.dst := fun h => hd h.symm
            have hdst' : sv ≠ m.dst := fun h => hdst h.symm
            constructor
            · intro l h1 h2
              simp only [step]
              by_cases e1 : l = m.dst
              · simp [e1, hval σ τ h]
              · simp [e1, h.off _ h1 h2]
            · exact hx
            · intro h'; simp [step, hd', h.reg h']
            · intro h'; simp [step, hd', hdst', h.save h']
          · intro x hx
            rcases List.mem_cons.mp hx with rfl | hx
            · simpa using hs2s
            · exact h3 x hx
      simp only [hs2s, Bool.false_eq_true, if_false]
      by_cases hr : m.src = sr ∧ d = true
      · obtain ⟨out, h1, h2, h3⟩ := main false (by simp) (by simp)
        simp only [hr, and_self, if_true]
        simp only [h1]
        refine ⟨_, rfl, ?_, ?_⟩
        · intro σ τ h l hl
          simp only [List.cons_append, List.nil_append]
          rw [exec_cons]
          refine h2 σ _ ?_ l hl
          have hs := hx hr.2
          constructor
          · intro l h1 h2
            simp [step, h1, h.off _ h1 h2]
          · intro h; simp at h
          · intro _; simp [step, h.save hs]
          · intro _; simp [step, hne', h.save hs]
        · intro x hx
          simp only [List.cons_append, List.nil_append, List.mem_cons] at hx
          rcases hx with rfl | hx
          · simp [ScratchEnv.isS2S, hsr]
          · exact h3 x (List.mem_cons.mpr hx)
      · have hread : d = true → m.src ≠ sr := fun hd h => hr ⟨h, hd⟩
        obtain ⟨out, h1, h2, h3⟩ := main d hx hread
        simp only [hr, if_false]
        simp only [h1]
        refine ⟨_, rfl, ?_, ?_⟩
        · intro σ τ h l hl
          exact h2 σ τ h l hl
        · exact h3

end Regalloc.Moves
