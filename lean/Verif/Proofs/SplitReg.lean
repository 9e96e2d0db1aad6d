import Verif.Proofs.SplitMin

/-
Helper lemmas for C31: spill bundles are always registered.
-/
namespace Regalloc.Ion

theorem bindSome {α β : Type} {x : Option α} {f : α → Option β} {b : β} :
    (x >>= f) = some b ↔ ∃ a, x = some a ∧ f a = some b := Option.bind_eq_some_iff

theorem Registered.congr {st st' : St} (h : Registered st) (h1 : st'.spillsets = st.spillsets)
    (h2 : st'.spilled = st.spilled) : Registered st' := by
  unfold Registered; rw [h1, h2]; exact h

theorem Registered.spillBundle {st : St} (h : Registered st) (b : Nat) : Registered (spillBundle st b).1 := by
  unfold Ion.spillBundle
  dsimp only
  cases hs : (st.spillsets (st.bundles b).spillset).spillBundle with
  | some s => exact h
  | none =>
    intro ss s hss
    dsimp only [St.modS] at hss ⊢
    rw [List.mem_append, List.mem_singleton]
    by_cases e : ss = (st.bundles b).spillset
    · subst e; rw [upd_same] at hss; cases hss; exact Or.inr rfl
    · rw [upd_ne _ _ e] at hss; exact Or.inl (h ss s hss)

theorem Registered.count {st : St} (h : Registered st) (b : Nat) : Registered (countSplit st b) := by
  unfold countSplit
  split
  · exact h
  · intro ss s hss
    dsimp only [St.modS] at hss ⊢
    by_cases e : ss = (st.bundles b).spillset
    · subst e; rw [upd_same] at hss; exact h _ _ hss
    · rw [upd_ne _ _ e] at hss; exact h ss s hss

theorem Registered.pushVreg {st st' : St} {v : Option Nat} {e : Entry} (h : Registered st)
    (hs : st.pushVreg v e = some st') : Registered st' := by
  unfold St.pushVreg at hs
  cases v with
  | none => cases hs
  | some v => cases hs; exact h.congr rfl rfl

theorem Registered.recompute {st st' : St} {b : Nat} (h : Registered st)
    (hs : recomputeBundle st b = some st') : Registered st' := by
  unfold recomputeBundle at hs
  cases hr : (st.bundles b).ranges with
  | nil => rw [hr] at hs; cases hs
  | cons e es =>
    rw [hr] at hs
    cases Option.some.inj hs
    exact h.congr rfl rfl

theorem Registered.requeue {st st' : St} {b : Nat} {hint : Option PReg} (h : Registered st)
    (hs : requeue st b hint = some st') : Registered st' := by
  unfold Ion.requeue at hs
  split at hs
  · cases hr : recomputeBundle st b with
    | none => rw [hr] at hs; cases hs
    | some st1 => rw [hr] at hs; cases hs; exact (h.recompute hr).congr rfl rfl
  · cases hs; exact h

theorem Registered.recomputeRange {st : St} {r : Nat} (h : Registered st) : Registered (recomputeRange st r) := by
  unfold Ion.recomputeRange
  split
  · split
    · exact h.congr rfl rfl
    · exact h
  · exact h

theorem Registered.foldlM {α : Type} {f : St → α → Option St} (hf : ∀ st a st', Registered st → f st a = some st' → Registered st')
    (l : List α) : ∀ {st st' : St}, Registered st → l.foldlM f st = some st' → Registered st' := by
  induction l with
  | nil => intro st st' h hs; cases hs; exact h
  | cons a l ih =>
    intro st st' h hs
    rw [List.foldlM_cons] at hs
    cases h1 : f st a with
    | none => rw [h1] at hs; cases hs
    | some st1 => rw [h1] at hs; exact ih (hf _ _ _ h h1) hs

theorem Registered.minUses {spillset : Nat} {vreg : Option Nat} (us : List Use) :
    ∀ {x : MinSt × RKey × Bool}, Registered x.1.st → Registered (minUses spillset vreg us x).1.st := by
  induction us with
  | nil => intro x h; exact h
  | cons u us ih =>
    intro ⟨m, r, d⟩ h
    apply ih
    unfold minUse
    dsimp only
    split
    · exact h
    · exact h.congr rfl rfl

theorem Registered.minEntry {spillset spill : Nat} {m m' : MinSt} {e : Entry} (h : Registered m.st)
    (hs : minEntry spillset spill m e = some m') : Registered m'.st := by
  unfold Ion.minEntry at hs
  dsimp only at hs
  have h1 := Registered.minUses (spillset := spillset) (vreg := (m.st.ranges e.index).vreg) (m.st.ranges e.index).uses
    (x := ({ m with st := m.st.modR e.index (fun r => { r with uses := [] }) }, e.range, false)) (h.congr rfl rfl)
  generalize Ion.minUses spillset (m.st.ranges e.index).vreg (m.st.ranges e.index).uses
    ({ m with st := m.st.modR e.index (fun r => { r with uses := [] }) }, e.range, false) = x at *
  obtain ⟨m1, r, d⟩ := x
  dsimp only at *
  split at hs
  · split at hs
    · cases hs; exact h1
    · cases hs
  · cases hs; exact h1.congr rfl rfl

theorem Registered.minEntries {spillset spill : Nat} (l : List Entry) :
    ∀ {m m' : MinSt}, Registered m.st → l.foldlM (Ion.minEntry spillset spill) m = some m' → Registered m'.st := by
  induction l with
  | nil => intro st st' h hs; cases hs; exact h
  | cons a l ih =>
    intro st st' h hs
    rw [List.foldlM_cons] at hs
    cases h1 : Ion.minEntry spillset spill st a with
    | none => rw [h1] at hs; cases hs
    | some st1 => rw [h1] at hs; exact ih (h.minEntry h1) hs

theorem Registered.splitMinimal {st st' : St} {b : Nat} {hint : Option PReg} (h : Registered st)
    (hs : splitMinimal st b hint = some st') : Registered st' := by
  unfold Ion.splitMinimal at hs
  dsimp only at hs
  have h0 := h.spillBundle b
  generalize Ion.spillBundle st b = x at *
  obtain ⟨st1, spill⟩ := x
  dsimp only at *
  obtain ⟨m, hm, hs⟩ := bindSome.mp hs
  obtain ⟨st2, h2, hs⟩ := bindSome.mp hs
  obtain ⟨st3, h3, hs⟩ := bindSome.mp hs
  refine Registered.foldlM (fun _ _ _ h => h.requeue) _ (Registered.foldlM ?_ _ (Registered.foldlM ?_ _
    (Registered.minEntries _ ?_ hm) h2) h3) hs
  · intro st q st' h hs; exact h.pushVreg hs
  · intro st v st' h hs
    unfold dropOld at hs
    cases v with
    | none => cases hs
    | some v => cases hs; exact h.congr rfl rfl
  · exact h0.congr rfl rfl

theorem linkAll_spill (l : List Entry) (b : Nat) : ∀ st : St,
    (st.linkAll l b).spillsets = st.spillsets ∧ (st.linkAll l b).spilled = st.spilled := by
  intro st
  unfold St.linkAll
  induction l generalizing st with
  | nil => exact ⟨rfl, rfl⟩
  | cons e l ih => rw [List.foldl_cons]; exact ih _

theorem Registered.divide {st st' : St} {b nb : Nat} {l : Located} (h : Registered st)
    (hs : divide st b l = some (st', nb)) : Registered st' := by
  unfold Ion.divide at hs
  dsimp only at hs
  split at hs
  · cases hs
  · split at hs
    · obtain ⟨⟨st2, e2⟩, h2, hs⟩ := bindSome.mp hs
      obtain ⟨la, -, hs⟩ := bindSome.mp hs
      cases hs
      have h4 : Registered st2 := by
        unfold cutRange at h2
        dsimp only at h2
        obtain ⟨st3, h3, h2⟩ := bindSome.mp h2
        cases h2
        refine Registered.pushVreg ?_ h3
        refine Registered.congr (Registered.recomputeRange (Registered.recomputeRange ?_)) rfl rfl
        exact h.congr rfl rfl
      refine Registered.congr h4 ?_ ?_
      · exact (linkAll_spill _ _ _).1
      · exact (linkAll_spill _ _ _).2
    · cases hs
      refine Registered.congr h ?_ ?_
      · exact (linkAll_spill _ _ _).1
      · exact (linkAll_spill _ _ _).2

theorem Registered.trimTail {b : Nat} (n : Nat) : ∀ {st st' : St}, Registered st →
    trimTail b n st = some st' → Registered st' := by
  induction n with
  | zero => intro st st' h hs; cases hs; exact h
  | succ n ih =>
    intro st st' h hs
    unfold Ion.trimTail at hs
    split at hs
    · cases hs; exact h
    · have h0 := h.spillBundle b
      split at hs
      · refine ih ?_ hs; exact h0.congr rfl rfl
      · dsimp only at hs
        split at hs
        · refine Registered.pushVreg ?_ hs; exact h0.congr rfl rfl
        · cases hs; exact h

theorem Registered.trimHead {b : Nat} (n : Nat) : ∀ {st st' : St}, Registered st →
    trimHead b n st = some st' → Registered st' := by
  induction n with
  | zero => intro st st' h hs; cases hs; exact h
  | succ n ih =>
    intro st st' h hs
    unfold Ion.trimHead at hs
    split at hs
    · cases hs; exact h
    · split at hs
      · cases hs; exact h
      · have h0 := h.spillBundle b
        split at hs
        · refine ih ?_ hs; exact h0.congr rfl rfl
        · dsimp only at hs
          split at hs
          · refine Registered.pushVreg ?_ hs; exact h0.congr rfl rfl
          · cases hs; exact h

end Regalloc.Ion
