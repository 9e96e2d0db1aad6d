import Verif.Proofs.RecutMin
import Verif.Proofs.RecutSpill
import Verif.Props.Split

/-
One split as a step of the allocation loop. Helper lemmas for C40.
-/
namespace Regalloc.Ion

/-- What waits after a bundle was split. -/
structure Requeued (st : St) (b : Nat) (hint : Option PReg) (st' : St) : Prop where
  queue : ∃ q, st'.queue = st.queue ++ q ∧ (q.map (·.1)).Nodup ∧
    ∀ c, c ∈ q.map (·.1) ↔ (c = b ∨ st.nBundles ≤ c) ∧ c < st'.nBundles ∧ ¬ IsSpill st' c ∧ (st'.bundles c).ranges ≠ []
  limit : ∀ c, c = b ∨ st.nBundles ≤ c → c < st'.nBundles → ¬ IsSpill st' c → (st'.bundles c).ranges ≠ [] →
    (st'.bundles c).limit = bundleLimit st' (st'.bundles c).ranges
  few : ∀ c, c = b ∨ st.nBundles ≤ c → c < st'.nBundles → ¬ IsSpill st' c → (st'.bundles c).ranges ≠ [] →
    (st'.bundles c).minimal = true → FewUses st' (st'.bundles c).ranges (st'.bundles c).fixed
  progress : (st.spillsets (st.bundles b).spillset).splits < (st'.spillsets (st.bundles b).spillset).splits ∧
      (st.spillsets (st.bundles b).spillset).splits < 2 ∨
    (st'.bundles b).ranges = [] ∧ ∀ c, st.nBundles ≤ c → c < st'.nBundles → ¬ IsSpill st' c → (st'.bundles c).ranges ≠ [] →
      (st'.bundles c).minimal = true

section
variable {st0 st st' : St} {b at_ : Nat} {hint : Option PReg} {trim : Bool}

/-- Splitting a bundle as the loop does it succeeds and leaves everything in shape. -/
theorem split_step (h : Shape st0 st) (hb : b < st.nBundles) (hbs : ¬ IsSpill st b) (hne : (st.bundles b).ranges ≠ [])
    {first last : Entry} (hf : (st.bundles b).ranges.head? = some first) (hl : (st.bundles b).ranges.getLast? = some last)
    (hat : first.range.fr ≤ at_ ∧ at_ < last.range.to) :
    ∃ st', splitAndRequeue st b at_ hint trim = some st' ∧ Recut st b hint st' ∧ Requeued st b hint st' := by
  have hpre := h.splittable hb hbs hne
  have hdef := h.defFirst hb hbs
  by_cases hmin : (st.spillsets (st.bundles b).spillset).splits ≥ 2 ∨ (last.range.to - 1) / 2 = first.range.fr / 2
  · obtain ⟨st', spill, chunks, h1, h2⟩ := C31_split_dissolves st b at_ hint trim first last hpre hdef hf hl hmin
    obtain ⟨c1, c2, c3, c4, c5, c6, c7, c8, c9⟩ := countSplit_facts st b
    have frm := splitAndRequeue_frm hb h1
    have frm' : Frm ((countSplit st b).bundles b).spillset hint (countSplit st b) st' := by
      rw [c2]
      exact splitAndRequeue_frm_from (by rw [c4]; exact hb) (by rw [c2]) (Frm.refl _ _ _) h1
    have hs' : Shape st0 (countSplit st b) := h.congr' c1 c3 c4 c5 c8 (fun c => by rw [c2]; exact ⟨rfl, rfl, rfl⟩)
    have hbs' : ¬ IsSpill (countSplit st b) b := by
      unfold IsSpill; rw [c8, c2]; exact hbs
    have r := (h2.recut hs' (by rw [c4]; exact hb) hbs' frm').of_count frm
    have hsp : (st'.spillsets (st.bundles b).spillset).spillBundle = some spill := by
      have := h2.isSpill; rw [c2] at this; exact this
    have hbb : (st'.bundles b).ranges = [] := h2.emptied
    have hiff : ∀ c, st.nBundles ≤ c → c < st'.nBundles → (IsSpill st' c ↔ c = spill) := by
      intro c h3 h4
      unfold IsSpill
      rw [(frm.new c h3 h4).2, hsp]
      constructor
      · intro h; exact (Option.some.inj h).symm
      · rintro rfl; rfl
    have hnew : ∀ c, st.nBundles ≤ c → c < st'.nBundles → c ≠ spill →
        (st'.bundles c).minimal = true ∧ FewUses st' (st'.bundles c).ranges (st'.bundles c).fixed := by
      intro c h3 h4 h5
      rcases h2.made c (by rw [c4]; exact h3) h4 with h6 | ⟨k, p, h6, h7, h8⟩
      · exact absurd h6 h5
      · obtain ⟨d, -, -, d3, d4, d5, d6, -, d7⟩ := h2.bundles k p h6 h8
        rw [h7] at d3
        cases d3
        refine ⟨d6, _, d4, ?_⟩
        dsimp only
        rw [h2.ranges k p h6]
        obtain ⟨ps, hps, hp⟩ := List.mem_flatten.mp (List.mem_of_getElem? h6)
        obtain ⟨e, -, he⟩ := forall₂_mem_right h2.replaced hps
        rcases he.kinds p hp with ⟨k1, -⟩ | ⟨-, u, -, k2, k3⟩
        · exact absurd k1 h8
        · rw [k2] at d7 ⊢
          refine .inr ⟨u, rfl, ?_, by rw [d7]; simp⟩
          intro x hx
          obtain ⟨-, -, -, k4, k5⟩ := k3
          unfold Covers at hx
          unfold Needed
          cases hk : u.op.kind with
          | Def => obtain ⟨k6, k7⟩ := k4 hk; simp only [forall_const, reduceCtorEq, false_implies, and_true, true_and]; omega
          | Use => obtain ⟨k6, k7⟩ := k5 hk; simp only [forall_const, reduceCtorEq, false_implies, and_true, true_and]; omega
    refine ⟨st', h1, r, ?_, ?_, ?_, .inr ⟨hbb, ?_⟩⟩
    · obtain ⟨q, q1, q2, q3⟩ := h2.queued
      refine ⟨q, by rw [q1, c6], q2, fun c => ?_⟩
      rw [q3, c4]
      constructor
      · intro ⟨h3, h4, h5⟩
        refine ⟨.inr h3, h4, fun hx => h5 ((hiff c h3 h4).mp hx), ?_⟩
        obtain ⟨e, he, -⟩ := (hnew c h3 h4 h5).2
        rw [he]; simp
      · intro ⟨h3, h4, h5, h6⟩
        rcases h3 with rfl | h3
        · exact absurd hbb h6
        · exact ⟨h3, h4, fun hx => h5 ((hiff c h3 h4).mpr hx)⟩
    · intro c h3 h4 h5 h6
      rcases h3 with rfl | h3
      · exact absurd hbb h6
      · exact h2.limits c (by rw [c4]; exact h3) h4 (fun hx => h5 ((hiff c h3 h4).mpr hx)) h6
    · intro c h3 h4 h5 h6 _
      rcases h3 with rfl | h3
      · exact absurd hbb h6
      · exact (hnew c h3 h4 (fun hx => h5 ((hiff c h3 h4).mpr hx))).2
    · intro c h3 h4 h5 _
      exact (hnew c h3 h4 (fun hx => h5 ((hiff c h3 h4).mpr hx))).1
  · rw [not_or] at hmin
    obtain ⟨st', p, moved, h1, h2, -, -, -, h3⟩ := C31_split_halves st b at_ hint trim first last hpre hf hl (by omega) hmin.2 hat
    have frm := splitAndRequeue_frm hb h1
    have r := h2.recut h hb hbs frm
    have hbs' : ¬ IsSpill st' b := fun hx => hbs ((frm.isSpill_old hb).mp hx)
    have hnn : st.nBundles < st'.nBundles := h2.new.2.1
    have hns : ¬ IsSpill st' st.nBundles := by
      intro hx
      unfold IsSpill at hx
      rw [h2.sets.2] at hx
      exact (h2.new.2.2 _ hx).2 rfl
    have hcase : ∀ c, (c = b ∨ st.nBundles ≤ c) → c < st'.nBundles → ¬ IsSpill st' c → c = b ∨ c = st.nBundles := by
      intro c h4 h5 h6
      rcases h4 with rfl | h4
      · exact .inl rfl
      · rcases h2.made c h4 h5 with h7 | h7
        · exact .inr h7
        · exact absurd (by unfold IsSpill; rw [(frm.new c h4 h5).2]; exact h7) h6
    refine ⟨st', h1, r, ?_, ?_, ?_, .inl ⟨splitAndRequeue_counts hb h1 (by omega), by omega⟩⟩
    · refine ⟨_, by rw [h3]; exact List.append_assoc _ _ _, ?_, ?_⟩
      · split <;> split <;> simp
        omega
      · intro c
        constructor
        · intro hc
          rw [List.map_append, List.mem_append] at hc
          rcases hc with hc | hc
          · split at hc
            · simp at hc
            · rename_i hx
              simp at hc; subst hc
              exact ⟨.inl rfl, by have := frm.nB; omega, hbs', hx⟩
          · split at hc
            · simp at hc
            · rename_i hx
              simp at hc; subst hc
              exact ⟨.inr (Nat.le_refl _), hnn, hns, hx⟩
        · intro ⟨h4, h5, h6, h7⟩
          rw [List.map_append, List.mem_append]
          rcases hcase c h4 h5 h6 with rfl | rfl
          · left; rw [if_neg h7]; simp
          · right; rw [if_neg h7]; simp
    · intro c h4 h5 h6 h7
      exact h2.limits c (hcase c h4 h5 h6) h7
    · intro c h4 h5 h6 h7 h8
      exact h2.minimal c (hcase c h4 h5 h6) h7 h8

end
end Regalloc.Ion
