import Verif.Proofs.RecutMin
import Verif.Proofs.Merge

/-
Moving the ranges of a bundle to the spill bundle, and changes that do not concern ranges.
Helper lemmas for C40.
-/
namespace Regalloc.Ion

section
variable {st0 st st' : St} {b s : Nat} {hint : Option PReg}

theorem moveToSpill_facts (hsb : s ≠ b) :
    (∀ j, (moveToSpill st b s).ranges j = if j ∈ (st.bundles b).ranges.map (·.index) then
      { st.ranges j with bundle := some s } else st.ranges j) ∧
    (moveToSpill st b s).bundles b = { st.bundles b with ranges := [] } ∧
    (moveToSpill st b s).bundles s = { st.bundles s with ranges := (st.bundles s).ranges ++ (st.bundles b).ranges } ∧
    (∀ c, c ≠ b → c ≠ s → (moveToSpill st b s).bundles c = st.bundles c) ∧
    (moveToSpill st b s).nRanges = st.nRanges ∧ (moveToSpill st b s).nBundles = st.nBundles ∧
    (moveToSpill st b s).vregs = st.vregs ∧ (moveToSpill st b s).spillsets = st.spillsets ∧
    (moveToSpill st b s).nSpillsets = st.nSpillsets ∧ (moveToSpill st b s).queue = st.queue ∧
    (moveToSpill st b s).spilled = st.spilled := by
  unfold moveToSpill
  dsimp only
  obtain ⟨h1, h2, h3, h4, h5, h6, h7, h8⟩ := linkAll_frame (st.bundles b).ranges s (st.modB b (fun x => { x with ranges := [] }))
  refine ⟨?_, ?_, ?_, ?_, ?_, ?_, ?_, ?_, ?_, ?_, ?_⟩
  · intro j
    show (St.linkAll _ _ _).ranges j = _
    rw [linkAll_ranges]
    have : (∃ e ∈ (st.bundles b).ranges, e.index = j) ↔ j ∈ (st.bundles b).ranges.map (·.index) := List.mem_map.symm
    by_cases hj : j ∈ (st.bundles b).ranges.map (·.index)
    · rw [if_pos hj, if_pos (this.mpr hj)]; rfl
    · rw [if_neg hj, if_neg (fun hx => hj (this.mp hx))]; rfl
  · show upd _ s _ b = _
    rw [upd_ne _ _ (Ne.symm hsb), h3]
    exact upd_same _ _ _
  · show upd _ s _ s = _
    rw [upd_same, h3]
    have : (st.modB b (fun x => { x with ranges := [] })).bundles s = st.bundles s := upd_ne _ _ hsb
    rw [this]
  · intro c hc1 hc2
    show upd _ s _ c = _
    rw [upd_ne _ _ hc2, h3]
    exact upd_ne _ _ hc1
  · exact h7
  · exact h4
  · exact h8
  · exact h1
  · exact h5
  · exact h6
  · exact h2

theorem moveToSpill_recut (h : Shape st0 st) (hb : b < st.nBundles) (hbs : ¬ IsSpill st b)
    (hs : (st.spillsets (st.bundles b).spillset).spillBundle = some s)
    (hany : ∀ e ∈ (st.bundles b).ranges, ∀ u ∈ (st.ranges e.index).uses, u.op.constraint = .Any) (hint : Option PReg) :
    Recut st b hint (moveToSpill st b s) := by
  obtain ⟨hs1, hs2⟩ := h.spillOk _ s hs
  have hsb : s ≠ b := by rintro rfl; exact hbs hs
  obtain ⟨f1, f2, f3, f4, f5, f6, f7, f8, f9, f10, f11⟩ := moveToSpill_facts (st := st) hsb
  generalize moveToSpill st b s = st' at *
  have ht := h.tidy b hb hbs
  have hset : ∀ c, (st'.bundles c).spillset = (st.bundles c).spillset ∧ (st'.bundles c).alloc = (st.bundles c).alloc := by
    intro c
    by_cases h1 : c = b
    · subst h1; rw [f2]; exact ⟨rfl, rfl⟩
    · by_cases h2 : c = s
      · subst h2; rw [f3]; exact ⟨rfl, rfl⟩
      · rw [f4 c h1 h2]; exact ⟨rfl, rfl⟩
  have hsp : ∀ c, IsSpill st' c ↔ IsSpill st c := by
    intro c; unfold IsSpill; rw [f8, (hset c).1]
  have hsps : IsSpill st' s := by rw [hsp]; unfold IsSpill; rw [hs2]; exact hs
  have hown : ∀ w i, Owns st' w i ↔ Owns st w i := by intro w i; unfold Owns; rw [f7]
  have frm : Frm (st.bundles b).spillset hint st st' :=
    ⟨by omega, f9, (by intro t; rw [f8]), (by intro t _; rw [f8]), .inl ⟨by rw [f8], f11⟩,
      (fun c _ => ⟨(hset c).2, (hset c).1⟩), (fun c h1 h2 => by omega), (by rw [f10]; exact fun x hx => .inl hx), (by intro t; rw [f8]; exact Nat.le_refl _)⟩
  have hin : ∀ e ∈ (st.bundles b).ranges, st'.ranges e.index = { st.ranges e.index with bundle := some s } := by
    intro e he
    rw [f1, if_pos (List.mem_map.mpr ⟨e, he, rfl⟩)]
  have hother : ∀ c e, Live st c e → c ≠ b → ∀ x ∈ (st.bundles b).ranges, x.index ≠ e.index := by
    intro c e hl hc x hx hi
    exact hc (h.unique hl ⟨hb, hx⟩ hi.symm).1
  have hcut : ∀ e ∈ (st.bundles b).ranges, Cut st st' b e s e := by
    intro e he
    have n := h.neat b e ⟨hb, he⟩
    refine ⟨⟨by omega, by rw [f3]; exact List.mem_append_right _ he⟩, he, .inr ⟨e, he, rfl⟩, ?_, ?_, ?_⟩
    · refine ⟨by rw [(hset s).1]; exact hs2, Nat.le_refl _, Nat.le_refl _, .inl rfl, fun w => hown w _, ?_, ?_⟩
      · rw [hin e he]; exact fun u hu => hu
      · rw [hin e he]; exact fun _ d hd _ => hd
    · constructor
      case range => rw [hin e he]; exact n.range
      case index => rw [f5]; exact n.index
      case nonempty => exact n.nonempty
      case link => rw [hin e he]
      case owner =>
        obtain ⟨v, hv⟩ := n.owner
        exact ⟨v, fun w => (hown w _).trans (hv w)⟩
      case inside => rw [hin e he]; exact n.inside
      case flag => rw [hin e he]; exact n.flag
      case defStart => rw [hin e he]; exact n.defStart
      case odd => rw [hin e he]; exact n.odd
      case nodup => rw [hin e he]; exact n.nodup
    · left
      refine ⟨hsps, ?_⟩
      rw [hin e he]; exact hany e he
  have hback : ∀ c e, Live st' c e → (c ≠ b ∧ Live st c e) ∨ (c = s ∧ e ∈ (st.bundles b).ranges) := by
    rintro c e ⟨hl1, hl2⟩
    by_cases h1 : c = b
    · subst h1; rw [f2] at hl2; cases hl2
    · by_cases h2 : c = s
      · subst h2
        rw [f3] at hl2
        rcases List.mem_append.mp hl2 with h3 | h3
        · exact .inl ⟨h1, hs1, h3⟩
        · exact .inr ⟨rfl, h3⟩
      · rw [f4 c h1 h2] at hl2
        exact .inl ⟨h1, by omega, hl2⟩
  have hsrc : ∀ e0 c e, Cut st st' b e0 c e → e ∈ (st.bundles b).ranges := by
    intro e0 c e hc
    rcases hback c e hc.live with ⟨h1, h2⟩ | h1
    · rcases hc.index with h3 | ⟨x, h3, h4⟩
      · have := (h.neat c e h2).index; omega
      · exact absurd h4 (hother c e h2 h1 x h3)
    · exact h1.2
  refine ⟨frm, by omega, ?_, ?_, ?_, ?_, ?_, ?_, ?_, ?_, ?_, ?_, ?_⟩
  · intro c e hl hc
    refine ⟨⟨by rw [f6]; exact hl.1, ?_⟩, ?_, fun w => hown w _⟩
    · by_cases h1 : c = s
      · subst h1; rw [f3]; exact List.mem_append_left _ hl.2
      · rw [f4 c hc h1]; exact hl.2
    · rw [f1, if_neg]
      intro hx
      obtain ⟨x, hx1, hx2⟩ := List.mem_map.mp hx
      exact hother c e hl hc x hx1 hx2
  · intro c e hl
    rcases hback c e hl with h1 | ⟨rfl, h1⟩
    · exact .inl h1
    · exact .inr ⟨e, hcut e h1⟩
  · intro c hc hcb hcs
    exact f4 c hcb (fun hx => hcs (by rw [hx]; exact hs))
  · intro e0 he0 p hp
    exact ⟨s, e0, hcut e0 he0, hp⟩
  · intro e0 he0 u hu
    exact ⟨s, e0, hcut e0 he0, by rw [hin e0 he0]; exact hu⟩
  · intro e0 c e e0' c' e' h1 h2 u hu hu'
    have m1 := hsrc _ _ _ h1
    have m2 := hsrc _ _ _ h2
    rw [hin e m1] at hu
    rw [hin e' m2] at hu'
    exact (h.once b e b e' ⟨hb, m1⟩ ⟨hb, m2⟩ u hu u hu' rfl rfl).1
  · intro e0 c e e0' c' e' h1 h2 hi
    refine .inl (tidy_apart ht (hsrc _ _ _ h1) (hsrc _ _ _ h2) ?_)
    rintro rfl; exact hi rfl
  · intro c hc hlt _
    rcases hc with rfl | hc
    · rw [f2]; exact ⟨by simp, List.Pairwise.nil⟩
    · omega
  · refine ⟨(st.bundles b).ranges, ?_, tidy_indices ht (fun e he => (h.neat b e ⟨hb, he⟩).range), ?_⟩
    · unfold spillRanges; rw [f8, hs]; dsimp only; rw [f3]
    · intro e he s' hs'
      rw [f8, hs] at hs'
      cases hs'
      exact ⟨e, hcut e he⟩
  · intro v e he
    rw [f7] at he
    by_cases hx : ∃ x ∈ (st.bundles b).ranges, x.index = e.index
    · obtain ⟨x, h1, h2⟩ := hx
      exact .inr ⟨x, s, x, hcut x h1, h2⟩
    · exact .inl ⟨e, he, rfl, fun x hx1 hx2 => hx ⟨x, hx1, hx2⟩⟩
  · intro h1 v; rw [f7]; exact h1 v

/-- The shape does not depend on the order of the ranges of a spill bundle, nor on
allocations, hints, costs, the queue or the list of spilled bundles. -/
theorem Shape.congr (h : Shape st0 st) (hR : st'.ranges = st.ranges) (hnR : st'.nRanges = st.nRanges)
    (hnB : st'.nBundles = st.nBundles) (hv : st'.vregs = st.vregs)
    (hS : ∀ t, (st'.spillsets t).spillBundle = (st.spillsets t).spillBundle)
    (hB : ∀ c, (st'.bundles c).spillset = (st.bundles c).spillset ∧ (st'.bundles c).minimal = (st.bundles c).minimal ∧
      (∀ e, e ∈ (st'.bundles c).ranges ↔ e ∈ (st.bundles c).ranges))
    (hT : ∀ c < st.nBundles, ¬ IsSpill st c → Tidy (st'.bundles c).ranges)
    (hP : ∀ c < st.nBundles, IsSpill st c → (st'.bundles c).ranges.Pairwise (fun a b => Apart a.range b.range)) : Shape st0 st' := by
  have hlive : ∀ c e, Live st' c e ↔ Live st c e := by
    intro c e; unfold Live; rw [hnB, (hB c).2.2 e]
  have hsp : ∀ c, IsSpill st' c ↔ IsSpill st c := by
    intro c; unfold IsSpill; rw [(hB c).1, hS]
  have hown : ∀ w i, Owns st' w i ↔ Owns st w i := by intro w i; unfold Owns; rw [hv]
  have hsm : ∀ c e, Small st c e → Small st' c e := by
    intro c e hs; unfold Small at *; rw [hsp, (hB c).2.1, hR]; exact hs
  have horg : ∀ c e b0 e0, Origin st0 st c e b0 e0 → Origin st0 st' c e b0 e0 := by
    intro c e b0 e0 ho; exact ho.congr (hB c).1 (by rw [hR]) (fun w => hown w _)
  refine ⟨?_, ?_, ?_, ?_, ?_, ?_, ?_, ?_, ?_, ?_, ?_, ?_⟩
  · intro c e hl
    exact (h.neat c e ((hlive c e).mp hl)).congr (by omega) (by rw [hR]) (fun w => hown w _)
  · intro c e hl
    rcases h.kind c e ((hlive c e).mp hl) with ⟨h1, h2⟩ | ⟨h1, h2⟩
    · exact .inl ⟨(hsp c).mpr h1, by rw [hR]; exact h2⟩
    · exact .inr ⟨fun hx => h1 ((hsp c).mp hx), h2.congr (by rw [hR]) (fun w => hown w _)⟩
  · intro c e hl
    obtain ⟨b0, e0, h1, h2⟩ := h.origin c e ((hlive c e).mp hl)
    exact ⟨b0, e0, h1, horg _ _ _ _ h2⟩
  · intro b0 e0 h0 p hp
    obtain ⟨c, e, h1, h2, h3⟩ := h.cover b0 e0 h0 p hp
    exact ⟨c, e, (hlive c e).mpr h1, horg _ _ _ _ h2, h3⟩
  · intro b0 e0 h0 u hu
    obtain ⟨c, e, h1, h2, h3⟩ := h.uses b0 e0 h0 u hu
    exact ⟨c, e, (hlive c e).mpr h1, horg _ _ _ _ h2, by rw [hR]; exact h3⟩
  · intro c e c' e' h1 h2
    rw [hR]
    exact h.once c e c' e' ((hlive c e).mp h1) ((hlive c' e').mp h2)
  · intro c e c' e' h1 h2 hs hi
    rw [(hB c).1, (hB c').1] at hs
    rcases h.apart c e c' e' ((hlive c e).mp h1) ((hlive c' e').mp h2) hs hi with h3 | h3 | h3
    · exact .inl h3
    · exact .inr (.inl (hsm _ _ h3))
    · exact .inr (.inr (hsm _ _ h3))
  · intro c hc hns
    exact hT c (by omega) (fun hx => hns ((hsp c).mpr hx))
  · intro c hc hns
    exact hP c (by omega) ((hsp c).mp hns)
  · intro t s hs
    rw [hS] at hs
    obtain ⟨h1, h2⟩ := h.spillOk t s hs
    exact ⟨by omega, by rw [(hB s).1]; exact h2⟩
  · intro v e he
    rw [hv] at he
    obtain ⟨c, e', h1, h2⟩ := h.housed v e he
    exact ⟨c, e', (hlive c e').mpr h1, h2⟩
  · rw [hv]; exact h.listed

/-- The same, with all lists of ranges as they were. -/
theorem Shape.congr' (h : Shape st0 st) (hR : st'.ranges = st.ranges) (hnR : st'.nRanges = st.nRanges)
    (hnB : st'.nBundles = st.nBundles) (hv : st'.vregs = st.vregs)
    (hS : ∀ t, (st'.spillsets t).spillBundle = (st.spillsets t).spillBundle)
    (hB : ∀ c, (st'.bundles c).spillset = (st.bundles c).spillset ∧ (st'.bundles c).minimal = (st.bundles c).minimal ∧
      (st'.bundles c).ranges = (st.bundles c).ranges) : Shape st0 st' :=
  h.congr hR hnR hnB hv hS (fun c => ⟨(hB c).1, (hB c).2.1, fun e => by rw [(hB c).2.2]⟩)
    (fun c hc hs => by rw [(hB c).2.2]; exact h.tidy c hc hs) (fun c hc hs => by rw [(hB c).2.2]; exact h.spill c hc hs)

end
end Regalloc.Ion
