import Verif.Proofs.Merge
import Verif.Spec.Merge

/-
C33: merging bundles.
-/
namespace Regalloc.Ion

theorem mergeBundles_cases (env : MachineEnv) (st : St) (a b : Nat) (hne : a ≠ b) :
    mergeBundles env st a b = (false, st) ∨
    (let bs := st.bundles a
     let bd := st.bundles b
     (st.spillsets bs.spillset).cls = (st.spillsets bd.spillset).cls ∧ bs.alloc = none ∧ bd.alloc = none ∧
     scan bs.fixedDef bd.fixedDef 200 bs.ranges bd.ranges = true ∧
     ¬ (((bs.stack || bs.fixed || bs.limit.isSome || bd.stack || bd.fixed || bd.limit.isSome) &&
        (Requirement.mergeBundles env (st.reqUses a) (st.reqUses b)).isNone) = true) ∧
     ((bs.ranges = [] ∧ mergeBundles env st a b = (true, st)) ∨
      (bs.ranges ≠ [] ∧ bd.ranges = [] ∧ mergeBundles env st a b = (true, commitMove st a b)) ∨
      (bs.ranges ≠ [] ∧ bd.ranges ≠ [] ∧ mergeBundles env st a b = (true, commitMerge st a b)))) := by
  unfold mergeBundles
  rw [if_neg hne]
  dsimp only
  by_cases h1 : (st.spillsets (st.bundles a).spillset).cls ≠ (st.spillsets (st.bundles b).spillset).cls
  · rw [if_pos h1]; exact .inl rfl
  rw [if_neg h1]
  by_cases h2 : ((st.bundles a).alloc.isSome || (st.bundles b).alloc.isSome) = true
  · rw [if_pos h2]; exact .inl rfl
  rw [if_neg h2]
  by_cases h3 : scan (st.bundles a).fixedDef (st.bundles b).fixedDef 200 (st.bundles a).ranges (st.bundles b).ranges = false
  · rw [if_pos h3]; exact .inl rfl
  rw [if_neg h3]
  by_cases h4 : ((((st.bundles a).stack || (st.bundles a).fixed || (st.bundles a).limit.isSome || (st.bundles b).stack ||
      (st.bundles b).fixed || (st.bundles b).limit.isSome) &&
        (Requirement.mergeBundles env (st.reqUses a) (st.reqUses b)).isNone) = true)
  · rw [if_pos h4]; exact .inl rfl
  rw [if_neg h4]
  right
  refine ⟨Classical.not_not.mp h1, ?_, ?_, by simpa using h3, h4, ?_⟩
  · cases hh : (st.bundles a).alloc with
    | none => rfl
    | some x => exact absurd (by rw [hh]; rfl) h2
  · cases hh : (st.bundles b).alloc with
    | none => rfl
    | some x => exact absurd (by rw [hh]; simp) h2
  by_cases h5 : (st.bundles a).ranges = []
  · left; rw [h5]; exact ⟨rfl, by simp⟩
  right
  have h5' : (st.bundles a).ranges.isEmpty = false := by simpa using h5
  by_cases h6 : (st.bundles b).ranges = []
  · left; refine ⟨h5, h6, ?_⟩
    rw [h5', h6]; rfl
  · right; refine ⟨h5, h6, ?_⟩
    have h6' : (st.bundles b).ranges.isEmpty = false := by simpa using h6
    rw [h5', h6']; rfl

theorem commitMerge_bundles (st : St) (a b : Nat) (hne' : b ≠ a) :
    (commitMerge st a b).bundles = upd (upd st.bundles a { st.bundles a with ranges := [] }) b
      (mergeProps (st.bundles a)
        { st.bundles b with ranges := mergedRanges (st.bundles a).ranges (st.bundles b).ranges }) := by
  unfold commitMerge
  dsimp only
  split <;> funext c <;> by_cases hc : c = b <;> simp [St.modB, St.modS, upd, hne', hc]

theorem commitMerge_ranges (st : St) (a b : Nat) :
    (commitMerge st a b).ranges = (st.linkAll (st.bundles a).ranges b).ranges := by
  unfold commitMerge
  dsimp only
  split <;> rfl

theorem commitMerge_span (st : St) (a b : Nat) :
    ((commitMerge st a b).spillsets (st.bundles b).spillset).range =
      if (st.bundles a).spillset ≠ (st.bundles b).spillset then
        (st.spillsets (st.bundles b).spillset).range.join (st.spillsets (st.bundles a).spillset).range
      else (st.spillsets (st.bundles b).spillset).range := by
  unfold commitMerge
  dsimp only
  split
  · simp [St.modB, St.modS]
  · simp [St.modB]

/-- C33. A refused merge changes nothing; merging a bundle with itself succeeds and
changes nothing. -/
theorem C33_refused_unchanged (env : MachineEnv) (st : St) (a b : Nat) :
    ((mergeBundles env st a b).1 = false → (mergeBundles env st a b).2 = st) ∧
    mergeBundles env st a a = (true, st) := by
  refine ⟨?_, by simp [mergeBundles]⟩
  by_cases hne : a = b
  · subst hne; simp [mergeBundles]
  intro h
  rcases mergeBundles_cases env st a b hne with h1 | ⟨_, _, _, _, _, h1 | h1 | h1⟩
  · rw [h1]
  · rw [h1.2] at h; cases h
  · rw [h1.2.2] at h; cases h
  · rw [h1.2.2] at h; cases h

theorem widened_fr (b : Bundle) (r : RKey) : (widened b r).fr = adjStart b.fixedDef r := by
  unfold widened adjStart ptBefore; split <;> rfl
theorem widened_to (b : Bundle) (r : RKey) : (widened b r).to = r.to := by
  unfold widened; split <;> rfl

theorem pairOk_apart (st : St) (a b : Nat) (f t : Entry)
    (h : PairOk (st.bundles a).fixedDef (st.bundles b).fixedDef f t) :
    Apart (widened (st.bundles a) f.range) (widened (st.bundles b) t.range) := by
  rintro p ⟨⟨h1, h2⟩, h3, h4⟩
  unfold widened at *
  unfold PairOk adjStart ptBefore at h
  split at h1 <;> split at h3 <;> simp_all <;> omega

/-- C33. What a successful merge implies about its arguments: one class, neither bundle
allocated, no two ranges overlapping (also counting the first half of an instruction that
defines a fixed register), and, as far as the cached flags announce the constraints, one
location that satisfies the uses of both. -/
theorem C33_success_implies (env : MachineEnv) (st : St) (a b : Nat) (hne : a ≠ b)
    (ha : Tidy (st.bundles a).ranges) (hb : Tidy (st.bundles b).ranges)
    (h : (mergeBundles env st a b).1 = true) :
    (st.spillsets (st.bundles a).spillset).cls = (st.spillsets (st.bundles b).spillset).cls ∧
    (st.bundles a).alloc = none ∧ (st.bundles b).alloc = none ∧
    (∀ e ∈ (st.bundles a).ranges, ∀ e' ∈ (st.bundles b).ranges,
      Apart e.range e'.range ∧ Apart (widened (st.bundles a) e.range) (widened (st.bundles b) e'.range)) ∧
    (FlagsSound (st.bundles a) (usesOf st a) → FlagsSound (st.bundles b) (usesOf st b) →
      NoZeroLimit (usesOf st a ++ usesOf st b) → Satisfiable env (usesOf st a ++ usesOf st b)) := by
  rcases mergeBundles_cases env st a b hne with h1 | ⟨h1, h2, h3, h4, h5, -⟩
  · rw [h1] at h; cases h
  refine ⟨h1, h2, h3, ?_, fun fa fb hz => sat_of_check env st a b h5 fa fb hz⟩
  intro e he e' he'
  have hp := scan_sound _ _ _ _ _ ha hb h4 e he e' he'
  refine ⟨?_, pairOk_apart st a b e e' hp⟩
  rintro p ⟨⟨q1, q2⟩, q3, q4⟩
  have := adjStart_le (st.bundles a).fixedDef e.range
  have := adjStart_le (st.bundles b).fixedDef e'.range
  unfold PairOk at hp
  omega

/-- C33. The outcome of a successful merge: the ranges of both, in order and disjoint, in
the target; the source emptied; nothing else changed. -/
theorem C33_success_result (env : MachineEnv) (st : St) (a b : Nat) (hne : a ≠ b)
    (ha : Tidy (st.bundles a).ranges) (hb : Tidy (st.bundles b).ranges)
    (h : (mergeBundles env st a b).1 = true) : Merged st (mergeBundles env st a b).2 a b := by
  rcases mergeBundles_cases env st a b hne with h1 | ⟨-, -, -, h4, -, h5⟩
  · rw [h1] at h; cases h
  have hne' : b ≠ a := fun h => hne h.symm
  have htidy : Tidy (mergedRanges (st.bundles a).ranges (st.bundles b).ranges) := by
    refine mergedRanges_tidy _ _ ha hb ?_
    intro f hf t ht
    have hp := scan_sound _ _ _ _ _ ha hb h4 f hf t ht
    have := adjStart_le (st.bundles a).fixedDef f.range
    have := adjStart_le (st.bundles b).fixedDef t.range
    unfold PairOk at hp
    omega
  rcases h5 with ⟨h5, h6⟩ | ⟨h5, h6, h7⟩ | ⟨h5, h6, h7⟩
  · rw [h6]
    constructor <;> simp_all
  · rw [h7]
    constructor
    case links => intro e he; simp only [commitMove, St.modB, linkAll_ranges]; rw [if_pos ⟨e, he, rfl⟩]
    case otherLinks =>
      intro j hj; simp only [commitMove, St.modB, linkAll_ranges]; rw [if_neg]; rintro ⟨e, he, h⟩; exact hj e he h
    case onlyLinks => intro j; simp only [commitMove, St.modB, linkAll_ranges]; split <;> rfl
    all_goals simp_all [commitMove, St.modB, upd, mergeProps_ranges]
  · rw [h7]
    have hB := commitMerge_bundles st a b hne'
    have hR := commitMerge_ranges st a b
    constructor
    case links => intro e he; simp only [hR, linkAll_ranges]; rw [if_pos ⟨e, he, rfl⟩]
    case otherLinks =>
      intro j hj; simp only [hR, linkAll_ranges]; rw [if_neg]; rintro ⟨e, he, h⟩; exact hj e he h
    case onlyLinks => intro j; simp only [hR, linkAll_ranges]; split <;> rfl
    case spillsets =>
      intro s
      unfold commitMerge
      dsimp only
      by_cases hs : (st.bundles a).spillset ≠ (st.bundles b).spillset
      · simp only [if_pos hs]
        by_cases h : s = (st.bundles b).spillset
        · subst h; simp [St.modB, St.modS]
        · simp [St.modB, St.modS, upd, h]
      · simp only [if_neg hs]
        simp [St.modB]
    case rest =>
      unfold commitMerge
      dsimp only
      by_cases hs : (st.bundles a).spillset ≠ (st.bundles b).spillset
      · simp only [if_pos hs]; simp [St.modB, St.modS]
      · simp only [if_neg hs]; simp [St.modB]
    case union => simp only [hB, upd_same, mergeProps_ranges]; exact mergedRanges_perm _ _
    case tidy => simp only [hB, upd_same, mergeProps_ranges]; exact htidy
    case otherBundles => intro c h1 h2; simp [hB, upd, h1, h2]
    case keptB => simp [hB]
    case emptied => simp [hB, upd, hne]
    case keptA => simp [hB, upd, hne]

theorem entry_bundle_unique {cls : Nat → RegClass} {k : Nat} {st : St} (hc : Consistent cls k st) {b c : Nat}
    (hb : b < st.nBundles) (hc' : c < st.nBundles) {e e' : Entry} (he : e ∈ (st.bundles b).ranges)
    (he' : e' ∈ (st.bundles c).ranges) (h : e.index = e'.index) : b = c := by
  have h1 := (hc.link b hb e he).1
  have h2 := (hc.link c hc' e' he').1
  rw [h] at h1
  exact Option.some.inj (h1.symm.trans h2)

theorem merge_consistent (env : MachineEnv) (cls : Nat → RegClass) (k : Nat) (st : St) (a b : Nat)
    (hc : Consistent cls k st) (ha : a < st.nBundles) (hb : b < st.nBundles)
    (hea : (st.bundles a).ranges ≠ []) (heb : (st.bundles b).ranges ≠ []) :
    Consistent cls k (mergeBundles env st a b).2 := by
  by_cases hne : a = b
  · subst hne; rw [(C33_refused_unchanged env st a a).2]; exact hc
  have hne' : b ≠ a := fun h => hne h.symm
  cases hm : (mergeBundles env st a b).1 with
  | false => rw [(C33_refused_unchanged env st a b).1 hm]; exact hc
  | true =>
    have M := C33_success_result env st a b hne (hc.tidy a ha) (hc.tidy b hb) hm
    have S := C33_success_implies env st a b hne (hc.tidy a ha) (hc.tidy b hb) hm
    have hst : (mergeBundles env st a b).2 = commitMerge st a b := by
      rcases mergeBundles_cases env st a b hne with h1 | ⟨-, -, -, -, -, h1 | h1 | h1⟩
      · rw [h1] at hm; cases hm
      · exact absurd h1.1 hea
      · exact absurd h1.2.1 heb
      · rw [h1.2.2]
    generalize hst' : (mergeBundles env st a b).2 = st' at M hst
    have hnB : st'.nBundles = st.nBundles := M.rest.2.2.1
    have huses : ∀ j, (st'.ranges j).uses = (st.ranges j).uses := fun j => by
      have := congrArg LRange.uses (M.onlyLinks j); exact this
    have hrange : ∀ j, (st'.ranges j).range = (st.ranges j).range := fun j => by
      have := congrArg LRange.range (M.onlyLinks j); exact this
    have hvreg : ∀ j, (st'.ranges j).vreg = (st.ranges j).vreg := fun j => by
      have := congrArg LRange.vreg (M.onlyLinks j); exact this
    have hcls : ∀ s, (st'.spillsets s).cls = (st.spillsets s).cls := fun s => by
      have := congrArg SpillSet.cls (M.spillsets s).1; exact this
    have hss : ∀ c, (st'.bundles c).spillset = (st.bundles c).spillset := by
      intro c
      by_cases h1 : c = a
      · subst h1; have := congrArg Bundle.spillset M.keptA; exact this
      · by_cases h2 : c = b
        · subst h2; exact M.keptB.1
        · rw [M.otherBundles c h1 h2]
    have hmemb : ∀ e, e ∈ (st'.bundles b).ranges ↔ e ∈ (st.bundles a).ranges ∨ e ∈ (st.bundles b).ranges := by
      intro e; rw [M.union.mem_iff, List.mem_append]
    have hspan : ∀ s p, Covers (st.spillsets s).range p → Covers (st'.spillsets s).range p := by
      intro s p hp
      by_cases h : s = (st.bundles b).spillset
      · subst h
        rw [hst, commitMerge_span]
        split
        · unfold Covers RKey.join at *; dsimp only; omega
        · exact hp
      · rw [(M.spillsets s).2 h]; exact hp
    constructor
    case tidy =>
      intro c hcn
      by_cases h1 : c = a
      · subst h1; rw [M.emptied]; exact ⟨by simp, .nil⟩
      · by_cases h2 : c = b
        · subst h2; exact M.tidy
        · rw [M.otherBundles c h1 h2]; exact hc.tidy c (hnB ▸ hcn)
    case link =>
      intro c hcn e he
      rw [hnB] at hcn
      rw [hrange]
      by_cases h1 : c = a
      · subst h1; rw [M.emptied] at he; simp at he
      · by_cases h2 : c = b
        · subst h2
          rcases (hmemb e).mp he with h | h
          · exact ⟨M.links e h, (hc.link a ha e h).2⟩
          · refine ⟨?_, (hc.link c hb e h).2⟩
            rw [M.otherLinks e.index (fun e' he' hh => hne (entry_bundle_unique hc ha hb he' h hh))]
            exact (hc.link c hb e h).1
        · rw [M.otherBundles c h1 h2] at he
          refine ⟨?_, (hc.link c hcn e he).2⟩
          rw [M.otherLinks e.index (fun e' he' hh => h1 (entry_bundle_unique hc ha hcn he' he hh).symm)]
          exact (hc.link c hcn e he).1
    case cls =>
      intro c hcn e he v hv
      rw [hnB] at hcn
      rw [hvreg] at hv
      rw [hcls, hss]
      by_cases h1 : c = a
      · subst h1; rw [M.emptied] at he; simp at he
      · by_cases h2 : c = b
        · subst h2
          rcases (hmemb e).mp he with h | h
          · rw [← S.1]; exact hc.cls a ha e h v hv
          · exact hc.cls c hb e h v hv
        · rw [M.otherBundles c h1 h2] at he
          exact hc.cls c hcn e he v hv
    case flags =>
      intro c hcn
      rw [hnB] at hcn
      by_cases h1 : c = a
      · subst h1
        intro u hu
        rw [mem_usesOf, M.emptied] at hu
        simp at hu
      · by_cases h2 : c = b
        · subst h2
          rw [hst, commitMerge_bundles st a c hne', upd_same, ← hst]
          have hb' : FlagsSound { st.bundles c with
              ranges := mergedRanges (st.bundles a).ranges (st.bundles c).ranges } (usesOf st c) := hc.flags c hb
          refine (hc.flags a ha).merge hb' _ ?_
          intro u hu
          obtain ⟨e, he, hu⟩ := (mem_usesOf _ _ _).mp hu
          rw [huses] at hu
          simp only [mem_usesOf]
          rcases (hmemb e).mp he with h | h
          · exact .inl ⟨e, h, hu⟩
          · exact .inr ⟨e, h, hu⟩
        · rw [M.otherBundles c h1 h2]
          intro u hu
          refine hc.flags c hcn u ?_
          obtain ⟨e, he, hu⟩ := (mem_usesOf _ _ _).mp hu
          rw [M.otherBundles c h1 h2] at he
          rw [huses] at hu
          exact (mem_usesOf _ _ _).mpr ⟨e, he, hu⟩
    case span =>
      intro c hcn e he p hp
      rw [hnB] at hcn
      rw [hss]
      by_cases h1 : c = a
      · subst h1; rw [M.emptied] at he; simp at he
      · by_cases h2 : c = b
        · subst h2
          rcases (hmemb e).mp he with h | h
          · have := hc.span a ha e h p hp
            rw [hst, commitMerge_span]
            split
            · unfold Covers RKey.join at *; dsimp only; omega
            · rename_i hh
              rw [← Classical.not_not.mp hh]; exact this
          · exact hspan _ p (hc.span c hb e h p hp)
        · rw [M.otherBundles c h1 h2] at he
          exact hspan _ p (hc.span c hcn e he p hp)
    case free =>
      intro c hcn
      rw [hnB] at hcn
      by_cases h1 : c = a
      · subst h1; have := congrArg Bundle.alloc M.keptA; exact Eq.trans this (hc.free c hcn)
      · by_cases h2 : c = b
        · subst h2; rw [M.keptB.2]; exact hc.free c hcn
        · rw [M.otherBundles c h1 h2]; exact hc.free c hcn
    case sets =>
      intro c hcn
      rw [hnB] at hcn
      rw [hss, M.rest.2.2.2.1]; exact hc.sets c hcn
    case complete =>
      intro v hv e he
      rw [M.rest.1] at he
      rw [hnB]
      obtain ⟨c, h1, h2⟩ := hc.complete v hv e he
      by_cases hca : c = a
      · subst hca; exact ⟨b, hb, (hmemb e).mpr (.inl h2)⟩
      · by_cases hcb : c = b
        · subst hcb; exact ⟨c, hb, (hmemb e).mpr (.inr h2)⟩
        · exact ⟨c, h1, by rw [M.otherBundles c hca hcb]; exact h2⟩
    case origin =>
      intro c hcn e he
      rw [hnB] at hcn
      rw [M.rest.1]
      by_cases h1 : c = a
      · subst h1; rw [M.emptied] at he; simp at he
      · by_cases h2 : c = b
        · subst h2
          rcases (hmemb e).mp he with h | h
          · exact hc.origin a ha e h
          · exact hc.origin c hb e h
        · rw [M.otherBundles c h1 h2] at he
          exact hc.origin c hcn e he

theorem createBundle_consistent (cls : Nat → RegClass) (st : St) (v : Nat) (hv : VregsOk st)
    (hc : Consistent cls v st) : Consistent cls (v + 1) (createBundle cls st v) := by
  unfold createBundle
  cases hl : st.vregs v with
  | nil =>
    dsimp only
    refine { hc with complete := ?_, origin := ?_ }
    · intro w hw e he
      by_cases h : w = v
      · subst h; rw [hl] at he; simp at he
      · exact hc.complete w (by omega) e he
    · intro b hb e he
      obtain ⟨w, h1, h2⟩ := hc.origin b hb e he
      exact ⟨w, by omega, h2⟩
  | cons e0 es0 =>
    dsimp only
    rw [← hl]
    generalize hrs : st.vregs v = rs at *
    have hold : ∀ b < st.nBundles, ∀ e ∈ (st.bundles b).ranges, ∀ e' ∈ rs, e'.index ≠ e.index := by
      intro b hb e he e' he' hh
      obtain ⟨w, h1, h2⟩ := hc.origin b hb e he
      have h3 := (hv.own w e h2).1
      have h4 := (hv.own v e' (hrs ▸ he')).1
      rw [hh, h3] at h4
      have := Option.some.inj h4
      omega
    have hrold : ∀ b < st.nBundles, ∀ e ∈ (st.bundles b).ranges,
        (st.linkAll rs st.nBundles).ranges e.index = st.ranges e.index := by
      intro b hb e he
      rw [linkAll_ranges, if_neg]
      rintro ⟨e', h1, h2⟩
      exact hold b hb e he e' h1 h2
    have hnew : ∀ b, b ≠ st.nBundles → ∀ x : Bundle, upd st.bundles st.nBundles x b = st.bundles b :=
      fun b h x => upd_ne _ _ h
    simp only [linkAll_bundles, linkAll_spillsets, linkAll_nSpillsets]
    constructor <;> dsimp only
    case tidy =>
      intro b hb
      by_cases h : b = st.nBundles
      · subst h; rw [upd_same]; dsimp only; rw [← hrs]; exact hv.tidy v
      · rw [hnew b h]; exact hc.tidy b (by omega)
    case link =>
      intro b hb e he
      by_cases h : b = st.nBundles
      · subst h
        rw [upd_same] at he
        dsimp only at he
        refine ⟨?_, ?_⟩
        · rw [linkAll_ranges, if_pos ⟨e, he, rfl⟩]
        · rw [linkAll_range]; exact (hv.own v e (hrs ▸ he)).2
      · rw [hnew b h] at he
        rw [hrold b (by omega) e he]
        exact hc.link b (by omega) e he
    case cls =>
      intro b hb e he w hw
      rw [linkAll_vreg] at hw
      by_cases h : b = st.nBundles
      · subst h
        rw [upd_same] at he ⊢
        dsimp only at he ⊢
        rw [upd_same]
        have := (hv.own v e (hrs ▸ he)).1
        rw [this] at hw
        rw [Option.some.inj hw]
      · rw [hnew b h] at he ⊢
        have := hc.sets b (by omega)
        rw [upd_ne _ _ (by omega)]
        exact hc.cls b (by omega) e he w hw
    case flags =>
      intro b hb
      by_cases h : b = st.nBundles
      · subst h
        rw [upd_same]
        have := (foldProps_sound (fun e => (st.ranges e.index).uses) rs ⟨false, false, false, none⟩).2
        intro u hu
        refine this u ?_
        obtain ⟨e, he, hu⟩ := (mem_usesOf _ _ _).mp hu
        dsimp only at he hu
        rw [upd_same] at he
        rw [linkAll_uses] at hu
        exact List.mem_flatMap.mpr ⟨e, he, hu⟩
      · rw [hnew b h]
        intro u hu
        refine hc.flags b (by omega) u ?_
        obtain ⟨e, he, hu⟩ := (mem_usesOf _ _ _).mp hu
        dsimp only at he hu
        rw [hnew b h] at he
        rw [linkAll_uses] at hu
        exact (mem_usesOf _ _ _).mpr ⟨e, he, hu⟩
    case span =>
      intro b hb e he p hp
      dsimp only at he ⊢
      by_cases h : b = st.nBundles
      · subst h
        rw [upd_same] at he ⊢
        dsimp only at he ⊢
        rw [upd_same]
        dsimp only
        exact (foldJoin_covers rs e0.range p).2 e he hp
      · rw [hnew b h] at he ⊢
        have := hc.sets b (by omega)
        rw [upd_ne _ _ (by omega)]
        exact hc.span b (by omega) e he p hp
    case free =>
      intro b hb
      by_cases h : b = st.nBundles
      · subst h; rw [upd_same]; rfl
      · rw [hnew b h]; exact hc.free b (by omega)
    case sets =>
      intro b hb
      by_cases h : b = st.nBundles
      · subst h; rw [upd_same]; dsimp only; omega
      · rw [hnew b h]; have := hc.sets b (by omega); omega
    case complete =>
      intro w hw e he
      rw [linkAll_vregs] at he
      by_cases h : w = v
      · subst h
        refine ⟨st.nBundles, by omega, ?_⟩
        rw [upd_same]; dsimp only; rw [← hrs]; exact he
      · obtain ⟨b, h1, h2⟩ := hc.complete w (by omega) e he
        refine ⟨b, by omega, ?_⟩
        rw [hnew b (by omega)]; exact h2
    case origin =>
      intro b hb e he
      rw [linkAll_vregs]
      by_cases h : b = st.nBundles
      · subst h
        rw [upd_same] at he
        exact ⟨v, by omega, hrs ▸ he⟩
      · rw [hnew b h] at he
        obtain ⟨w, h1, h2⟩ := hc.origin b (by omega) e he
        exact ⟨w, by omega, h2⟩

/-- The parts of the state that bundle creation and merging never change. -/
structure Kept (st st' : St) : Prop where
  vregs : st'.vregs = st.vregs
  ranges : ∀ j, (st'.ranges j).range = (st.ranges j).range ∧ (st'.ranges j).vreg = (st.ranges j).vreg ∧
    (st'.ranges j).uses = (st.ranges j).uses ∧ (st'.ranges j).startsAtDef = (st.ranges j).startsAtDef

theorem Kept.refl (st : St) : Kept st st := ⟨rfl, fun _ => ⟨rfl, rfl, rfl, rfl⟩⟩
theorem Kept.trans {a b c : St} (h : Kept a b) (h' : Kept b c) : Kept a c :=
  ⟨h'.vregs.trans h.vregs, fun j => ⟨(h'.ranges j).1.trans (h.ranges j).1, (h'.ranges j).2.1.trans (h.ranges j).2.1,
    (h'.ranges j).2.2.1.trans (h.ranges j).2.2.1, (h'.ranges j).2.2.2.trans (h.ranges j).2.2.2⟩⟩

theorem Kept.vregsOk {st st' : St} (h : Kept st st') (hv : VregsOk st) : VregsOk st' := by
  constructor
  · intro v; rw [h.vregs]; exact hv.tidy v
  · intro v e he; rw [h.vregs] at he; rw [(h.ranges _).1, (h.ranges _).2.1]; exact hv.own v e he

theorem createBundle_kept (cls : Nat → RegClass) (st : St) (v : Nat) : Kept st (createBundle cls st v) := by
  unfold createBundle
  split
  · exact .refl st
  · dsimp only
    exact ⟨by simp, fun j => ⟨by simp, by simp, by simp, by simp⟩⟩

theorem mergeBundles_kept (env : MachineEnv) (st : St) (a b : Nat) : Kept st (mergeBundles env st a b).2 := by
  by_cases hne : a = b
  · subst hne; rw [(C33_refused_unchanged env st a a).2]; exact .refl st
  rcases mergeBundles_cases env st a b hne with h1 | ⟨-, -, -, -, -, h1 | h1 | h1⟩
  · rw [h1]; exact .refl st
  · rw [h1.2]; exact .refl st
  · rw [h1.2.2]
    exact ⟨by simp [commitMove, St.modB], fun j => by simp [commitMove, St.modB]⟩
  · rw [h1.2.2]
    refine ⟨?_, fun j => by simp [commitMerge_ranges]⟩
    unfold commitMerge; dsimp only; split <;> simp [St.modB, St.modS]

theorem mergeReq_step (env : MachineEnv) (cls : Nat → RegClass) (k : Nat) (st : St) (q : Nat × Nat)
    (hc : Consistent cls k st) (h1 : q.1 < k) (h2 : q.2 < k) (e1 : st.vregs q.1 ≠ []) (e2 : st.vregs q.2 ≠ []) :
    ∃ st', mergeReq env st q = some st' ∧ Consistent cls k st' ∧ Kept st st' := by
  have key : ∀ v < k, st.vregs v ≠ [] → ∃ b < st.nBundles, bundleOf st v = some b ∧ (st.bundles b).ranges ≠ [] := by
    intro v hv hne
    cases hl : st.vregs v with
    | nil => exact absurd hl hne
    | cons e es =>
      obtain ⟨b, hb, hm⟩ := hc.complete v hv e (by rw [hl]; simp)
      refine ⟨b, hb, ?_, List.ne_nil_of_mem hm⟩
      unfold bundleOf
      rw [hl]
      exact (hc.link b hb e hm).1
  obtain ⟨a, ha, ha1, ha2⟩ := key _ h1 e1
  obtain ⟨b, hb, hb1, hb2⟩ := key _ h2 e2
  refine ⟨(mergeBundles env st a b).2, ?_, merge_consistent env cls k st a b hc ha hb ha2 hb2,
    mergeBundles_kept env st a b⟩
  unfold mergeReq
  rw [ha1, hb1]

theorem mergeReqs_ok (env : MachineEnv) (cls : Nat → RegClass) (k : Nat) : ∀ (qs : List (Nat × Nat)) (st : St),
    Consistent cls k st → (∀ q ∈ qs, q.1 < k ∧ q.2 < k ∧ st.vregs q.1 ≠ [] ∧ st.vregs q.2 ≠ []) →
    ∃ st', qs.foldlM (mergeReq env) st = some st' ∧ Consistent cls k st' ∧ Kept st st'
  | [], st, hc, _ => ⟨st, rfl, hc, .refl st⟩
  | q :: qs, st, hc, hq => by
    obtain ⟨h1, h2, h3, h4⟩ := hq q (by simp)
    obtain ⟨st1, e1, c1, k1⟩ := mergeReq_step env cls k st q hc h1 h2 h3 h4
    obtain ⟨st2, e2, c2, k2⟩ := mergeReqs_ok env cls k qs st1 c1 (fun x hx => by
      rw [k1.vregs]; exact hq x (by simp [hx]))
    refine ⟨st2, ?_, c2, k1.trans k2⟩
    rw [List.foldlM_cons, e1]
    exact e2

theorem createAll_ok (cls : Nat → RegClass) (n : Nat) (st : St) (h0 : st.nBundles = 0) (hv : VregsOk st) :
    Consistent cls n ((List.range n).foldl (createBundle cls) st) ∧
    Kept st ((List.range n).foldl (createBundle cls) st) := by
  induction n with
  | zero =>
    refine ⟨?_, .refl st⟩
    constructor <;> simp [h0]
  | succ n ih =>
    rw [List.range_succ, List.foldl_append]
    refine ⟨createBundle_consistent cls _ n (ih.2.vregsOk hv) ih.1, ih.2.trans (createBundle_kept cls _ n)⟩

theorem reuseReqs_some (ops : List Op) (h : ∀ o ∈ ops, ∀ i, o.constraint = .Reuse i → i < ops.length) :
    ∃ qs, reuseReqs ops = some qs ∧ ∀ q ∈ qs, ∃ o ∈ ops, ∃ i d, o.constraint = .Reuse i ∧ ops[i]? = some d ∧
      q = (d.vreg.vreg, o.vreg.vreg) := by
  unfold reuseReqs
  generalize hl : ops.filterMap (fun o => match o.constraint with
    | .Reuse i => some (o, i)
    | _ => none) = l
  have hmem : ∀ x ∈ l, x.1 ∈ ops ∧ x.1.constraint = .Reuse x.2 := by
    intro x hx
    rw [← hl, List.mem_filterMap] at hx
    obtain ⟨o, h1, h2⟩ := hx
    split at h2
    · rename_i i hi
      have := Option.some.inj h2
      subst this
      exact ⟨h1, hi⟩
    · cases h2
  clear hl
  induction l with
  | nil => exact ⟨[], rfl, by simp⟩
  | cons x l ih =>
    obtain ⟨qs, h1, h2⟩ := ih (fun y hy => hmem y (by simp [hy]))
    obtain ⟨m1, m2⟩ := hmem x (by simp)
    have hlt := h x.1 m1 x.2 m2
    refine ⟨(ops[x.2].vreg.vreg, x.1.vreg.vreg) :: qs, ?_, ?_⟩
    · rw [List.mapM_cons, h1, List.getElem?_eq_getElem hlt]
      rfl
    · intro q hq
      rcases List.mem_cons.mp hq with rfl | hq
      · exact ⟨x.1, m1, x.2, _, m2, List.getElem?_eq_getElem hlt, rfl⟩
      · exact h2 q hq

theorem mapM_some {α β : Type} (g : α → Option β) (P : β → Prop) : ∀ l : List α,
    (∀ a ∈ l, ∃ b, g a = some b ∧ P b) → ∃ bs, l.mapM g = some bs ∧ ∀ b ∈ bs, P b
  | [], _ => ⟨[], rfl, by simp⟩
  | a :: l, h => by
    obtain ⟨b, h1, h2⟩ := h a (by simp)
    obtain ⟨bs, h3, h4⟩ := mapM_some g P l (fun x hx => h x (by simp [hx]))
    refine ⟨b :: bs, ?_, ?_⟩
    · rw [List.mapM_cons, h1, h3]; rfl
    · intro x hx
      rcases List.mem_cons.mp hx with rfl | hx
      · exact h2
      · exact h4 x hx

/-- C33, for the whole pass. From register range lists that are in order and disjoint, it
puts every range of every register in exactly one bundle; every bundle is in order and
without overlap, holds registers of one class, knows the constraints of its uses, and its
spill set spans it. No merge, on any sequence of requests, breaks this, and no range
changes in anything but its link to a bundle. The pass does not panic if tied operands name
operands of the instruction and all registers named have ranges. -/
theorem C33_pass (env : MachineEnv) (f : Func) (cls : Nat → RegClass) (outs : List (Nat × Nat)) (st : St)
    (h0 : st.nBundles = 0) (hv : VregsOk st)
    (hreuse : ∀ i < f.numInsts, ∀ o ∈ f.operands i, ∀ j, o.constraint = .Reuse j → j < (f.operands i).length)
    (hops : ∀ i < f.numInsts, ∀ o ∈ f.operands i, ∀ j, o.constraint = .Reuse j → ∀ d, (f.operands i)[j]? = some d →
      (o.vreg.vreg < f.numVregs ∧ st.vregs o.vreg.vreg ≠ []) ∧ d.vreg.vreg < f.numVregs ∧ st.vregs d.vreg.vreg ≠ [])
    (houts : ∀ q ∈ outs, q.1 < f.numVregs ∧ q.2 < f.numVregs ∧ st.vregs q.1 ≠ [] ∧ st.vregs q.2 ≠ []) :
    ∃ st', mergeVregBundles env f cls outs st = some st' ∧ Consistent cls f.numVregs st' ∧ Kept st st' ∧
      (∀ v < f.numVregs, ∀ e ∈ st.vregs v, ∃ b < st'.nBundles, e ∈ (st'.bundles b).ranges ∧
        ∀ c < st'.nBundles, e ∈ (st'.bundles c).ranges → c = b) := by
  obtain ⟨c1, k1⟩ := createAll_ok cls f.numVregs st h0 hv
  have hreqs : ∃ reqs, (List.range f.numInsts).mapM (fun i => reuseReqs (f.operands i)) = some reqs ∧
      ∀ qs ∈ reqs, ∀ q ∈ qs, q.1 < f.numVregs ∧ q.2 < f.numVregs ∧ st.vregs q.1 ≠ [] ∧ st.vregs q.2 ≠ [] := by
    apply mapM_some
    intro i hi
    have hi := List.mem_range.mp hi
    obtain ⟨qs, h1, h2⟩ := reuseReqs_some (f.operands i) (hreuse i hi)
    refine ⟨qs, h1, fun q hq => ?_⟩
    obtain ⟨o, ho, j, d, hoj, hd, rfl⟩ := h2 q hq
    obtain ⟨a1, a2⟩ := hops i hi o ho j hoj d hd
    exact ⟨a2.1, a1.1, a2.2, a1.2⟩
  obtain ⟨reqs, e1, q1⟩ := hreqs
  obtain ⟨st2, e2, c2, k2⟩ := mergeReqs_ok env cls f.numVregs reqs.flatten _ c1 (fun q hq => by
    rw [k1.vregs]
    obtain ⟨qs, h1, h2⟩ := List.mem_flatten.mp hq
    exact q1 qs h1 q h2)
  obtain ⟨st3, e3, c3, k3⟩ := mergeReqs_ok env cls f.numVregs outs st2 c2 (fun q hq => by
    rw [(k1.trans k2).vregs]; exact houts q hq)
  refine ⟨st3, ?_, c3, (k1.trans k2).trans k3, ?_⟩
  · unfold mergeVregBundles
    simp only [e1, e2, e3, Option.bind_eq_bind, Option.bind_some]
  · intro v hv' e he
    rw [← ((k1.trans k2).trans k3).vregs] at he
    obtain ⟨b, h1, h2⟩ := c3.complete v hv' e he
    exact ⟨b, h1, h2, fun c hc' hce => entry_bundle_unique c3 hc' h1 hce h2 rfl⟩

/-- C33, completeness: bundles of one class, unallocated, whose ranges are apart (counting
the first half of an instruction with a fixed definition) and whose uses fit one location
are merged, if they have at most 201 ranges in all. -/
theorem C33_merges_when_possible (env : MachineEnv) (st : St) (a b : Nat)
    (ha : Tidy (st.bundles a).ranges) (hb : Tidy (st.bundles b).ranges)
    (hcls : (st.spillsets (st.bundles a).spillset).cls = (st.spillsets (st.bundles b).spillset).cls)
    (h1 : (st.bundles a).alloc = none) (h2 : (st.bundles b).alloc = none)
    (happ : ∀ e ∈ (st.bundles a).ranges, ∀ e' ∈ (st.bundles b).ranges,
      Apart (widened (st.bundles a) e.range) (widened (st.bundles b) e'.range))
    (hsat : Satisfiable env (usesOf st a ++ usesOf st b))
    (hlen : (st.bundles a).ranges.length + (st.bundles b).ranges.length ≤ 201) :
    (mergeBundles env st a b).1 = true := by
  by_cases hne : a = b
  · subst hne; simp [mergeBundles]
  have hscan := scan_complete (st.bundles a).fixedDef (st.bundles b).fixedDef 200 (st.bundles a).ranges
    (st.bundles b).ranges (by
      intro f hf t ht
      have hap := happ f hf t ht
      have f1 := ha.1 f hf
      have t1 := hb.1 t ht
      have := adjStart_le (st.bundles a).fixedDef f.range
      have := adjStart_le (st.bundles b).fixedDef t.range
      have w1 := hap (adjStart (st.bundles a).fixedDef f.range)
      have w2 := hap (adjStart (st.bundles b).fixedDef t.range)
      simp only [Covers, widened_fr, widened_to] at w1 w2
      unfold PairOk
      omega) (by omega)
  unfold mergeBundles
  rw [if_neg hne]
  simp only [hcls, h1, h2, hscan, check_of_sat env st a b hsat]
  simp
  split
  · rfl
  · split <;> rfl

/-- C33. The merged list does not depend on the sorting algorithm: it is the only ordering
of its entries by start. -/
theorem C33_sort_order_unique (es l : List Entry) (h : Tidy es) (hp : l.Perm es)
    (hs : l.Pairwise (fun x y => x.range.fr ≤ y.range.fr)) : l = es := by
  have hs' : l.Pairwise (fun x y => entryLe x y = true) := hs.imp (fun h => by simpa [entryLe] using h)
  refine List.Perm.eq_of_pairwise (le := fun x y => entryLe x y = true) ?_ hs' h.sorted hp
  intro x y hx hy h1 h2
  simp only [entryLe, decide_eq_true_eq] at h1 h2
  have hx := hp.mem_iff.mp hx
  have hxx := h.1 x hx
  have hyy := h.1 y hy
  by_cases hxy : x = y
  · exact hxy
  have := h.pair hx hy hxy
  omega

/-! ### Concrete cases -/

/-- A machine without registers in its sets is enough for these examples. -/
def exEnv : MachineEnv := ⟨fun _ => PRegSet.empty, fun _ => PRegSet.empty, fun _ => none, []⟩

/-- Two registers: v0 live in [4,8) and [20,30), v1 in [8,20); v2 overlaps v0. -/
def exSt : St :=
  let u (p : Nat) (c : OperandConstraint) : Use := ⟨⟨VReg.new 0 .Int, c, .Use, .Early⟩, p, 0⟩
  { ranges := fun i => match i with
      | 0 => ⟨⟨4, 8⟩, some 0, none, true, [u 6 .Reg]⟩
      | 1 => ⟨⟨20, 30⟩, some 0, none, false, [u 24 (.Limit 8)]⟩
      | 2 => ⟨⟨8, 20⟩, some 1, none, false, [u 10 .Reg, u 18 .Any]⟩
      | 3 => ⟨⟨6, 10⟩, some 2, none, false, []⟩
      | _ => .fresh ⟨0, 0⟩
    nRanges := 4
    bundles := fun _ => .fresh
    nBundles := 0
    spillsets := fun _ => ⟨none, none, .Int, none, false, 0, ⟨0, 0⟩⟩
    nSpillsets := 0
    vregs := fun v => match v with
      | 0 => [⟨⟨4, 8⟩, 0⟩, ⟨⟨20, 30⟩, 1⟩]
      | 1 => [⟨⟨8, 20⟩, 2⟩]
      | 2 => [⟨⟨6, 10⟩, 3⟩]
      | _ => []
    queue := []
    spilled := [] }

/-- The state with one bundle per register. -/
def exSt3 : St := (List.range 3).foldl (createBundle (fun _ => .Int)) exSt

/-- The bundles of v0 and v1 merge: three ranges in order, the flags of both, the extent of
both. The bundle of v2 overlaps and is refused. -/
example :
    let r := mergeBundles exEnv exSt3 1 0
    r.1 = true ∧ (r.2.bundles 0).ranges = [⟨⟨4, 8⟩, 0⟩, ⟨⟨8, 20⟩, 2⟩, ⟨⟨20, 30⟩, 1⟩] ∧
    (r.2.bundles 1).ranges = [] ∧ (r.2.bundles 0).limit = some 8 ∧ (r.2.ranges 2).bundle = some 0 ∧
    (r.2.spillsets 0).range = ⟨4, 30⟩ ∧ (mergeBundles exEnv exSt3 2 0).1 = false := by decide +kernel

/-- `exSt` meets the hypotheses of `C33_pass`. -/
example : VregsOk exSt := by
  have h : ∀ v, v = 0 ∨ v = 1 ∨ v = 2 ∨ exSt.vregs v = [] := by
    intro v
    match v with
    | 0 => simp
    | 1 => simp
    | 2 => simp
    | _ + 3 => right; right; right; rfl
  constructor
  · intro v
    rcases h v with rfl | rfl | rfl | h
    · unfold Tidy; decide
    · unfold Tidy; decide
    · unfold Tidy; decide
    · rw [h]; exact ⟨by simp, .nil⟩
  · intro v e he
    rcases h v with rfl | rfl | rfl | h
    · revert e he; decide
    · revert e he; decide
    · revert e he; decide
    · rw [h] at he; simp at he

/-- C33, limit of the claim on the extent: when the target bundle has no ranges, its
ranges come from the source but the extent of its spill set is left as it was. (The pass
itself only merges into bundles that have ranges.) -/
theorem C33_empty_target_extent :
    ∃ (st : St) (a b : Nat), (mergeBundles exEnv st a b).1 = true ∧ SpanOk st a ∧ SpanOk st b ∧
      ¬ SpanOk (mergeBundles exEnv st a b).2 b := by
  refine ⟨{ exSt3 with
    bundles := upd exSt3.bundles 1 { exSt3.bundles 1 with ranges := [] }
    spillsets := upd exSt3.spillsets 1 { exSt3.spillsets 1 with range := ⟨8, 20⟩ } }, 0, 1, by decide +kernel, ?_, ?_, ?_⟩
  · intro e he p hp
    have h1 : e = ⟨⟨4, 8⟩, 0⟩ ∨ e = ⟨⟨20, 30⟩, 1⟩ := by
      have : e ∈ [(⟨⟨4, 8⟩, 0⟩ : Entry), ⟨⟨20, 30⟩, 1⟩] := he
      simpa using this
    have h2 : Covers ⟨4, 30⟩ p := by
      unfold Covers at *
      rcases h1 with rfl | rfl <;> simp only at hp ⊢ <;> omega
    exact h2
  · intro e he
    exact absurd he (List.not_mem_nil (a := e))
  · intro h
    have := h ⟨⟨4, 8⟩, 0⟩ (by decide +kernel) 4 (by simp [Covers])
    have h2 : Covers ⟨8, 20⟩ 4 := this
    simp [Covers] at h2

end Regalloc.Ion
