import Verif.Proofs.ProcessSpilled

/-
The allocation loop from its initial state to the end. Helper lemmas for C40.
-/
namespace Regalloc.Ion

theorem pairwise_ne {α : Type} {R : α → α → Prop} {l : List α} (h : l.Pairwise R) (hs : ∀ a b, R a b → R b a) {a b : α}
    (ha : a ∈ l) (hb : b ∈ l) (hne : a ≠ b) : R a b := by
  induction l with
  | nil => cases ha
  | cons c l ih =>
    rw [List.pairwise_cons] at h
    rcases List.mem_cons.mp ha with ha | ha <;> rcases List.mem_cons.mp hb with hb | hb
    · exact absurd (ha.trans hb.symm) hne
    · rw [ha]; exact h.1 b hb
    · rw [hb]; exact hs _ _ (h.1 a ha)
    · exact ih h.2 ha hb

theorem apart_tidy {es : List Entry} (ht : Tidy es) {e e' : Entry} (he : e ∈ es) (he' : e' ∈ es) (hne : e ≠ e') : Apart e.range e'.range :=
  pairwise_ne (pairwise_apart_of_tidy ht) (fun _ _ h p hp => h p ⟨hp.2, hp.1⟩) he he' hne

section
variable {P : Params} {q0 q : PSt}

theorem Ready.listed (h : Ready q0) (v : Nat) : ((q0.st.vregs v).map (·.index)).Nodup := by
  have ht := h.vregs.tidy v
  have ho := h.vregs.own v
  rw [List.nodup_iff_pairwise_ne, List.pairwise_map]
  refine (List.Pairwise.and_mem.mp ht.2).imp ?_
  intro a b ⟨ha, hb, hab⟩ hi
  have h1 := (ho a ha).2
  have h2 := (ho b hb).2
  have h3 := ht.1 a ha
  rw [hi, h2] at h1
  rw [← h1] at hab h3
  omega

/-- Only properties of bundles differ from the initial state. -/
structure Prepared (st0 st : St) : Prop where
  ranges : st.ranges = st0.ranges
  nRanges : st.nRanges = st0.nRanges
  nBundles : st.nBundles = st0.nBundles
  vregs : st.vregs = st0.vregs
  spillsets : st.spillsets = st0.spillsets
  nSets : st.nSpillsets = st0.nSpillsets
  spilled : st.spilled = st0.spilled
  bundles : ∀ c, (st.bundles c).ranges = (st0.bundles c).ranges ∧ (st.bundles c).spillset = (st0.bundles c).spillset ∧
    (st.bundles c).alloc = (st0.bundles c).alloc

theorem Ready.shape (h : Ready q0) {st : St} (hp : Prepared q0.st st) : Shape q0.st st := by
  have hlive : ∀ c e, Live st c e ↔ Live q0.st c e := by
    intro c e; unfold Live; rw [hp.nBundles, (hp.bundles c).1]
  have hns : ∀ c, ¬ IsSpill st c := by
    intro c hc
    unfold IsSpill at hc
    rw [hp.spillsets, (h.unspilled _).1] at hc
    cases hc
  have hown : ∀ w i, Owns st w i ↔ Owns q0.st w i := by intro w i; unfold Owns; rw [hp.vregs]
  have horg : ∀ c e, Live q0.st c e → Origin q0.st st c e c e := by
    intro c e hl
    refine ⟨(hp.bundles c).2.1, Nat.le_refl _, Nat.le_refl _, .inl rfl, fun w => hown w _, ?_, ?_⟩
    · rw [hp.ranges]; exact fun u hu => hu
    · rw [hp.ranges]; exact fun _ d hd _ => hd
  refine ⟨?_, ?_, ?_, ?_, ?_, ?_, ?_, ?_, ?_, ?_, ?_, ?_⟩
  · intro c e hl
    exact (h.neat c e ((hlive c e).mp hl)).1.congr (by rw [hp.nRanges]; exact Nat.le_refl _) (by rw [hp.ranges]) (fun w => hown w _)
  · intro c e hl
    exact .inr ⟨hns c, (h.neat c e ((hlive c e).mp hl)).2.congr (by rw [hp.ranges]) (fun w => hown w _)⟩
  · intro c e hl
    exact ⟨c, e, (hlive c e).mp hl, horg c e ((hlive c e).mp hl)⟩
  · intro c e hl p hpt
    exact ⟨c, e, (hlive c e).mpr hl, horg c e hl, hpt⟩
  · intro c e hl u hu
    exact ⟨c, e, (hlive c e).mpr hl, horg c e hl, by rw [hp.ranges]; exact hu⟩
  · intro c e c' e' h1 h2
    rw [hp.ranges]
    exact h.once c e c' e' ((hlive c e).mp h1) ((hlive c' e').mp h2)
  · intro c e c' e' h1 h2 hs hne
    have h1 := (hlive c e).mp h1
    have h2 := (hlive c' e').mp h2
    rw [(hp.bundles c).2.1, (hp.bundles c').2.1] at hs
    have := h.sets c c' h1.1 h2.1 (List.ne_nil_of_mem h1.2) (List.ne_nil_of_mem h2.2) hs
    subst this
    exact .inl (apart_tidy (h.tidy c h1.1) h1.2 h2.2 (fun hx => hne (by rw [hx])))
  · intro c hc _
    rw [(hp.bundles c).1]
    exact h.tidy c (by rw [← hp.nBundles]; exact hc)
  · intro c _ hs; exact absurd hs (hns c)
  · intro t s hs
    rw [hp.spillsets, (h.unspilled t).1] at hs
    cases hs
  · intro v e he
    rw [hp.vregs] at he
    obtain ⟨c, hc⟩ := h.housed v e he
    exact ⟨c, e, (hlive c e).mpr hc, rfl⟩
  · intro v; rw [hp.vregs]; exact h.listed v

/-! ### Filling the queue -/

theorem requeue_alloc {st st' : St} {b : Nat} {hint : Option PReg} (h : requeue st b hint = some st') :
    (st'.bundles b).alloc = (st.bundles b).alloc ∧ st'.nSpillsets = st.nSpillsets := by
  unfold requeue at h
  split at h
  · unfold recomputeBundle at h
    split at h
    · cases h
    · dsimp only at h
      have := Option.some.inj h
      subst this
      simp [St.modB, upd]
  · cases h; exact ⟨rfl, rfl⟩

theorem queueBundles_spec (l : List Nat) : ∀ {st : St}, l.Nodup → ∃ st', l.foldlM (fun st b => requeue st b none) st = some st' ∧
    Prepared st st' ∧ (∀ c, c ∉ l → st'.bundles c = st.bundles c) ∧
    (∃ q, st'.queue = st.queue ++ q ∧ q.map (·.1) = l.filter (fun c => !(st.bundles c).ranges.isEmpty) ∧ ∀ x ∈ q, x.2.2 = none) ∧
    ∀ c ∈ l, (st.bundles c).ranges ≠ [] → (st'.bundles c).limit = bundleLimit st (st.bundles c).ranges ∧
      ((st'.bundles c).minimal = true → (∀ e ∈ (st.bundles c).ranges, (st.ranges e.index).vreg ≠ none ∧ (st.ranges e.index).range = e.range) →
        FewUses st (st.bundles c).ranges (st'.bundles c).fixed) := by
  induction l with
  | nil => intro st _; exact ⟨st, rfl, ⟨rfl, rfl, rfl, rfl, rfl, rfl, rfl, fun _ => ⟨rfl, rfl, rfl⟩⟩, fun _ _ => rfl, ⟨[], by simp, rfl, by simp⟩, by simp⟩
  | cons b l ih =>
    intro st hnd
    rw [List.nodup_cons] at hnd
    obtain ⟨st1, e0, e1, e2, e3, e4, e5, e6, e7, e8, e9, e10, e11⟩ := requeue_spec st b none
    obtain ⟨a1, a2⟩ := requeue_alloc e0
    obtain ⟨st2, f0, f1, f2, ⟨q, f3, f4, f5⟩, f6⟩ := ih (st := st1) hnd.2
    have hb : ∀ c, (st1.bundles c).ranges = (st.bundles c).ranges ∧ (st1.bundles c).spillset = (st.bundles c).spillset ∧
        (st1.bundles c).alloc = (st.bundles c).alloc := by
      intro c
      by_cases hc : c = b
      · subst hc; exact ⟨e7, e8, a1⟩
      · rw [e6 c hc]; exact ⟨rfl, rfl, rfl⟩
    refine ⟨st2, ?_, ⟨f1.ranges.trans e1, f1.nRanges.trans e2, f1.nBundles.trans e4, f1.vregs.trans e3, f1.spillsets.trans e5,
      f1.nSets.trans a2, f1.spilled.trans e9, ?_⟩, ?_, ?_, ?_⟩
    · rw [List.foldlM_cons, e0]; exact f0
    · intro c
      obtain ⟨k1, k2, k3⟩ := f1.bundles c
      obtain ⟨k4, k5, k6⟩ := hb c
      exact ⟨k1.trans k4, k2.trans k5, k3.trans k6⟩
    · intro c hc
      rw [List.mem_cons, not_or] at hc
      rw [f2 c hc.2, e6 c hc.1]
    · refine ⟨_, by rw [f3, e10, List.append_assoc], ?_, ?_⟩
      · rw [List.map_append, f4, List.filter_cons]
        have : l.filter (fun c => !(st1.bundles c).ranges.isEmpty) = l.filter (fun c => !(st.bundles c).ranges.isEmpty) := by
          apply List.filter_congr
          intro c _
          rw [(hb c).1]
        rw [this]
        cases hr : (st.bundles b).ranges <;> simp
      · intro x hx
        rcases List.mem_append.mp hx with hx | hx
        · split at hx
          · cases hx
          · rw [List.mem_singleton] at hx; rw [hx]
        · exact f5 x hx
    · intro c hc hr
      rcases List.mem_cons.mp hc with rfl | hc
      · rw [f2 c hnd.1]; exact e11 hr
      · have := f6 c hc (by rw [(hb c).1]; exact hr)
        have hl : bundleLimit st1 (st.bundles c).ranges = bundleLimit st (st.bundles c).ranges := by
          unfold bundleLimit; rw [e1]
        rw [(hb c).1, hl] at this
        refine ⟨this.1, fun hm hv => ?_⟩
        obtain ⟨e, he1, he2⟩ := this.2 hm (by rw [e1]; exact hv)
        exact ⟨e, he1, by rw [e1] at he2; exact he2⟩

/-- The queue holds every bundle with ranges. -/
theorem Ready.queued (h : Ready q0) : ∃ st, queueBundles q0.st = some st ∧ Prepared q0.st st ∧ Inv P q0 { q0 with st := st } [] := by
  obtain ⟨st, h1, h2, h3, ⟨q, h4, h5, h6⟩, h7⟩ := queueBundles_spec (List.range q0.st.nBundles) (st := q0.st) List.nodup_range
  refine ⟨st, h1, h2, ?_⟩
  have hq : st.queue.map (·.1) = (List.range q0.st.nBundles).filter (fun c => !(q0.st.bundles c).ranges.isEmpty) := by
    rw [h4, h.lists.1, List.nil_append, h5]
  have hqm : ∀ c, c ∈ st.queue.map (·.1) ↔ c < q0.st.nBundles ∧ (q0.st.bundles c).ranges ≠ [] := by
    intro c
    rw [hq, List.mem_filter, List.mem_range]
    simp
  have hsp : st.spilled = [] := h2.spilled.trans h.lists.2
  have hns : ∀ c, ¬ IsSpill st c := by
    intro c hc
    unfold IsSpill at hc
    rw [h2.spillsets, (h.unspilled _).1] at hc
    cases hc
  have halloc : ∀ c < q0.st.nBundles, (st.bundles c).alloc = none := fun c hc => by rw [(h2.bundles c).2.2]; exact h.fresh c hc
  have hvreg : ∀ c e, Live q0.st c e → (q0.st.ranges e.index).vreg ≠ none := by
    intro c e hl
    obtain ⟨v, hv, -⟩ := (h.neat c e hl).2.vreg
    rw [hv]; simp
  refine ⟨⟨h.shape h2, ?_, ?_, ?_, ?_, ?_, ?_, ?_, ?_, h2.nSets, ?_⟩, ?_, ?_, ?_, ?_, ?_, ?_⟩
  · dsimp only
    rw [hsp, hq]
    simp only [List.nil_append, List.append_nil]
    exact List.Pairwise.filter _ List.nodup_range
  · dsimp only
    rw [hsp]
    intro c hc
    simp only [List.nil_append, List.append_nil] at hc
    have := (hqm c).mp hc
    exact ⟨by rw [h2.nBundles]; exact this.1, halloc c this.1⟩
  · dsimp only
    intro c hc hr
    rw [h2.nBundles] at hc
    rw [(h2.bundles c).1] at hr
    exact .inr (.inl (by rw [hsp]; simpa using (hqm c).mpr ⟨hc, hr⟩))
  · dsimp only
    intro c hc p hp
    rw [h2.nBundles] at hc
    rw [halloc c hc] at hp
    cases hp
  · intro p
    exact rangesSorted_iff.mp (h.maps p).1
  · intro p k i hi
    have := (h.maps p).2 _ hi
    cases this
  · intro p k; exact Iff.rfl
  · intro t p hp
    dsimp only at hp
    rw [h2.spillsets, (h.unspilled t).2] at hp
    cases hp
  · intro t
    dsimp only
    rw [h2.spillsets]
    exact ⟨rfl, rfl⟩
  · dsimp only
    intro c hc
    have := (hqm c).mp (by simpa using hc)
    exact ⟨by rw [(h2.bundles c).1]; exact this.2, hns c⟩
  · dsimp only
    intro c hc _ hrn
    rw [h2.nBundles] at hc
    rw [(h2.bundles c).1] at hrn ⊢
    obtain ⟨k1, k2⟩ := h7 c (List.mem_range.mpr hc) hrn
    refine ⟨by rw [k1]; unfold bundleLimit; rw [h2.ranges], fun hm => ?_⟩
    obtain ⟨e, he1, he2⟩ := k2 hm (fun e he => ⟨hvreg c e ⟨hc, he⟩, (h.neat c e ⟨hc, he⟩).1.range⟩)
    exact ⟨e, he1, by rw [h2.ranges]; exact he2⟩
  · dsimp only
    intro c hc
    rw [hsp] at hc
    cases hc
  · intro t s hs
    rw [h2.spillsets, (h.unspilled t).1] at hs
    cases hs
  · dsimp only
    intro x hx p hp
    rw [h4, h.lists.1, List.nil_append] at hx
    rw [h6 x hx] at hp
    cases hp
  · dsimp only
    intro c hc ha
    rw [h2.nBundles] at hc
    rw [(h2.bundles c).2.2, h.fresh c hc] at ha
    exact absurd rfl ha

/-! ### The result -/

theorem Ready.same_origin (h : Ready q0) {b b' : Nat} {e e' : Entry} (h1 : Live q0.st b e) (h2 : Live q0.st b' e')
    (hs : (q0.st.bundles b).spillset = (q0.st.bundles b').spillset) (ho : ¬ Apart e.range e'.range) : b = b' ∧ e = e' := by
  have := h.sets b b' h1.1 h2.1 (List.ne_nil_of_mem h1.2) (List.ne_nil_of_mem h2.2) hs
  subst this
  refine ⟨rfl, ?_⟩
  by_cases hne : e = e'
  · exact hne
  · exact absurd (apart_tidy (h.tidy b h1.1) h1.2 h2.2 hne) ho

theorem apart_of_part {a b a0 b0 : RKey} (ha1 : a0.fr ≤ a.fr) (ha2 : a.to ≤ a0.to) (hb1 : b0.fr ≤ b.fr) (hb2 : b.to ≤ b0.to)
    (h : Apart a0 b0) : Apart a b := by
  intro p ⟨h1, h2⟩
  unfold Covers at h1 h2
  exact h p ⟨⟨by omega, by omega⟩, ⟨by omega, by omega⟩⟩

theorem sorted_apart {α : Type} {m : List (RKey × α)} (h : SortedM m) {x y : RKey × α} (hx : x ∈ m) (hy : y ∈ m) (hne : x ≠ y) :
    Apart x.1 y.1 := by
  refine pairwise_ne (R := fun x y : RKey × α => Apart x.1 y.1) (h.2.imp ?_) (fun _ _ h p hp => h p ⟨hp.2, hp.1⟩) hx hy hne
  intro a b hab p hp
  unfold Covers at hp
  omega

theorem Core.placed (h : Core P q0 q []) (hr : Ready q0) (hq : q.st.queue = []) : Placed P q0 q where
  neat := h.shape.neat
  parts := h.shape.origin
  cover := h.shape.cover
  uses := h.shape.uses
  once := h.shape.once
  register := fun c e p hl hp => by
    obtain ⟨-, h1, h2, -⟩ := h.alloc c hl.1 p hp
    exact ⟨h1, fun u hu => h2 u ((mem_usesOf _ _ _).mpr ⟨e, hl.2, hu⟩)⟩
  slot := fun c e hl hn => by
    rcases h.status c hl.1 (List.ne_nil_of_mem hl.2) with h1 | h1 | ⟨h1, h2⟩
    · exact absurd hn h1
    · cases h1
    · refine ⟨h1, fun u hu n => ?_⟩
      rcases h2 u ((mem_usesOf _ _ _).mpr ⟨e, hl.2, hu⟩) with h3 | h3
      · rw [h3]; trivial
      · rw [h3]; intro p hx; cases hx
  apart := fun c e c' e' p hl hl' hp hp' hne => by
    obtain ⟨-, -, -, h1⟩ := h.alloc c hl.1 p hp
    obtain ⟨-, -, -, h2⟩ := h.alloc c' hl'.1 p hp'
    refine sorted_apart (h.sorted p) (h1 e hl.2) (h2 e' hl'.2) ?_
    intro hx
    rw [Prod.mk.injEq, Option.some.injEq] at hx
    exact hne hx.2
  reserved := fun c e p k hl hp hk => by
    obtain ⟨-, -, -, h1⟩ := h.alloc c hl.1 p hp
    refine sorted_apart (h.sorted p) (h1 e hl.2) ((h.fixed p k).mpr hk) ?_
    intro hx
    rw [Prod.mk.injEq] at hx
    cases hx.2
  shared := fun c e c' e' hl hl' hs ho w => by
    obtain ⟨b0, e0, h1, h2⟩ := h.shape.origin c e hl
    obtain ⟨b1, e1, h3, h4⟩ := h.shape.origin c' e' hl'
    obtain ⟨rfl, rfl⟩ := hr.same_origin h1 h3 (by rw [← h2.set, ← h4.set, hs])
      (fun hx => ho (apart_of_part h2.start h2.stop h4.start h4.stop hx))
    rw [h2.owner, h4.owner]
  pinned := fun c e c' e' w hl hl' ho ho' hne => by
    by_cases hap : Apart e.range e'.range
    · exact .inl hap
    right
    obtain ⟨b0, e0, h1, h2⟩ := h.shape.origin c e hl
    obtain ⟨b1, e1, h3, h4⟩ := h.shape.origin c' e' hl'
    obtain ⟨x, hx1, hx2⟩ := (h2.owner w).mp ho
    obtain ⟨y, hy1, hy2⟩ := (h4.owner w).mp ho'
    have r1 : x.range = e0.range := by
      rw [← (hr.vregs.own w x hx1).2, hx2]; exact (hr.neat b0 e0 h1).1.range
    have r2 : y.range = e1.range := by
      rw [← (hr.vregs.own w y hy1).2, hy2]; exact (hr.neat b1 e1 h3).1.range
    have hxy : x = y := by
      by_cases hxy : x = y
      · exact hxy
      · exfalso
        have := apart_tidy (hr.vregs.tidy w) hx1 hy1 hxy
        rw [r1, r2] at this
        exact hap (apart_of_part h2.start h2.stop h4.start h4.stop this)
    have hb : b0 = b1 := by
      have k1 := (hr.neat b0 e0 h1).1.link
      have k2 := (hr.neat b1 e1 h3).1.link
      rw [← hx2, hxy, hy2, k2] at k1
      exact (Option.some.inj k1).symm
    rcases h.shape.apart c e c' e' hl hl' (by rw [h2.set, h4.set, hb]) hne with h5 | ⟨-, -, h5⟩ | ⟨-, -, h5⟩
    · exact absurd h5 hap
    · exact .inl h5
    · exact .inr h5
  span := fun c hc e he p hp => by
    obtain ⟨b0, e0, h1, h2⟩ := h.shape.origin c e ⟨hc, he⟩
    have := hr.span b0 h1.1 e0 h1.2 p
    rw [(h.sets _).2, h2.set]
    have k1 := h2.start
    have k2 := h2.stop
    unfold Covers at hp this ⊢
    exact this ⟨by omega, by omega⟩
  cls := fun t => (h.sets t).1
  extent := fun t => (h.sets t).2
  known := ⟨h.nSets, fun c e hl => by
    obtain ⟨b0, e0, h1, h2⟩ := h.shape.origin c e hl
    rw [h2.set, h.nSets]
    exact hr.known b0 h1.1⟩
  housed := h.shape.housed
  listed := h.shape.listed
  held := fun c e p hl hp => (h.alloc c hl.1 p hp).2.2.2 e hl.2
  maps := fun p => ⟨rangesSorted_iff.mpr (h.sorted p), h.fixed p⟩
  queue := hq

/-- From the initial state to the end. -/
theorem allocate_spec (hP : Setting P q0.st) (hr : Ready q0) (fuel : Nat) :
    match allocate P fuel q0 with
    | .ok q => Placed P q0 q
    | .error e => Supply P q0.st → e ≠ .panic := by
  obtain ⟨st, h1, -, h2⟩ := hr.queued (P := P)
  have h3 := processBundles_spec hP fuel h2
  unfold allocate
  rw [h1]
  dsimp only
  cases hb : processBundles P fuel { q0 with st := st } with
  | error e => rw [hb] at h3; exact h3
  | ok q1 =>
    rw [hb] at h3
    obtain ⟨q2, h4, h5, h6⟩ := h3.1.spilledAll h3.2
    have : (Except.ok q1 >>= fun q => trySpilledAll P q) = trySpilledAll P q1 := rfl
    rw [this, h4]
    exact h5.placed hr h6

end
end Regalloc.Ion
