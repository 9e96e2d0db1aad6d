import Verif.Proofs.ProcessSplit
import Verif.Proofs.ProcessReq
import Verif.Proofs.PregMap

/-
The invariant of the allocation loop that does not concern the queue. Helper lemmas for C40.
-/
namespace Regalloc.Ion

open PregMap (PMap ScanEnv tryAlloc Ov)

/-- A use that a spill slot serves. -/
def SlotUse (u : Use) : Prop := u.op.constraint = .Any ∨ u.op.constraint = .Stack

structure Core (P : Params) (q0 q : PSt) (todo : List Nat) : Prop where
  shape : Shape q0.st q.st
  todoNodup : todo.Nodup
  todoOk : ∀ c ∈ todo, c < q.st.nBundles ∧ (q.st.bundles c).alloc = none
  status : ∀ c < q.st.nBundles, (q.st.bundles c).ranges ≠ [] → (q.st.bundles c).alloc ≠ none ∨ c ∈ todo ∨
    ((q.st.spillsets (q.st.bundles c).spillset).required = true ∧ ∀ u ∈ usesOf q.st c, SlotUse u)
  alloc : ∀ c < q.st.nBundles, ∀ p, (q.st.bundles c).alloc = some p → (q.st.bundles c).ranges ≠ [] ∧
    Eligible P.env q0.st (q.st.bundles c).spillset p ∧
    (∀ u ∈ usesOf q.st c, u.op.constraint.Admits P.env (Place.ofPReg P.env p)) ∧
    ∀ e ∈ (q.st.bundles c).ranges, (e.range, some e.index) ∈ q.maps p
  sorted : ∀ p, SortedM (q.maps p)
  entry : ∀ p k i, (k, some i) ∈ q.maps p → ∃ c, Live q.st c ⟨k, i⟩ ∧ (q.st.bundles c).alloc = some p
  fixed : ∀ p k, (k, none) ∈ q.maps p ↔ (k, none) ∈ q0.maps p
  hints : ∀ t p, (q.st.spillsets t).hint = some p → Eligible P.env q0.st t p
  nSets : q.st.nSpillsets = q0.st.nSpillsets
  sets : ∀ t, (q.st.spillsets t).cls = (q0.st.spillsets t).cls ∧ (q.st.spillsets t).range = (q0.st.spillsets t).range

section
variable {P : Params} {q0 q : PSt} {todo : List Nat} {b : Nat}

theorem Core.perm {todo' : List Nat} (h : Core P q0 q todo) (hp : todo.Perm todo') : Core P q0 q todo' where
  shape := h.shape
  todoNodup := hp.nodup_iff.mp h.todoNodup
  todoOk := fun c hc => h.todoOk c (hp.mem_iff.mpr hc)
  status := fun c hc hr => by
    rcases h.status c hc hr with h1 | h1 | h1
    · exact .inl h1
    · exact .inr (.inl (hp.mem_iff.mp h1))
    · exact .inr (.inr h1)
  alloc := h.alloc
  sorted := h.sorted
  entry := h.entry
  fixed := h.fixed
  hints := h.hints
  nSets := h.nSets
  sets := h.sets

theorem usesOf_congr {st st' : St} {c : Nat} (h1 : (st'.bundles c).ranges = (st.bundles c).ranges)
    (h2 : ∀ e ∈ (st.bundles c).ranges, (st'.ranges e.index).uses = (st.ranges e.index).uses) : usesOf st' c = usesOf st c := by
  unfold usesOf
  rw [h1, List.flatMap_def, List.flatMap_def]
  congr 1
  apply List.map_congr_left
  intro e he
  exact h2 e he

/-- Assignments to fields of spill sets that are not in the way. -/
theorem Core.modS (h : Core P q0 q todo) (t : Nat) (g : SpillSet → SpillSet)
    (h1 : (g (q.st.spillsets t)).spillBundle = (q.st.spillsets t).spillBundle)
    (h2 : (q.st.spillsets t).required = true → (g (q.st.spillsets t)).required = true)
    (h3 : ∀ p, (g (q.st.spillsets t)).hint = some p → Eligible P.env q0.st t p)
    (h4 : (g (q.st.spillsets t)).cls = (q.st.spillsets t).cls ∧ (g (q.st.spillsets t)).range = (q.st.spillsets t).range) :
    Core P q0 { q with st := q.st.modS t g } todo where
  shape := by
    refine h.shape.congr' rfl rfl rfl rfl ?_ (fun _ => ⟨rfl, rfl, rfl⟩)
    intro t'
    simp only [St.modS, upd]
    split
    · subst_vars; exact h1
    · rfl
  todoNodup := h.todoNodup
  todoOk := h.todoOk
  status := fun c hc hr => by
    rcases h.status c hc hr with h5 | h5 | ⟨h5, h6⟩
    · exact .inl h5
    · exact .inr (.inl h5)
    · refine .inr (.inr ⟨?_, h6⟩)
      simp only [St.modS, upd]
      split
      · rename_i h7; rw [h7] at h5; exact h2 h5
      · exact h5
  alloc := h.alloc
  sorted := h.sorted
  entry := h.entry
  fixed := h.fixed
  hints := fun t' p hp => by
    simp only [St.modS, upd] at hp
    split at hp
    · subst_vars; exact h3 p hp
    · exact h.hints t' p hp
  nSets := h.nSets
  sets := fun t' => by
    simp only [St.modS, upd]
    split
    · subst_vars; rw [h4.1, h4.2]; exact h.sets _
    · exact h.sets t'

/-- A bundle that a slot serves is done when the set is given a slot. -/
theorem Core.require (h : Core P q0 q (b :: todo)) (hu : ∀ u ∈ usesOf q.st b, SlotUse u) :
    Core P q0 { q with st := q.st.modS (q.st.bundles b).spillset (fun s => { s with required := true }) } todo := by
  have h' := h.modS (q.st.bundles b).spillset (fun s => { s with required := true }) rfl (fun _ => rfl)
    (fun p hp => h.hints _ p hp) ⟨rfl, rfl⟩
  refine { h' with todoNodup := (List.nodup_cons.mp h.todoNodup).2, todoOk := fun c hc => h'.todoOk c (by simp [hc]), status := ?_ }
  intro c hc hr
  rcases h'.status c hc hr with h1 | h1 | h1
  · exact .inl h1
  · rcases List.mem_cons.mp h1 with rfl | h1
    · exact .inr (.inr ⟨by simp [St.modS, upd], hu⟩)
    · exact .inr (.inl h1)
  · exact .inr (.inr h1)

theorem modB_other (st : St) (b c : Nat) (g : Bundle → Bundle) (h : c ≠ b) : (st.modB b g).bundles c = st.bundles c := by
  simp only [St.modB]; rw [upd_ne _ _ h]

theorem modB_self (st : St) (b : Nat) (g : Bundle → Bundle) : (st.modB b g).bundles b = g (st.bundles b) := by
  simp only [St.modB]; rw [upd_same]

/-- The ranges of a bundle enter the map of a register. -/
theorem Core.take (h : Core P q0 q (b :: todo)) {p : PReg} {m : PMap} (hne : (q.st.bundles b).ranges ≠ [])
    (he : Eligible P.env q0.st (q.st.bundles b).spillset p)
    (ha : ∀ u ∈ usesOf q.st b, u.op.constraint.Admits P.env (Place.ofPReg P.env p)) (hs : SortedM m)
    (hm : ∀ y, y ∈ m ↔ y ∈ q.maps p ∨ ∃ r ∈ rangesOf q.st b, y = (r.1, some r.2)) : Core P q0 (q.take b p m) todo := by
  have hb := h.todoOk b (by simp)
  have hnd := List.nodup_cons.mp h.todoNodup
  have hB : ∀ c, ((q.take b p m).st.bundles c).spillset = (q.st.bundles c).spillset ∧
      ((q.take b p m).st.bundles c).minimal = (q.st.bundles c).minimal ∧
      ((q.take b p m).st.bundles c).ranges = (q.st.bundles c).ranges := by
    intro c
    unfold PSt.take PSt.setMap
    dsimp only
    by_cases hc : c = b
    · subst hc; rw [modB_self]; exact ⟨rfl, rfl, rfl⟩
    · rw [modB_other _ _ _ _ hc]; exact ⟨rfl, rfl, rfl⟩
  have hA : ((q.take b p m).st.bundles b).alloc = some p := by
    unfold PSt.take PSt.setMap; dsimp only; rw [modB_self]
  have hA' : ∀ c, c ≠ b → ((q.take b p m).st.bundles c).alloc = (q.st.bundles c).alloc := by
    intro c hc; unfold PSt.take PSt.setMap; dsimp only; rw [modB_other _ _ _ _ hc]
  have hM : (q.take b p m).maps p = m := by unfold PSt.take PSt.setMap; dsimp only; rw [if_pos rfl]
  have hM' : ∀ r, r ≠ p → (q.take b p m).maps r = q.maps r := by
    intro r hr; unfold PSt.take PSt.setMap; dsimp only; rw [if_neg hr]
  have hU : ∀ c, usesOf (q.take b p m).st c = usesOf q.st c := fun c => usesOf_congr (hB c).2.2 (fun _ _ => rfl)
  have hsub : ∀ r y, y ∈ q.maps r → y ∈ (q.take b p m).maps r := by
    intro r y hy
    by_cases hr : r = p
    · subst hr; rw [hM, hm]; exact .inl hy
    · rw [hM' r hr]; exact hy
  refine ⟨h.shape.congr' rfl rfl rfl rfl (fun _ => rfl) hB, hnd.2, ?_, ?_, ?_, ?_, ?_, ?_, h.hints, h.nSets, h.sets⟩
  · intro c hc
    have := h.todoOk c (by simp [hc])
    rw [hA' c (fun hx => hnd.1 (hx ▸ hc))]
    exact this
  · intro c hc hr
    rw [(hB c).2.2] at hr
    rw [(hB c).1, hU c]
    by_cases hcb : c = b
    · subst hcb; left; rw [hA]; simp
    · rw [hA' c hcb]
      rcases h.status c hc hr with h1 | h1 | h1
      · exact .inl h1
      · exact .inr (.inl ((List.mem_cons.mp h1).resolve_left hcb))
      · exact .inr (.inr h1)
  · intro c hc r hr
    rw [(hB c).1, (hB c).2.2, hU c]
    by_cases hcb : c = b
    · subst hcb
      rw [hA] at hr
      cases hr
      refine ⟨hne, he, ha, ?_⟩
      intro e hee
      rw [hM, hm]
      exact .inr ⟨(e.range, e.index), List.mem_map.mpr ⟨e, hee, rfl⟩, rfl⟩
    · rw [hA' c hcb] at hr
      obtain ⟨h1, h2, h3, h4⟩ := h.alloc c hc r hr
      exact ⟨h1, h2, h3, fun e hee => hsub r _ (h4 e hee)⟩
  · intro r
    by_cases hr : r = p
    · subst hr; rw [hM]; exact hs
    · rw [hM' r hr]; exact h.sorted r
  · intro r k i hki
    by_cases hr : r = p
    · subst hr
      rw [hM, hm] at hki
      rcases hki with hki | ⟨x, hx, hxe⟩
      · obtain ⟨c, ⟨h1, h2⟩, h3⟩ := h.entry r k i hki
        have hcb : c ≠ b := by rintro rfl; rw [hb.2] at h3; cases h3
        refine ⟨c, ⟨h1, by rw [(hB c).2.2]; exact h2⟩, by rw [hA' c hcb]; exact h3⟩
      · obtain ⟨e, hee, rfl⟩ := List.mem_map.mp hx
        cases hxe
        exact ⟨b, ⟨hb.1, by rw [(hB b).2.2]; exact hee⟩, hA⟩
    · rw [hM' r hr] at hki
      obtain ⟨c, ⟨h1, h2⟩, h3⟩ := h.entry r k i hki
      have hcb : c ≠ b := by rintro rfl; rw [hb.2] at h3; cases h3
      refine ⟨c, ⟨h1, by rw [(hB c).2.2]; exact h2⟩, by rw [hA' c hcb]; exact h3⟩
  · intro r k
    by_cases hr : r = p
    · subst hr
      rw [hM, hm, ← h.fixed]
      constructor
      · rintro (h1 | ⟨x, -, hx⟩)
        · exact h1
        · cases hx
      · exact .inl
    · rw [hM' r hr]; exact h.fixed r k

theorem rangesOf_sorted {st : St} {c : Nat} (ht : Tidy (st.bundles c).ranges) : SortedM (rangesOf st c) := by
  unfold SortedM rangesOf
  refine ⟨?_, ?_⟩
  · intro e he
    obtain ⟨x, hx, rfl⟩ := List.mem_map.mp he
    exact ht.1 x hx
  · rw [List.pairwise_map]; exact ht.2

/-- A bundle is taken out of its register and put back on the list. -/
theorem Core.evict (h : Core P q0 q todo) {p : PReg} (hb : b < q.st.nBundles) (ht : Tidy (q.st.bundles b).ranges)
    (ha : (q.st.bundles b).alloc = some p) : Core P q0 (evictBundle q b) (b :: todo) := by
  obtain ⟨a1, a2, a3, a4⟩ := h.alloc b hb p ha
  have hev := PregMap.evict_spec (rangesOf q.st b) (q.maps p) (h.sorted p) (rangesOf_sorted ht) (by
    intro r hr
    obtain ⟨e, he, rfl⟩ := List.mem_map.mp hr
    exact a4 e he)
  have hq : evictBundle q b = PSt.setMap { q with st := { q.st.modB b (fun x => { x with alloc := none }) with
      queue := q.st.queue ++ [(b, (q.st.bundles b).prio, none)] } } p (PregMap.evict (q.maps p) (rangesOf q.st b)) := by
    unfold evictBundle
    rw [ha]
    simp [St.modB, upd]
  generalize PregMap.evict (q.maps p) (rangesOf q.st b) = m at *
  have hB : ∀ c, ((evictBundle q b).st.bundles c).spillset = (q.st.bundles c).spillset ∧
      ((evictBundle q b).st.bundles c).minimal = (q.st.bundles c).minimal ∧
      ((evictBundle q b).st.bundles c).ranges = (q.st.bundles c).ranges := by
    intro c
    rw [hq]
    unfold PSt.setMap
    by_cases hc : c = b
    · subst hc; simp [St.modB, upd]
    · simp [St.modB, upd, hc]
  have hA : ((evictBundle q b).st.bundles b).alloc = none := by
    rw [hq]; simp [PSt.setMap, St.modB, upd]
  have hA' : ∀ c, c ≠ b → ((evictBundle q b).st.bundles c).alloc = (q.st.bundles c).alloc := by
    intro c hc; rw [hq]; simp [PSt.setMap, St.modB, upd, hc]
  have hM : (evictBundle q b).maps p = m := by rw [hq]; simp [PSt.setMap]
  have hM' : ∀ r, r ≠ p → (evictBundle q b).maps r = q.maps r := by
    intro r hr; rw [hq]; simp [PSt.setMap, hr]
  have hR : (evictBundle q b).st.ranges = q.st.ranges ∧ (evictBundle q b).st.nRanges = q.st.nRanges ∧
      (evictBundle q b).st.nBundles = q.st.nBundles ∧ (evictBundle q b).st.vregs = q.st.vregs ∧
      (evictBundle q b).st.spillsets = q.st.spillsets ∧ (evictBundle q b).st.nSpillsets = q.st.nSpillsets := by
    rw [hq]; exact ⟨rfl, rfl, rfl, rfl, rfl, rfl⟩
  obtain ⟨r1, r2, r3, r4, r5, r6⟩ := hR
  have hU : ∀ c, usesOf (evictBundle q b).st c = usesOf q.st c := fun c => usesOf_congr (hB c).2.2 (fun _ _ => by rw [r1])
  have hnb : b ∉ todo := fun hx => by have := (h.todoOk b hx).2; rw [ha] at this; cases this
  generalize evictBundle q b = q' at *
  refine ⟨h.shape.congr' r1 r2 r3 r4 (fun _ => by rw [r5]) hB, List.nodup_cons.mpr ⟨hnb, h.todoNodup⟩, ?_, ?_, ?_, ?_, ?_, ?_,
    by rw [r5]; exact h.hints, by rw [r6]; exact h.nSets, by rw [r5]; exact h.sets⟩
  · intro c hc
    rw [r3]
    rcases List.mem_cons.mp hc with rfl | hc
    · exact ⟨hb, hA⟩
    · rw [hA' c (fun hx => hnb (hx ▸ hc))]; exact h.todoOk c hc
  · intro c hc hr
    rw [r3] at hc
    rw [(hB c).2.2] at hr
    rw [(hB c).1, hU c, r5]
    by_cases hcb : c = b
    · exact .inr (.inl (by simp [hcb]))
    · rw [hA' c hcb]
      rcases h.status c hc hr with h1 | h1 | h1
      · exact .inl h1
      · exact .inr (.inl (by simp [h1]))
      · exact .inr (.inr h1)
  · intro c hc r hr
    rw [r3] at hc
    by_cases hcb : c = b
    · subst hcb; rw [hA] at hr; cases hr
    · rw [hA' c hcb] at hr
      rw [(hB c).1, (hB c).2.2, hU c]
      obtain ⟨h1, h2, h3, h4⟩ := h.alloc c hc r hr
      refine ⟨h1, h2, h3, fun e he => ?_⟩
      by_cases hrp : r = p
      · subst hrp
        rw [hM, hev.2]
        refine ⟨h4 e he, ?_⟩
        intro x hx hxe
        obtain ⟨e', he', rfl⟩ := List.mem_map.mp hx
        have hi : e.index = e'.index := by simpa using congrArg Prod.snd hxe
        exact hcb (h.shape.unique ⟨hc, he⟩ ⟨hb, he'⟩ hi).1
      · rw [hM' r hrp]; exact h4 e he
  · intro r
    by_cases hr : r = p
    · subst hr; rw [hM]; exact hev.1
    · rw [hM' r hr]; exact h.sorted r
  · intro r k i hki
    have hki' : (k, some i) ∈ q.maps r := by
      by_cases hr : r = p
      · subst hr; rw [hM, hev.2] at hki; exact hki.1
      · rw [hM' r hr] at hki; exact hki
    obtain ⟨c, ⟨h1, h2⟩, h3⟩ := h.entry r k i hki'
    have hcb : c ≠ b := by
      rintro rfl
      rw [ha] at h3
      cases h3
      rw [hM, hev.2] at hki
      exact hki.2 (k, i) (List.mem_map.mpr ⟨⟨k, i⟩, h2, rfl⟩) rfl
    exact ⟨c, ⟨by rw [r3]; exact h1, by rw [(hB c).2.2]; exact h2⟩, by rw [hA' c hcb]; exact h3⟩
  · intro r k
    by_cases hr : r = p
    · subst hr
      rw [hM, hev.2, ← h.fixed]
      constructor
      · exact fun x => x.1
      · intro h1
        refine ⟨h1, ?_⟩
        intro x _ hx
        cases hx
    · rw [hM' r hr]; exact h.fixed r k

/-- A bundle is cut up, and the parts are put on the list. -/
theorem Core.recut {st' : St} {hint : Option PReg} {todo' : List Nat} (h : Core P q0 q (b :: todo)) (r : Recut q.st b hint st')
    (hbs : ¬ IsSpill q.st b) (hsm : ∀ e ∈ (q.st.bundles b).ranges, ¬ Small q.st b e)
    (hsp : ∀ s, IsSpill q.st s → (q.st.bundles s).alloc = none)
    (hreg : ∀ c < st'.nBundles, IsSpill st' c → c ∈ todo ++ todo')
    (hnd : (todo ++ todo').Nodup) (hnew : ∀ c ∈ todo', c = b ∨ q.st.nBundles ≤ c ∧ c < st'.nBundles)
    (hall : ∀ c, c = b ∨ q.st.nBundles ≤ c → c < st'.nBundles → ¬ IsSpill st' c → (st'.bundles c).ranges ≠ [] → c ∈ todo ++ todo') :
    Core P q0 { q with st := st' } (todo ++ todo') := by
  have hb := h.todoOk b (by simp)
  have frm := r.frm
  have hkeepB : ∀ c < q.st.nBundles, c ≠ b → ¬ IsSpill q.st c → st'.bundles c = q.st.bundles c ∧ usesOf st' c = usesOf q.st c := by
    intro c hc hcb hs
    have h1 := r.bund c hc hcb (h.shape.not_spill hs)
    refine ⟨h1, usesOf_congr (by rw [h1]) ?_⟩
    intro e he
    rw [(r.keep c e ⟨hc, he⟩ hcb).2.1]
  have hallocOld : ∀ c < st'.nBundles, ∀ p, (st'.bundles c).alloc = some p →
      c < q.st.nBundles ∧ c ≠ b ∧ (q.st.bundles c).alloc = some p ∧ ¬ IsSpill q.st c := by
    intro c hc p hp
    by_cases hcn : c < q.st.nBundles
    · rw [(frm.old c hcn).1] at hp
      refine ⟨hcn, ?_, hp, ?_⟩
      · rintro rfl; rw [hb.2] at hp; cases hp
      · intro hx; rw [hsp c hx] at hp; cases hp
    · rw [(frm.new c (by omega) hc).1] at hp; cases hp
  refine ⟨r.shape h.shape hb.1 hbs hsm, hnd, ?_, ?_, ?_, h.sorted, ?_, h.fixed, ?_, by rw [frm.nS]; exact h.nSets, ?_⟩
  · intro c hc
    dsimp only
    rcases List.mem_append.mp hc with hc | hc
    · have := h.todoOk c (by simp [hc])
      rw [(frm.old c this.1).1]
      exact ⟨Nat.lt_of_lt_of_le this.1 frm.nB, this.2⟩
    · rcases hnew c hc with rfl | ⟨h1, h2⟩
      · rw [(frm.old c hb.1).1]; exact ⟨Nat.lt_of_lt_of_le hb.1 frm.nB, hb.2⟩
      · exact ⟨h2, (frm.new c h1 h2).1⟩
  · intro c hc hr
    dsimp only at hc hr ⊢
    by_cases hs : IsSpill st' c
    · exact .inr (.inl (hreg c hc hs))
    · by_cases hcase : c = b ∨ q.st.nBundles ≤ c
      · exact .inr (.inl (hall c hcase hc hs hr))
      · rw [not_or] at hcase
        have hcn : c < q.st.nBundles := by omega
        obtain ⟨h1, h2⟩ := hkeepB c hcn hcase.1 (fun hx => hs ((frm.isSpill_old hcn).mpr hx))
        rw [h1] at hr ⊢
        rw [h2]
        rcases h.status c hcn hr with h3 | h3 | ⟨h3, h4⟩
        · exact .inl h3
        · exact .inr (.inl (List.mem_append_left _ ((List.mem_cons.mp h3).resolve_left hcase.1)))
        · refine .inr (.inr ⟨?_, h4⟩)
          have := congrArg SpillSet.required (frm.set (q.st.bundles c).spillset)
          dsimp only at this
          rw [this]; exact h3
  · intro c hc p hp
    dsimp only at hc hp ⊢
    obtain ⟨h1, h2, h3, h4⟩ := hallocOld c hc p hp
    obtain ⟨h5, h6⟩ := hkeepB c h1 h2 h4
    rw [h5, h6]
    exact h.alloc c h1 p h3
  · intro p k i hki
    obtain ⟨c, hl, h3⟩ := h.entry p k i hki
    have hcb : c ≠ b := by rintro rfl; rw [hb.2] at h3; cases h3
    exact ⟨c, (r.keep c _ hl hcb).1, by dsimp only; rw [(frm.old c hl.1).1]; exact h3⟩
  · intro t p hp
    dsimp only at hp
    have := congrArg SpillSet.hint (frm.set t)
    dsimp only at this
    rw [this] at hp
    exact h.hints t p hp
  · intro t
    dsimp only
    have h1 := congrArg SpillSet.cls (frm.set t)
    have h2 := congrArg SpillSet.range (frm.set t)
    dsimp only at h1 h2
    rw [h1, h2]
    exact h.sets t

end
end Regalloc.Ion
