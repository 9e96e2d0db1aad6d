import Verif.Proofs.ProcessCore
import Verif.Props.RegTraversal

/-
The invariant of the allocation loop, and its steps. Helper lemmas for C40.
-/
namespace Regalloc.Ion

open PregMap (PMap ScanEnv tryAlloc Ov)
open Requirement (compute)

/-- The invariant of `process_bundles`; `busy` is the bundle that was popped, if any. -/
structure Inv (P : Params) (q0 q : PSt) (busy : List Nat) : Prop where
  core : Core P q0 q (busy ++ q.st.queue.map (·.1) ++ q.st.spilled)
  wait : ∀ c ∈ busy ++ q.st.queue.map (·.1), (q.st.bundles c).ranges ≠ [] ∧ ¬ IsSpill q.st c
  props : ∀ c < q.st.nBundles, ¬ IsSpill q.st c → (q.st.bundles c).ranges ≠ [] →
    (q.st.bundles c).limit = bundleLimit q.st (q.st.bundles c).ranges ∧
    ((q.st.bundles c).minimal = true → FewUses q.st (q.st.bundles c).ranges (q.st.bundles c).fixed)
  spilled : ∀ c ∈ q.st.spilled, IsSpill q.st c ∨ ∀ u ∈ usesOf q.st c, u.op.constraint = .Any
  registered : Registered q.st
  qhints : ∀ x ∈ q.st.queue, ∀ p, x.2.2 = some p → Eligible P.env q0.st (q.st.bundles x.1).spillset p
  used : ∀ c < q.st.nBundles, (q.st.bundles c).alloc ≠ none → ∃ u ∈ usesOf q.st c, u.op.constraint ≠ .Any

section
variable {P : Params} {q0 q : PSt} {todo busy : List Nat} {b : Nat}

/-- The lists do not matter to the core. -/
theorem Core.lists (h : Core P q0 q todo) (qu : List (Nat × Nat × Option PReg)) (sp : List Nat) :
    Core P q0 { q with st := { q.st with queue := qu, spilled := sp } } todo :=
  ⟨h.shape.congr' rfl rfl rfl rfl (fun _ => rfl) (fun _ => ⟨rfl, rfl, rfl⟩), h.todoNodup, h.todoOk, h.status, h.alloc, h.sorted, h.entry,
    h.fixed, h.hints, h.nSets, h.sets⟩

theorem Inv.spill_none (h : Inv P q0 q busy) {c : Nat} (hc : IsSpill q.st c) : (q.st.bundles c).alloc = none := by
  have := h.registered _ _ hc
  exact (h.core.todoOk c (List.mem_append_right _ this)).2

theorem Inv.busy_lt (h : Inv P q0 q (b :: busy)) : b < q.st.nBundles ∧ (q.st.bundles b).alloc = none ∧
    (q.st.bundles b).ranges ≠ [] ∧ ¬ IsSpill q.st b ∧ b ∉ q.st.queue.map (·.1) ∧ b ∉ q.st.spilled := by
  have h1 := h.core.todoOk b (by simp)
  have h2 := h.wait b (by simp)
  have h3 := h.core.todoNodup
  simp only [List.cons_append, List.nodup_cons, List.mem_append, not_or] at h3
  exact ⟨h1.1, h1.2, h2.1, h2.2, h3.1.1.2, h3.1.2⟩

theorem queueMax_mem (m : Nat × Nat × Option PReg) (l : List (Nat × Nat × Option PReg)) : queueMax m l ∈ m :: l := by
  induction l generalizing m with
  | nil => simp [queueMax]
  | cons x xs ih =>
    unfold queueMax
    have := ih (if queueLt m x then x else m)
    rcases List.mem_cons.mp this with h | h
    · rw [h]; split <;> simp
    · simp [h]

theorem popMax_perm {l rest : List (Nat × Nat × Option PReg)} {x : Nat × Nat × Option PReg} (h : popMax l = some (x, rest)) :
    l.Perm (x :: rest) := by
  cases l with
  | nil => cases h
  | cons y ys =>
    unfold popMax at h
    have h := Option.some.inj h
    have h1 := (Prod.mk.inj h).1
    have h2 := (Prod.mk.inj h).2
    rw [← h2, ← h1]
    exact List.perm_cons_erase (queueMax_mem y ys)

/-- Take the next bundle from the queue. -/
theorem Inv.pop (h : Inv P q0 q []) {prio : Nat} {hint : Option PReg} {rest : List (Nat × Nat × Option PReg)}
    (hp : popMax q.st.queue = some ((b, prio, hint), rest)) :
    Inv P q0 { q with st := { q.st with queue := rest } } [b] ∧
      ∀ p, hint = some p → Eligible P.env q0.st (q.st.bundles b).spillset p := by
  have hperm := popMax_perm hp
  have hm : (q.st.queue.map (·.1)).Perm (b :: rest.map (·.1)) := hperm.map _
  refine ⟨⟨?_, ?_, h.props, h.spilled, h.registered, ?_, h.used⟩, ?_⟩
  · have := h.core.lists rest q.st.spilled
    refine this.perm ?_
    dsimp only
    rw [List.nil_append]
    exact hm.append_right _
  · intro c hc
    exact h.wait c (by simpa using hm.mem_iff.mpr hc)
  · intro x hx
    exact h.qhints x (hperm.mem_iff.mpr (List.mem_cons_of_mem _ hx))
  · intro p hpp
    exact h.qhints _ (hperm.mem_iff.mpr (List.mem_cons_self ..)) p hpp

theorem spillRanges_self {st : St} {c : Nat} (h : IsSpill st c) : spillRanges st (st.bundles c).spillset = (st.bundles c).ranges := by
  unfold spillRanges; rw [h]

/-- The bundle at hand is cut up. -/
theorem Inv.recut {st' : St} {hint : Option PReg} (h : Inv P q0 q [b]) (r : Recut q.st b hint st') (rq : Requeued q.st b hint st')
    (hreg : Registered st') (hsm : ∀ e ∈ (q.st.bundles b).ranges, ¬ Small q.st b e)
    (hh : ∀ p, hint = some p → Eligible P.env q0.st (q.st.bundles b).spillset p) :
    Inv P q0 { q with st := st' } [] := by
  obtain ⟨b1, b2, b3, b4, b5, b6⟩ := h.busy_lt
  obtain ⟨qn, k1, k2, k3⟩ := rq.queue
  have frm := r.frm
  have hold : ∀ c ∈ q.st.queue.map (·.1) ++ q.st.spilled, c < q.st.nBundles := by
    intro c hc
    exact (h.core.todoOk c (by simp only [List.cons_append, List.nil_append, List.mem_cons]; exact .inr hc)).1
  have hkeepB : ∀ c < q.st.nBundles, c ≠ b → ¬ IsSpill q.st c → st'.bundles c = q.st.bundles c ∧ usesOf st' c = usesOf q.st c ∧
      bundleLimit st' (q.st.bundles c).ranges = bundleLimit q.st (q.st.bundles c).ranges ∧
      (∀ f, FewUses q.st (q.st.bundles c).ranges f → FewUses st' (q.st.bundles c).ranges f) := by
    intro c hc hcb hs
    have h1 := r.bund c hc hcb (h.core.shape.not_spill hs)
    have h2 : ∀ e ∈ (q.st.bundles c).ranges, st'.ranges e.index = q.st.ranges e.index :=
      fun e he => (r.keep c e ⟨hc, he⟩ hcb).2.1
    refine ⟨h1, usesOf_congr (by rw [h1]) (fun e he => by rw [h2 e he]), ?_, ?_⟩
    · unfold bundleLimit
      generalize (none : Option Nat) = l0
      revert h2
      induction (q.st.bundles c).ranges generalizing l0 with
      | nil => intro _; rfl
      | cons e es ih =>
        intro h2
        rw [List.foldl_cons, List.foldl_cons, h2 e (by simp)]
        exact ih _ (fun e he => h2 e (by simp [he]))
    · rintro f ⟨e, he, hl⟩
      exact ⟨e, he, by rw [h2 e (by rw [he]; simp)]; exact hl⟩
  -- the spill list
  obtain ⟨sn, s1, s2⟩ : ∃ sn, st'.spilled = q.st.spilled ++ sn ∧
      (sn = [] ∨ ∃ s, sn = [s] ∧ q.st.nBundles ≤ s ∧ s < st'.nBundles ∧ IsSpill st' s) := by
    rcases frm.spilled with ⟨-, h2⟩ | ⟨-, s, h3, h4, h5, h6⟩
    · exact ⟨[], by rw [h2]; simp, .inl rfl⟩
    · refine ⟨[s], h6, .inr ⟨s, rfl, h3, h4, ?_⟩⟩
      unfold IsSpill
      rw [(frm.new s h3 h4).2]; exact h5
  have hperm : (q.st.queue.map (·.1) ++ q.st.spilled ++ (qn.map (·.1) ++ sn)).Perm ([] ++ st'.queue.map (·.1) ++ st'.spilled) := by
    rw [k1, s1, List.map_append, List.nil_append]
    simp only [List.append_assoc]
    refine List.Perm.append_left _ ?_
    rw [← List.append_assoc, ← List.append_assoc]
    exact List.Perm.append_right _ List.perm_append_comm
  have hndold : (q.st.queue.map (·.1) ++ q.st.spilled).Nodup := by
    have := h.core.todoNodup
    simp only [List.cons_append, List.nil_append, List.nodup_cons] at this
    exact this.2
  have hbnot : b ∉ q.st.queue.map (·.1) ++ q.st.spilled := by
    rw [List.mem_append, not_or]; exact ⟨b5, b6⟩
  have hcore : Core P q0 { q with st := st' } (q.st.queue.map (·.1) ++ q.st.spilled ++ (qn.map (·.1) ++ sn)) := by
    have hc := h.core
    simp only [List.cons_append, List.nil_append] at hc
    refine hc.recut r b4 hsm (fun s hs => h.spill_none hs) ?_ ?_ ?_ ?_
    · intro c _ hs
      have := hreg _ _ hs
      rw [s1] at this
      simp only [List.mem_append] at this ⊢
      grind
    · rw [List.nodup_append]
      refine ⟨hndold, ?_, ?_⟩
      · rw [List.nodup_append]
        refine ⟨k2, ?_, ?_⟩
        · rcases s2 with rfl | ⟨s, rfl, -⟩ <;> simp
        · intro x hx y hy
          rcases s2 with rfl | ⟨s, rfl, -, -, hs⟩
          · cases hy
          · rw [List.mem_singleton] at hy
            rintro rfl
            subst hy
            exact ((k3 x).mp hx).2.2.1 hs
      · intro x hx y hy
        rintro rfl
        have hlt := hold x hx
        rcases List.mem_append.mp hy with hy | hy
        · rcases ((k3 x).mp hy).1 with rfl | hy
          · exact hbnot hx
          · omega
        · rcases s2 with rfl | ⟨s, rfl, h3, -⟩
          · cases hy
          · rw [List.mem_singleton] at hy; omega
    · intro c hc
      rcases List.mem_append.mp hc with hc | hc
      · have := (k3 c).mp hc
        rcases this.1 with h1 | h1
        · exact .inl h1
        · exact .inr ⟨h1, this.2.1⟩
      · rcases s2 with rfl | ⟨s, rfl, h3, h4, -⟩
        · cases hc
        · rw [List.mem_singleton] at hc; subst hc; exact .inr ⟨h3, h4⟩
    · intro c h1 h2 h3 h4
      have := (k3 c).mpr ⟨h1, h2, h3, h4⟩
      simp only [List.mem_append]
      exact .inr (.inl this)
  refine ⟨hcore.perm hperm, ?_, ?_, ?_, hreg, ?_, ?_⟩
  · intro c hc
    dsimp only at hc ⊢
    rw [k1, List.nil_append, List.map_append, List.mem_append] at hc
    rcases hc with hc | hc
    · have hlt := hold c (List.mem_append_left _ hc)
      have hcb : c ≠ b := by rintro rfl; exact b5 hc
      have := h.wait c (by simp only [List.mem_append]; exact .inr hc)
      rw [(hkeepB c hlt hcb this.2).1]
      exact ⟨this.1, fun hx => this.2 ((frm.isSpill_old hlt).mp hx)⟩
    · have := (k3 c).mp hc
      exact ⟨this.2.2.2, this.2.2.1⟩
  · intro c hc hs hr
    dsimp only at hc hs hr ⊢
    by_cases hcase : c = b ∨ q.st.nBundles ≤ c
    · exact ⟨rq.limit c hcase hc hs hr, rq.few c hcase hc hs hr⟩
    · rw [not_or] at hcase
      have hcn : c < q.st.nBundles := by omega
      have hs' : ¬ IsSpill q.st c := fun hx => hs ((frm.isSpill_old hcn).mpr hx)
      obtain ⟨h1, -, h2, h3⟩ := hkeepB c hcn hcase.1 hs'
      rw [h1] at hr ⊢
      rw [h2]
      have := h.props c hcn hs' hr
      exact ⟨this.1, fun hm => h3 _ (this.2 hm)⟩
  · intro c hc
    dsimp only at hc ⊢
    rw [s1, List.mem_append] at hc
    rcases hc with hc | hc
    · have hlt := hold c (List.mem_append_right _ hc)
      have hcb : c ≠ b := by rintro rfl; exact b6 hc
      by_cases hs : IsSpill q.st c
      · exact .inl ((frm.isSpill_old hlt).mpr hs)
      · rcases h.spilled c hc with h1 | h1
        · exact absurd h1 hs
        · right
          rw [(hkeepB c hlt hcb hs).2.1]; exact h1
    · rcases s2 with rfl | ⟨s, rfl, -, -, hs⟩
      · cases hc
      · rw [List.mem_singleton] at hc; subst hc; exact .inl hs
  · intro x hx p hp
    dsimp only at hx ⊢
    rw [k1, List.mem_append] at hx
    rcases hx with hx | hx
    · have hlt := hold x.1 (List.mem_append_left _ (List.mem_map.mpr ⟨x, hx, rfl⟩))
      rw [(frm.old x.1 hlt).2]
      exact h.qhints x hx p hp
    · have hxm := (k3 x.1).mp (List.mem_map.mpr ⟨x, hx, rfl⟩)
      have hset : (st'.bundles x.1).spillset = (q.st.bundles b).spillset := by
        rcases hxm.1 with h1 | h1
        · rw [h1]; exact (frm.old b b1).2
        · exact (frm.new x.1 h1 hxm.2.1).2
      rw [hset]
      rcases frm.hints x (by rw [k1]; exact List.mem_append_right _ hx) with h1 | h1
      · -- an old entry: then its bundle is old and waits
        have hm : x.1 ∈ q.st.queue.map (·.1) := List.mem_map.mpr ⟨x, h1, rfl⟩
        have hlt := hold x.1 (List.mem_append_left _ hm)
        rcases hxm.1 with h2 | h2
        · rw [h2] at hm; exact absurd hm b5
        · omega
      · exact hh p (by rw [← h1]; exact hp)
  · intro c hc ha
    dsimp only at hc ha ⊢
    by_cases hcn : c < q.st.nBundles
    · rw [(frm.old c hcn).1] at ha
      have hcb : c ≠ b := by rintro rfl; exact ha b2
      have hs : ¬ IsSpill q.st c := fun hs => ha (h.spill_none hs)
      rw [(hkeepB c hcn hcb hs).2.1]
      exact h.used c hcn ha
    · exact absurd (frm.new c (by omega) hc).1 ha

theorem few_of_small (h : Inv P q0 q [b]) (hm : (q.st.bundles b).minimal = true) : (usesOf q.st b).length ≤ 1 := by
  obtain ⟨b1, -, b3, b4, -⟩ := h.busy_lt
  obtain ⟨e, he, hl⟩ := (h.props b b1 b4 b3).2 hm
  unfold usesOf
  rw [he]
  rcases hl with ⟨hl, -⟩ | ⟨u, hl, -⟩ <;> simp [hl]

/-- Split the bundle at hand. -/
theorem Inv.split {hint : Option PReg} {at_ : Nat} {trim : Bool} (h : Inv P q0 q [b]) (hmin : (q.st.bundles b).minimal = false)
    {first last : Entry} (hf : (q.st.bundles b).ranges.head? = some first) (hl : (q.st.bundles b).ranges.getLast? = some last)
    (hat : first.range.fr ≤ at_ ∧ at_ < last.range.to)
    (hh : ∀ p, hint = some p → Eligible P.env q0.st (q.st.bundles b).spillset p) :
    ∃ st', splitAndRequeue q.st b at_ hint trim = some st' ∧ Recut q.st b hint st' ∧ Requeued q.st b hint st' ∧
      Inv P q0 { q with st := st' } [] := by
  obtain ⟨b1, b2, b3, b4, b5, b6⟩ := h.busy_lt
  obtain ⟨st', h1, h2, h3⟩ := split_step h.core.shape b1 b4 b3 hf hl hat (hint := hint) (trim := trim)
  refine ⟨st', h1, h2, h3, h.recut h2 h3 (C31_spill_bundle_recorded _ _ _ _ _ _ h.registered h1) ?_ hh⟩
  intro e _ hs
  have := hs.2.1
  rw [hmin] at this
  cases this

/-- Move the bundle at hand to the spill bundle. -/
theorem Inv.moveToSpill {s : Nat} (h : Inv P q0 q [b]) (hs : (q.st.spillsets (q.st.bundles b).spillset).spillBundle = some s)
    (hany : ∀ u ∈ usesOf q.st b, u.op.constraint = .Any) :
    Requeued q.st b none (moveToSpill q.st b s) ∧ Inv P q0 { q with st := moveToSpill q.st b s } [] := by
  obtain ⟨b1, b2, b3, b4, b5, b6⟩ := h.busy_lt
  have hany' : ∀ e ∈ (q.st.bundles b).ranges, ∀ u ∈ (q.st.ranges e.index).uses, u.op.constraint = .Any :=
    fun e he u hu => hany u ((mem_usesOf _ _ _).mpr ⟨e, he, hu⟩)
  have r := moveToSpill_recut h.core.shape b1 b4 hs hany' none
  have hsb : s ≠ b := by rintro rfl; exact b4 hs
  obtain ⟨f1, f2, f3, f4, f5, f6, f7, f8, f9, f10, f11⟩ := moveToSpill_facts (st := q.st) hsb
  have hbe : ((Ion.moveToSpill q.st b s).bundles b).ranges = [] := by rw [f2]
  have rq : Requeued q.st b none (Ion.moveToSpill q.st b s) := by
    refine ⟨⟨[], by rw [f10]; simp, by simp, fun c => ⟨by simp, ?_⟩⟩, ?_, ?_, .inr ⟨hbe, ?_⟩⟩
    · rintro ⟨rfl | h1, h2, h3, h4⟩
      · exact absurd hbe h4
      · rw [f6] at h2; omega
    · intro c h1 h2 _ h4
      rcases h1 with rfl | h1
      · exact absurd hbe h4
      · rw [f6] at h2; omega
    · intro c h1 h2 _ h4
      rcases h1 with rfl | h1
      · exact absurd hbe h4
      · rw [f6] at h2; omega
    · intro c h1 h2
      rw [f6] at h2; omega
  refine ⟨rq, h.recut r rq ?_ ?_ (by simp)⟩
  · intro t s' hs'
    rw [f8] at hs'
    rw [f11]; exact h.registered t s' hs'
  · rintro e he ⟨-, -, u, hu, hne, -⟩
    exact hne (hany' e he u (by rw [hu]; simp))

/-- Put the bundle at hand on the list of spilled bundles. -/
theorem Inv.toSpilled (h : Inv P q0 q [b]) (hany : ∀ u ∈ usesOf q.st b, u.op.constraint = .Any) :
    Inv P q0 { q with st := { q.st with spilled := q.st.spilled ++ [b] } } [] := by
  refine ⟨?_, ?_, h.props, ?_, ?_, h.qhints, h.used⟩
  · refine (h.core.lists q.st.queue (q.st.spilled ++ [b])).perm ?_
    dsimp only
    simp only [List.cons_append, List.nil_append, ← List.append_assoc]
    exact (List.perm_append_singleton b _).symm
  · intro c hc
    exact h.wait c (by simp only [List.nil_append] at hc; simp only [List.mem_append]; exact .inr hc)
  · intro c hc
    rcases List.mem_append.mp hc with hc | hc
    · exact h.spilled c hc
    · rw [List.mem_singleton] at hc; subst hc; exact .inr hany
  · intro t s hs
    exact List.mem_append_left _ (h.registered t s hs)

theorem isSpill_modS {st : St} {t c : Nat} {g : SpillSet → SpillSet} (h1 : (g (st.spillsets t)).spillBundle = (st.spillsets t).spillBundle) :
    IsSpill (st.modS t g) c ↔ IsSpill st c := by
  have : ∀ x, ((st.modS t g).spillsets x).spillBundle = (st.spillsets x).spillBundle := by
    intro x
    simp only [St.modS, upd]
    split
    · subst_vars; exact h1
    · rfl
  unfold IsSpill
  rw [this]; rfl

/-- The rest of the invariant does not depend on the other fields of spill sets. -/
theorem Inv.of_core_modS {t : Nat} {g : SpillSet → SpillSet} {busy' : List Nat} (h : Inv P q0 q busy)
    (h1 : (g (q.st.spillsets t)).spillBundle = (q.st.spillsets t).spillBundle) (hsub : ∀ c ∈ busy', c ∈ busy)
    (hc : Core P q0 { q with st := q.st.modS t g } (busy' ++ q.st.queue.map (·.1) ++ q.st.spilled)) :
    Inv P q0 { q with st := q.st.modS t g } busy' := by
  refine ⟨hc, ?_, ?_, ?_, ?_, h.qhints, h.used⟩
  · intro c hcm
    dsimp only
    rw [isSpill_modS h1]
    refine h.wait c ?_
    dsimp only [St.modS] at hcm
    simp only [List.mem_append] at hcm ⊢
    rcases hcm with h2 | h2
    · exact .inl (hsub c h2)
    · exact .inr h2
  · intro c hc hs hr
    dsimp only at hs
    rw [isSpill_modS h1] at hs
    exact h.props c hc hs hr
  · intro c hc
    dsimp only
    rw [isSpill_modS h1]
    exact h.spilled c hc
  · intro t' s hs
    dsimp only at hs
    simp only [St.modS, upd] at hs
    split at hs
    · subst_vars; rw [h1] at hs; exact h.registered _ s hs
    · exact h.registered t' s hs

/-- The bundle at hand needs a slot. -/
theorem Inv.require (h : Inv P q0 q [b]) (hu : ∀ u ∈ usesOf q.st b, SlotUse u) :
    Inv P q0 { q with st := q.st.modS (q.st.bundles b).spillset (fun s => { s with required := true }) } [] := by
  have hc : Core P q0 q (b :: ([] ++ q.st.queue.map (·.1) ++ q.st.spilled)) := h.core
  exact h.of_core_modS rfl (by simp) (hc.require hu)

theorem isSpill_modB {st : St} {b c : Nat} {g : Bundle → Bundle} (h1 : (g (st.bundles b)).spillset = (st.bundles b).spillset) :
    IsSpill (st.modB b g) c ↔ IsSpill st c := by
  have : ((st.modB b g).bundles c).spillset = (st.bundles c).spillset := by
    simp only [St.modB, upd]
    split
    · subst_vars; exact h1
    · rfl
  unfold IsSpill
  rw [this]; rfl

/-- The bundle at hand gets a register. -/
theorem Inv.take (h : Inv P q0 q [b]) {p : PReg} {m : PMap}
    (he : Eligible P.env q0.st (q.st.bundles b).spillset p)
    (ha : ∀ u ∈ usesOf q.st b, u.op.constraint.Admits P.env (Place.ofPReg P.env p)) (hs : SortedM m)
    (hm : ∀ y, y ∈ m ↔ y ∈ q.maps p ∨ ∃ r ∈ rangesOf q.st b, y = (r.1, some r.2))
    (hany : ∃ u ∈ usesOf q.st b, u.op.constraint ≠ .Any) :
    Inv P q0 { (q.take b p m) with st := (q.take b p m).st.modS ((q.take b p m).st.bundles b).spillset (fun s => { s with hint := some p }) } [] := by
  obtain ⟨b1, b2, b3, b4, b5, b6⟩ := h.busy_lt
  have hc : Core P q0 q (b :: (q.st.queue.map (·.1) ++ q.st.spilled)) := h.core
  have hc' := hc.take b3 he ha hs hm
  have hI : ∀ c, IsSpill (q.take b p m).st c ↔ IsSpill q.st c := fun c =>
    isSpill_modB (st := q.st) (b := b) (g := fun x => { x with alloc := some p }) rfl
  have hB : ∀ c, ((q.take b p m).st.bundles c).ranges = (q.st.bundles c).ranges ∧
      ((q.take b p m).st.bundles c).spillset = (q.st.bundles c).spillset ∧
      ((q.take b p m).st.bundles c).limit = (q.st.bundles c).limit ∧
      ((q.take b p m).st.bundles c).minimal = (q.st.bundles c).minimal ∧ ((q.take b p m).st.bundles c).fixed = (q.st.bundles c).fixed := by
    intro c
    unfold PSt.take PSt.setMap
    dsimp only
    by_cases hcb : c = b
    · subst hcb; rw [modB_self]; exact ⟨rfl, rfl, rfl, rfl, rfl⟩
    · rw [modB_other _ _ _ _ hcb]; exact ⟨rfl, rfl, rfl, rfl, rfl⟩
  have h1 : Inv P q0 (q.take b p m) [] := by
    refine ⟨hc', ?_, ?_, ?_, h.registered, ?_, ?_⟩
    · intro c hcm
      rw [(hB c).1, hI]
      exact h.wait c (List.mem_append_right _ hcm)
    · intro c hcn hs hr
      rw [hI] at hs
      rw [(hB c).1] at hr ⊢
      rw [(hB c).2.2.1, (hB c).2.2.2.1, (hB c).2.2.2.2]
      exact h.props c hcn hs hr
    · intro c hcm
      rw [hI, usesOf_congr (st' := (q.take b p m).st) (hB c).1 (fun _ _ => rfl)]
      exact h.spilled c hcm
    · intro x hx
      rw [(hB x.1).2.1]
      exact h.qhints x hx
    · intro c hcn hal
      rw [usesOf_congr (st' := (q.take b p m).st) (hB c).1 (fun _ _ => rfl)]
      by_cases hcb : c = b
      · rw [hcb]; exact hany
      · refine h.used c hcn ?_
        unfold PSt.take PSt.setMap at hal
        dsimp only at hal
        rw [modB_other _ _ _ _ hcb] at hal
        exact hal
  refine h1.of_core_modS rfl (by simp) (h1.core.modS _ _ rfl (fun h => h) ?_ ⟨rfl, rfl⟩)
  intro r hr
  cases hr
  rw [(hB b).2.1]
  exact he

/-- What `evictBundle` does to a bundle that has a register. -/
theorem evictBundle_facts {p : PReg} (ha : (q.st.bundles b).alloc = some p) :
    (∀ c, ((evictBundle q b).st.bundles c) = if c = b then { q.st.bundles b with alloc := none } else q.st.bundles c) ∧
    (evictBundle q b).st.ranges = q.st.ranges ∧ (evictBundle q b).st.nRanges = q.st.nRanges ∧
    (evictBundle q b).st.nBundles = q.st.nBundles ∧ (evictBundle q b).st.vregs = q.st.vregs ∧
    (evictBundle q b).st.spillsets = q.st.spillsets ∧ (evictBundle q b).st.spilled = q.st.spilled ∧
    (evictBundle q b).st.queue = q.st.queue ++ [(b, (q.st.bundles b).prio, none)] := by
  unfold evictBundle
  rw [ha]
  refine ⟨?_, rfl, rfl, rfl, rfl, rfl, rfl, ?_⟩
  · intro c
    simp only [PSt.setMap, St.modB, upd]
  · simp [PSt.setMap, St.modB, upd]

/-- Another bundle loses its register. -/
theorem Inv.evict {d : Nat} {p : PReg} (h : Inv P q0 q busy) (hd : d < q.st.nBundles) (ha : (q.st.bundles d).alloc = some p) :
    Inv P q0 (evictBundle q d) busy := by
  have hns : ¬ IsSpill q.st d := fun hx => by rw [h.spill_none hx] at ha; cases ha
  have hc := h.core.evict hd (h.core.shape.tidy d hd hns) ha
  obtain ⟨e1, e2, e3, e4, e5, e6, e7, e8⟩ := evictBundle_facts ha
  have hB : ∀ c, ((evictBundle q d).st.bundles c).ranges = (q.st.bundles c).ranges ∧
      ((evictBundle q d).st.bundles c).spillset = (q.st.bundles c).spillset ∧
      ((evictBundle q d).st.bundles c).limit = (q.st.bundles c).limit ∧
      ((evictBundle q d).st.bundles c).minimal = (q.st.bundles c).minimal ∧ ((evictBundle q d).st.bundles c).fixed = (q.st.bundles c).fixed := by
    intro c
    rw [e1]
    split
    · subst_vars; exact ⟨rfl, rfl, rfl, rfl, rfl⟩
    · exact ⟨rfl, rfl, rfl, rfl, rfl⟩
  have hI : ∀ c, IsSpill (evictBundle q d).st c ↔ IsSpill q.st c := by
    intro c; unfold IsSpill; rw [(hB c).2.1, e6]
  have hal := h.core.alloc d hd p ha
  refine ⟨?_, ?_, ?_, ?_, ?_, ?_, ?_⟩
  · refine hc.perm ?_
    rw [e8, e7, List.map_append, List.map_singleton]
    simp only [← List.append_assoc]
    refine List.Perm.trans ?_ (List.Perm.append_right _ (List.perm_append_singleton d _).symm)
    simp
  · intro c hcm
    rw [(hB c).1, hI]
    rw [e8, List.map_append, List.map_singleton] at hcm
    simp only [List.mem_append, List.mem_singleton] at hcm
    rcases hcm with h1 | h1 | h1
    · exact h.wait c (List.mem_append_left _ h1)
    · exact h.wait c (List.mem_append_right _ h1)
    · subst h1; exact ⟨hal.1, hns⟩
  · intro c hcn hs hr
    rw [hI] at hs
    rw [(hB c).1] at hr ⊢
    rw [(hB c).2.2.1, (hB c).2.2.2.1, (hB c).2.2.2.2]
    rw [e4] at hcn
    have := h.props c hcn hs hr
    unfold bundleLimit FewUses
    rw [e2]
    exact this
  · intro c hcm
    rw [e7] at hcm
    rw [hI, usesOf_congr (hB c).1 (fun _ _ => by rw [e2])]
    exact h.spilled c hcm
  · unfold Registered
    rw [e6, e7]; exact h.registered
  · intro x hx r hr
    rw [(hB x.1).2.1]
    rw [e8, List.mem_append, List.mem_singleton] at hx
    rcases hx with hx | rfl
    · exact h.qhints x hx r hr
    · cases hr
  · intro c hcn hc
    rw [usesOf_congr (hB c).1 (fun _ _ => by rw [e2])]
    refine h.used c (by rw [← e4]; exact hcn) ?_
    rw [e1] at hc
    split at hc
    · exact absurd rfl hc
    · exact hc

theorem Inv.evictAll (bs : List Nat) : ∀ {q : PSt}, Inv P q0 q busy → bs.Nodup →
    (∀ d ∈ bs, d < q.st.nBundles ∧ (q.st.bundles d).alloc ≠ none) → Inv P q0 (bs.foldl evictBundle q) busy := by
  induction bs with
  | nil => intro q h _ _; exact h
  | cons d bs ih =>
    intro q h hnd hall
    rw [List.foldl_cons]
    obtain ⟨h1, h2⟩ := hall d (by simp)
    obtain ⟨p, hp⟩ := Option.ne_none_iff_exists'.mp h2
    obtain ⟨e1, -, -, e4, -⟩ := evictBundle_facts hp
    rw [List.nodup_cons] at hnd
    refine ih (h.evict h1 hp) hnd.2 ?_
    intro c hc
    rw [e4, e1, if_neg (show ¬ c = d from fun hx => hnd.1 (hx ▸ hc))]
    exact hall c (by simp [hc])

end
end Regalloc.Ion
