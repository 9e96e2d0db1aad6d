import Verif.Proofs.DebugFlow
import Verif.Proofs.PipeTotal
import Verif.Model.DebugInfo
import Mathlib.Data.List.TakeWhile

/-
The debug locations of a run of the backtracking allocator.
-/
namespace Regalloc.Debug

open Exec ResolveMoves Apply Pipeline

/-- The locations are those of the ranges from which the output is made. -/
theorem ran_debug {i : Input} (hp : ProgramOk i) (hr : RegsOk i) {out : Output} (h : run i = .ok out) (labels : List Label) :
    ∃ fr q ss slots num ms allocs edits s, Ran i out fr q ss slots num ms allocs edits s ∧
      debugLocations i labels = .ok (locations (moveInput i fr q ss slots) labels) := by
  unfold run at h
  split at h
  · cases h
  rename_i fr hfr
  have hf := front_ok hfr
  unfold back at h
  split at h
  · cases h
  · cases h
  · cases h
  rename_i q hq
  split at h
  · cases h
  rename_i ss slots num hs
  split at h
  · cases h
  rename_i ms allocs ha
  split at h
  · cases h
  rename_i edits s he
  cases h
  have P := Ion.C40_placed (params i fr.info) ⟨fr.st, reservations fr.b1.pregs⟩ q i.fuel (setting hp hf hr) (ready hp hf) hq
  refine ⟨fr, q, ss, slots, num, ms, allocs, edits, s, ⟨hf, ⟨P, slotted ?_ hs⟩, ha, he, rfl⟩, ?_⟩
  · intro t ht
    rw [P.known.1] at ht
    rw [P.extent]
    exact (corr hp hf).lone.wide t ht
  · unfold debugLocations
    rw [hfr]
    dsimp only
    rw [hq]
    dsimp only
    rw [hs]
    rfl

theorem mem_labelsOf {labels : List Label} {v : Nat} {L : Label} (h : L ∈ labelsOf labels v) : L ∈ labels ∧ L.vreg.vreg = v := by
  unfold labelsOf at h
  have h1 := (List.takeWhile_sublist _).subset h
  refine ⟨(List.dropWhile_sublist _).subset h1, ?_⟩
  have := List.mem_takeWhile_imp h
  simpa using this

/-- If labels are sorted by register, all of them are found. -/
theorem labelsOf_all {labels : List Label} (hs : labels.Pairwise (fun a b => a.vreg.vreg ≤ b.vreg.vreg)) {L : Label} (h : L ∈ labels) :
    L ∈ labelsOf labels L.vreg.vreg := by
  unfold labelsOf
  generalize hv : L.vreg.vreg = v
  induction labels with
  | nil => cases h
  | cons a l ih =>
    rw [List.pairwise_cons] at hs
    by_cases ha : a.vreg.vreg < v
    · rw [List.dropWhile_cons_of_pos (by simpa using ha)]
      rcases List.mem_cons.mp h with rfl | h
      · omega
      · exact ih hs.2 h
    · rw [List.dropWhile_cons_of_neg (by simpa using ha)]
      have key : ∀ l : List Label, l.Pairwise (fun a b => a.vreg.vreg ≤ b.vreg.vreg) → (∀ a ∈ l, v ≤ a.vreg.vreg) → L ∈ l →
          L ∈ l.takeWhile (fun l => decide (l.vreg.vreg = v)) := by
        intro l
        induction l with
        | nil => intro _ _ h; cases h
        | cons b l ih2 =>
          intro h1 h2 h3
          rw [List.pairwise_cons] at h1
          have hb : b.vreg.vreg = v := by
            have := h2 b List.mem_cons_self
            rcases List.mem_cons.mp h3 with rfl | h3
            · exact hv
            · have := h1.1 L h3
              omega
          rw [List.takeWhile_cons_of_pos (by simpa using hb)]
          rcases List.mem_cons.mp h3 with rfl | h3
          · exact List.mem_cons_self
          · exact List.mem_cons_of_mem _ (ih2 h1.2 (fun c hc => h2 c (List.mem_cons_of_mem _ hc)) h3)
      refine key (a :: l) (List.pairwise_cons.mpr hs) ?_ h
      intro c hc
      rcases List.mem_cons.mp hc with rfl | hc
      · omega
      · have := hs.1 c hc
        omega

theorem mem_locations {x : Env} {labels : List Label} {l s t : Nat} {a : Allocation} :
    (l, s, t, a) ∈ locations x labels ↔ ∃ v, v < x.numVregs ∧ ∃ r ∈ x.ranges v, ∃ L ∈ labelsOf labels v,
      r.range.fr < ptBefore L.to ∧ ptBefore L.fr < r.range.to ∧ l = L.label ∧ s = max (ptBefore L.fr) r.range.fr ∧
      t = min (ptBefore L.to) r.range.to ∧ a = r.alloc := by
  unfold locations
  rw [mem_isort]
  simp only [List.mem_flatMap, List.mem_range, List.mem_filterMap]
  have key : ∀ (r : FRange) (L : Label), rangeLoc r L = some (l, s, t, a) ↔ r.range.fr < ptBefore L.to ∧ ptBefore L.fr < r.range.to ∧ l = L.label ∧
      s = max (ptBefore L.fr) r.range.fr ∧ t = min (ptBefore L.to) r.range.to ∧ a = r.alloc := by
    intro r L
    unfold rangeLoc RKey.overlaps
    by_cases h1 : r.range.fr < ptBefore L.to <;> by_cases h2 : ptBefore L.fr < r.range.to
    · simp [h1, h2, eq_comm]
    · simp [h2]
    · simp [h1]
    · simp [h1]
  constructor
  · rintro ⟨v, hv, r, hr, L, hL, h⟩
    exact ⟨v, hv, r, hr, L, hL, (key r L).mp h⟩
  · rintro ⟨v, hv, r, hr, L, hL, h⟩
    exact ⟨v, hv, r, hr, L, hL, (key r L).mpr h⟩

section
variable {i : Input} (hp : ProgramOk i) (hr : RegsOk i) {out : Output} {fr : Front} {q : Ion.PSt} {ss : Spill.State} {slots : List SpillSlot}
  {num : UInt32} {ms : List InsertedMove} {allocs : Nat → Nat → Allocation} {edits : List RMove} {s : Slots}
  (H : Ran i out fr q ss slots num ms allocs edits s)
include hp hr H

/-- The value of a register is in the location of a range at its points. -/
theorem range_locates (hfit : Fits i out) {v : Nat} {r : FRange} (hrv : r ∈ (moveInput i fr q ss slots).ranges v) {b j : Nat}
    (hb : b < i.f.numBlocks) (hj : j ∈ i.f.blockInsts b) (hn : ¬ IntoJoin i.f b j) :
    (r.Has (ptAfter j) → Locates i.f out (i.vreg v) r.alloc b (ptAfter j)) ∧
    (r.Has (ptBefore j) → ¬ DefinesIn i.f j v →
      (∀ k o m o', OpAt i.f j k o → o.constraint = .Reuse m → OpAt i.f j m o' → o'.vreg.vreg ≠ v → r.Has (ptAfter j)) →
      Locates i.f out (i.vreg v) r.alloc b (ptBefore j)) := by
  obtain ⟨srcs, psrcs, pdests, al1, al2, gs, ed, s', D, h1, hst, hblock⟩ := run_points (func_ok hp fr q ss slots) (H.valid hp hr)
    (machine_ok hr H.loop allocs) (H.room hfit) H.apply rfl rfl rfl (sortedMoves_perm i ms) (sortedMoves_sorted i ms)
  rw [H.resolve] at h1
  cases h1
  have hf := func_ok hp fr q ss slots
  have hv := H.valid hp hr
  have hout := H.out
  subst hout
  have start : ∀ (Val : Type) (sem : Sem Val) (junk : Nat → Allocation → Val) (ks : List Nat) (V V' : VReg → Val) (A A' : Allocation → Val)
      (trA trV : Trace Val), allocReach i.f (outputOf i.f s.num.toNat edits allocs) sem junk ks i.f.entry A [] = some (b, A', trA) →
      origReach i.f sem ks i.f.entry V [] = some (b, V', trV) →
      trA = trV ∧ Start (moveInput i fr q ss slots) (moveEnv i fr.info q.maps allocs) num.toNat ms b A' (Is (moveInput i fr q ss slots) V') := by
    intro Val sem junk ks V V' A A' trA trV g1 g2
    obtain ⟨g3, _, g4⟩ := reach_start hf hv D (hst Val) sem junk (fun b hb A tr => (hblock Val sem junk b hb A tr).1) ks i.f.entry A V [] hf.entry
      (Reaches.refl _ _) (fun σ' _ => arr_entry hf hv D σ' _) b A' V' trA trV g1 g2
    exact ⟨g3, g4⟩
  constructor
  · intro hh Val sem junk ks V V' A A' trA trV g1 g2
    obtain ⟨rfl, g3⟩ := start Val sem junk ks V V' A A' trA trV g1 g2
    have := at_after hf hv D (hst Val) hb hj hn sem junk trA g3 hrv hh
    refine (congrArg (fun z => z.1 r.alloc) ((hblock Val sem junk b hb A' trA).2 j hj).1).trans ?_
    rw [show (ptAfter j + 1) / 2 = j + 1 by unfold ptAfter; omega]
    exact this
  · intro hh hd hre Val sem junk ks V V' A A' trA trV g1 g2
    obtain ⟨rfl, g3⟩ := start Val sem junk ks V V' A A' trA trV g1 g2
    have := at_before hf hv D (hst Val) hb hj hn sem junk trA g3 hrv hh hd hre
    refine (congrArg (fun z => z r.alloc) ((hblock Val sem junk b hb A' trA).2 j hj).2).trans ?_
    rw [show (ptBefore j + 1) / 2 = j by unfold ptBefore; omega]
    exact this

omit hr in
/-- The ranges cover exactly what is live. -/
theorem ranges_live {v : Nat} (hv : v < i.f.numVregs) {b : Nat} (hb : b < i.f.numBlocks) {p : Nat} (hin : Build.InBlock i.f b p) :
    (∃ r ∈ (moveInput i fr q ss slots).ranges v, r.Has p) ↔
      Build.LiveAt i.f (Liveness.MayReadAfter i.f b v ∨ Build.PassedOn i.f b v) b v p := by
  rw [← (fix_regOk hp H.front.toMidOk (vreg_small hp hv)).live b hb p hin]
  constructor
  · rintro ⟨r, h1, h2⟩
    obtain ⟨c, e, b0, e0, r0, P⟩ := part hp H.front H.loop h1
    have h3 := P.orig.start
    have h4 := P.orig.stop
    have h5 := P.stands.range
    have h6 := P.range
    rw [FRange.Has, h6] at h2
    rw [h5] at h3 h4
    exact ⟨r0, P.mem, by omega, by omega⟩
  · rintro ⟨r0, h1, h2, h3⟩
    obtain ⟨R, h4, h5, -⟩ := covered_part hp H.front H.loop hv h1 h2 h3 (loc := allocOf q.st ss.assigned slots)
    exact ⟨R, h4, h5⟩
end

end Regalloc.Debug
