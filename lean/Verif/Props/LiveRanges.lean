/-
C34: building live ranges (`/repo/src/ion/liveranges.rs`).
-/
import Verif.Proofs.LiveRangesAllocs
import Verif.Props.Liveness

namespace Regalloc

open Build Liveness

private theorem noTies {f : Func} (hr : Ready f) : NoTies f := by
  intro i p v h1 h2
  obtain ⟨o, h3, h4⟩ := List.mem_map.mp h1
  obtain ⟨o', h5, h6⟩ := List.mem_map.mp h2
  obtain ⟨h7, h8⟩ := List.mem_filter.mp h3
  obtain ⟨h9, h10⟩ := List.mem_filter.mp h5
  simp only [decide_eq_true_eq] at h8 h10
  obtain ⟨j, hj⟩ := List.mem_iff_getElem?.mp h7
  obtain ⟨k, hk⟩ := List.mem_iff_getElem?.mp h9
  have := hr.once i k j o' o hk hj (by
    rintro rfl
    rw [hj] at hk
    cases hk
    rw [h8.1] at h10
    exact absurd h10.1 (by decide)) h10.2.2 h8.2.2 (by rw [h4, h6])
  rw [h10.1] at this
  exact absurd this (by decide)

private theorem ok_spec {f : Func} {ord : HashOrder} {multi : Bool} {lo : Nat → IndexSet} (hr : Ready f) (hg : ∀ b, Good (lo b))
    {st : Build.St} (h : build ord multi f lo = .ok st) : ∃ all, OInv f lo 0 all st := by
  have := build_safe hr (np := False) (few := False) (by simp) (by simp) ord multi lo hg
  rw [h] at this
  exact this

section
variable (f : Func) (hr : Ready f) (he : EdgesMatch f) (ord : HashOrder) (multi : Bool) (po : List Nat)
  (hpo : Postorder.calculate? f.numBlocks f.entry f.succs = some (.ok po)) (ls : Liveness.State)
  (hls : compute ord f po = some (.ok ls))
include hr he hpo hls

/-- C34. Within every reachable block the ranges built for a register cover exactly the points
at which it is live: from each definition (or the start of the block) to its last use (or the
end of the block), and at least the rest of the defining instruction. -/
theorem C34_covers_exactly (st : Build.St) (hst : build ord multi f ls.liveouts = .ok st) (v : Nat) (hv : v < 2 ^ 30)
    (b : Nat) (hb : b < f.numBlocks) (hreach : Reaches f.succs f.entry b) (p : Nat) (hp : InBlock f b p) :
    Covered (st.ranges v) p ↔ LiveAt f (MayReadAfter f b v ∨ PassedOn f b v) b v p := by
  have hg := liveouts_good f ord he (noTies hr) hr.branches po hpo ls hls
  obtain ⟨all, h⟩ := ok_spec hr hg hst
  have hl := (C24_liveness_exact f ord he (noTies hr) hr.branches po hpo ls hls b hreach v hv).2
  rw [(h.reg v hv).2.1]
  have hout : OutOf f ls.liveouts b v ↔ (MayReadAfter f b v ∨ PassedOn f b v) := by unfold OutOf; rw [hl]
  constructor
  · rintro ⟨c, _, hc, hpc, hlc⟩
    have : c = b := by
      have h1 : 2 * (f.insns b).1 ≤ p := hp.1
      have h2 : p < 2 * (f.insns b).2 := hp.2
      have h3 : 2 * (f.insns c).1 ≤ p := hpc.1
      have h4 : p < 2 * (f.insns c).2 := hpc.2
      rcases Nat.lt_trichotomy c b with h5 | h5 | h5
      · have := hr.ordered c b h5 hb; omega
      · exact h5
      · have := hr.ordered b c h5 hc; omega
    subst this
    unfold LiveAt at hlc ⊢
    rwa [hout] at hlc
  · intro h1
    refine ⟨b, Nat.zero_le _, hb, hp, ?_⟩
    unfold LiveAt at h1 ⊢
    rwa [hout]

/-- C34. The ranges of a register are not empty, do not overlap or even touch, appear in
order, and lie within the function's blocks. -/
theorem C34_sorted_disjoint (st : Build.St) (hst : build ord multi f ls.liveouts = .ok st) (v : Nat) (hv : v < 2 ^ 30) :
    (st.ranges v).Pairwise (fun r r' => r.range.to < r'.range.fr) ∧ (∀ r ∈ st.ranges v, r.range.fr < r.range.to) ∧
    ∀ p, Covered (st.ranges v) p → ∃ b, b < f.numBlocks ∧ InBlock f b p := by
  have hg := liveouts_good f ord he (noTies hr) hr.branches po hpo ls hls
  obtain ⟨all, h⟩ := ok_spec hr hg hst
  obtain ⟨h1, h2, _⟩ := h.reg v hv
  refine ⟨h1.sorted, h1.ne, ?_⟩
  intro p hp
  obtain ⟨c, _, h3, h4, _⟩ := (h2 p).mp hp
  exact ⟨c, h3, h4⟩

/-- C34. Every operand that names a virtual register is recorded in a range of that register
that contains the point where it takes effect. The record has the operand as it is, or
without its fixed-register constraint if a fixup move has been noted for it. -/
theorem C34_operand_recorded (st : Build.St) (hst : build ord multi f ls.liveouts = .ok st) (b : Nat) (hb : b < f.numBlocks)
    (i : Nat) (hi : i ∈ f.blockInsts b) (k : Nat) (o : Op) (ho : (f.operands i)[k]? = some o)
    (hna : o.asFixedNonallocatable = none) :
    ∃ r ∈ st.ranges o.vreg.vreg, ∃ u ∈ r.uses, u.slot = k ∧ u.pos = recordPoint f i o ∧
      r.range.fr ≤ u.pos ∧ u.pos < r.range.to ∧ RecordedAs st.fixups i k o u.op := by
  have hg := liveouts_good f ord he (noTies hr) hr.branches po hpo ls hls
  obtain ⟨all, h⟩ := ok_spec hr hg hst
  have hv := Liveness.vreg_lt o.vreg
  obtain ⟨h1, _, h2⟩ := h.reg _ hv
  obtain ⟨ev, h3, h4⟩ := (h.e.keys i k).mpr ⟨⟨b, Nat.zero_le _, hb, mem_blockInsts.mp hi⟩, (List.getElem?_eq_some_iff.mp ho).1⟩
  obtain ⟨e1, e2⟩ := Prod.mk.inj h4
  obtain ⟨o', h5, h6⟩ := h.e.just ev h3
  rw [e1, e2, ho] at h5
  cases h5
  rw [e1, e2] at h6
  obtain ⟨s1, s2, s3, s4⟩ := h6.same
  have h7 : toUse f ev ∈ (st.ranges o.vreg.vreg).flatMap (·.uses) := by
    rw [h2]
    exact mem_recs.mpr ⟨ev, h3, names_iff.mpr ⟨s4.trans hna, by rw [s1]⟩, rfl⟩
  obtain ⟨r, h8, h9⟩ := List.mem_flatMap.mp h7
  refine ⟨r, h8, toUse f ev, h9, e2, ?_, (h1.inr r h8 _ h9).1, (h1.inr r h8 _ h9).2, h6⟩
  show evPt f ev = _
  unfold evPt
  rw [e1, opPoint_congr _ _ s1 s2 s3, opPoint_record]

/-- C34. Nothing else is recorded: every use in a range comes from an operand with that register,
lies in the range, and no operand is recorded twice. Uses appear in order. -/
theorem C34_records_are_operands (st : Build.St) (hst : build ord multi f ls.liveouts = .ok st) (v : Nat) (hv : v < 2 ^ 30) :
    (∀ r ∈ st.ranges v, ∀ u ∈ r.uses, r.range.fr ≤ u.pos ∧ u.pos < r.range.to ∧
      ∃ b, b < f.numBlocks ∧ ∃ i ∈ f.blockInsts b, ∃ o, (f.operands i)[u.slot]? = some o ∧ o.vreg.vreg = v ∧
        o.asFixedNonallocatable = none ∧ u.pos = recordPoint f i o ∧ u.pos / 2 = i ∧ RecordedAs st.fixups i u.slot o u.op) ∧
    ((st.ranges v).flatMap (·.uses)).Pairwise (fun u u' => u.pos ≤ u'.pos ∧ (u.pos / 2, u.slot) ≠ (u'.pos / 2, u'.slot)) := by
  have hg := liveouts_good f ord he (noTies hr) hr.branches po hpo ls hls
  obtain ⟨all, h⟩ := ok_spec hr hg hst
  obtain ⟨h1, _, h2⟩ := h.reg v hv
  refine ⟨?_, ?_⟩
  · intro r hr' u hu
    refine ⟨(h1.inr r hr' u hu).1, (h1.inr r hr' u hu).2, ?_⟩
    have h3 : u ∈ recs f v all := by rw [← h2]; exact List.mem_flatMap.mpr ⟨r, hr', hu⟩
    obtain ⟨ev, h4, h5, rfl⟩ := mem_recs.mp h3
    obtain ⟨o, h6, h7⟩ := h.e.just ev h4
    obtain ⟨c, _, h8, h9⟩ := h.e.mem h4
    obtain ⟨s1, s2, s3, s4⟩ := h7.same
    obtain ⟨n1, n2⟩ := names_iff.mp h5
    refine ⟨c, h8, ev.1, mem_blockInsts.mpr h9, o, h6, by rw [← s1]; exact n2, s4 ▸ n1, ?_, evPt_div f ev, h7⟩
    show evPt f ev = _
    unfold evPt
    rw [opPoint_congr _ _ s1 s2 s3, opPoint_record]
  · rw [h2]
    unfold recs
    rw [List.pairwise_map]
    refine List.Pairwise.filter _ ?_
    have h3 : all.Pairwise (fun a b => key a ≠ key b) := List.pairwise_map.mp h.e.nodup
    refine (h.e.sorted.and h3).imp ?_
    intro a c hac
    refine ⟨hac.1, ?_⟩
    show (evPt f a / 2, a.2.2) ≠ (evPt f c / 2, c.2.2)
    rw [evPt_div, evPt_div]
    exact hac.2

/-- C34. A range is marked as starting at a definition exactly when a definition is recorded in
it. -/
theorem C34_starts_at_def (st : Build.St) (hst : build ord multi f ls.liveouts = .ok st) (v : Nat) (hv : v < 2 ^ 30) :
    ∀ r ∈ st.ranges v, (r.startsAtDef = true ↔ ∃ u ∈ r.uses, u.op.kind = .Def) := by
  have hg := liveouts_good f ord he (noTies hr) hr.branches po hpo ls hls
  obtain ⟨all, h⟩ := ok_spec hr hg hst
  exact (h.reg v hv).1.flag

/-- C34. Physical registers are reserved exactly while results are written by an instruction
that clobbers them, and at the start of an instruction for each fixup move; fixup moves are
noted only for early uses fixed to that register. -/
theorem C34_reservations (st : Build.St) (hst : build ord multi f ls.liveouts = .ok st) :
    (∀ p r, (p, r) ∈ st.pregs ↔
      (∃ b, b < f.numBlocks ∧ ∃ i ∈ f.blockInsts b, p ∈ f.clobbers i ∧ r = ⟨ptAfter i, ptBefore (i + 1)⟩) ∨
      ∃ fx ∈ st.fixups, p = fx.preg ∧ r = ⟨fx.pos, fx.pos + 1⟩) ∧
    ∀ fx ∈ st.fixups, ∃ b, b < f.numBlocks ∧ ∃ i ∈ f.blockInsts b, fx.pos = ptBefore i ∧ ∃ o,
      (f.operands i)[fx.slot]? = some o ∧ o.constraint = .FixedReg fx.preg ∧ o.kind = .Use ∧ o.pos = .Early ∧
      o.vreg.vreg = fx.vreg := by
  have hg := liveouts_good f ord he (noTies hr) hr.branches po hpo ls hls
  obtain ⟨all, h⟩ := ok_spec hr hg hst
  refine ⟨?_, ?_⟩
  · intro p r
    rw [h.p.pregs]
    constructor
    · rintro (⟨i, ⟨c, _, h1, h2⟩, h3, h4⟩ | ⟨fx, h1, h2⟩)
      · exact .inl ⟨c, h1, i, mem_blockInsts.mpr h2, h3, h4⟩
      · obtain ⟨rfl, rfl⟩ := Prod.mk.inj h2
        exact .inr ⟨fx, h1, rfl, rfl⟩
    · rintro (⟨c, h1, i, h2, h3, h4⟩ | ⟨fx, h1, rfl, rfl⟩)
      · exact .inl ⟨i, ⟨c, Nat.zero_le _, h1, mem_blockInsts.mp h2⟩, h3, h4⟩
      · exact .inr ⟨fx, h1, rfl⟩
  · intro fx hfx
    obtain ⟨i, o, ⟨c, _, h1, h2⟩, h3, h4⟩ := h.p.fixups fx hfx
    exact ⟨c, h1, i, mem_blockInsts.mpr h2, h3, o, h4⟩

/-- C34. In a reachable block a fixup move is noted for an operand exactly if it is an early use
fixed to a register which the instruction overwrites although the value is needed later. -/
theorem C34_fixup_iff (st : Build.St) (hst : build ord multi f ls.liveouts = .ok st) (b : Nat) (hb : b < f.numBlocks)
    (hreach : Reaches f.succs f.entry b) (i : Nat) (hi : i ∈ f.blockInsts b) (fx : Fixup) (hpos : fx.pos = ptBefore i) :
    fx ∈ st.fixups ↔ ∃ o, (f.operands i)[fx.slot]? = some o ∧ o.vreg.vreg = fx.vreg ∧ Overwritten f i o fx.preg ∧
      NeededAfter f (MayReadAfter f b fx.vreg ∨ PassedOn f b fx.vreg) b fx.vreg i := by
  have hg := liveouts_good f ord he (noTies hr) hr.branches po hpo ls hls
  obtain ⟨all, h⟩ := ok_spec hr hg hst
  have hN : ∀ v, v < 2 ^ 30 → (NeededIn f ls.liveouts i v ↔ NeededAfter f (MayReadAfter f b v ∨ PassedOn f b v) b v i) := by
    intro v hv
    have hl := (C24_liveness_exact f ord he (noTies hr) hr.branches po hpo ls hls b hreach v hv).2
    have hout : OutOf f ls.liveouts b v ↔ (MayReadAfter f b v ∨ PassedOn f b v) := by unfold OutOf; rw [hl]
    have h1 : NeededAfter f (OutOf f ls.liveouts b v) b v i ↔ NeededAfter f (MayReadAfter f b v ∨ PassedOn f b v) b v i := by
      unfold NeededAfter; rw [hout]
    rw [← h1]
    constructor
    · rintro ⟨c, h2, h3, h4⟩
      have h3 := mem_blockInsts.mp h3
      have hi := mem_blockInsts.mp hi
      have : c = b := by
        rcases Nat.lt_trichotomy c b with h5 | h5 | h5
        · have := hr.ordered c b h5 hb; omega
        · exact h5
        · have := hr.ordered b c h5 h2; omega
      subst this
      exact h4
    · intro h2; exact ⟨b, hb, hi, h2⟩
  rw [h.x]
  constructor
  · rintro ⟨j, k, o, p, _, h2, h3, h4, rfl⟩
    have hj : j = i := by
      have : 2 * j = 2 * i := hpos
      omega
    subst hj
    exact ⟨o, h2, rfl, h3, (hN _ (Liveness.vreg_lt _)).mp h4⟩
  · rintro ⟨o, h1, h2, h3, h4⟩
    refine ⟨i, fx.slot, o, fx.preg, ⟨b, Nat.zero_le _, hb, mem_blockInsts.mp hi⟩, h1, h3, ?_, ?_⟩
    · rw [h2]
      exact (hN _ (by rw [← h2]; exact Liveness.vreg_lt _)).mpr h4
    · rw [h2, ← hpos]

omit hr he hpo hls in
/-- C34. Exactly the operands that name a register which cannot be allocated are assigned here,
each to that register. -/
theorem C34_nonallocatable_assigned (lo : Nat → IndexSet) (st : Build.St) (hst : build ord multi f lo = .ok st)
    (i k : Nat) (p : PReg) : (i, k, p) ∈ st.allocs ↔ ∃ b, b < f.numBlocks ∧ i ∈ f.blockInsts b ∧
      ∃ o, (f.operands i)[k]? = some o ∧ o.asFixedNonallocatable = some p := by
  rw [build_allocs hst]
  constructor
  · rintro ⟨b, h1, i', h2, k', o, p', h3, h4, h5⟩
    simp only [Prod.mk.injEq] at h5
    obtain ⟨rfl, rfl, rfl⟩ := h5
    exact ⟨b, h1, h2, o, h3, h4⟩
  · rintro ⟨b, h1, h2, o, h3, h4⟩
    exact ⟨b, h1, i, h2, k, o, p, h3, h4, rfl⟩

/-- C34. The lists of block parameters have exactly the arguments passed on the edges, and
exactly the pairs of a parameter and a predecessor. -/
theorem C34_block_params (st : Build.St) (hst : build ord multi f ls.liveouts = .ok st) :
    (∀ b c to fr, (b, c, to, fr) ∈ st.outs ↔ b < f.numBlocks ∧ ∃ (k j : Nat) (p a : VReg), (f.succs b)[k]? = some c ∧
      (f.params c)[j]? = some p ∧ (f.args b (f.lastInst b) k)[j]? = some a ∧ to = p.vreg ∧ fr = a.vreg) ∧
    ∀ v b q, (v, b, q) ∈ st.ins ↔ b < f.numBlocks ∧ v ∈ (f.params b).map VReg.vreg ∧ q ∈ f.preds b := by
  have hg := liveouts_good f ord he (noTies hr) hr.branches po hpo ls hls
  obtain ⟨all, h⟩ := ok_spec hr hg hst
  refine ⟨?_, ?_⟩
  · intro b c to fr
    rw [h.outs]
    constructor
    · rintro ⟨b', c', p, a, _, h1, ⟨k, j, h2, h3, h4⟩, h5⟩
      simp only [Prod.mk.injEq] at h5
      obtain ⟨rfl, rfl, rfl, rfl⟩ := h5
      exact ⟨h1, k, j, p, a, h2, h3, h4, rfl, rfl⟩
    · rintro ⟨h1, k, j, p, a, h2, h3, h4, rfl, rfl⟩
      exact ⟨b, c, p, a, Nat.zero_le _, h1, ⟨k, j, h2, h3, h4⟩, rfl⟩
  · intro v b q
    rw [h.ins]
    constructor
    · rintro ⟨b', _, h1, p, h2, q', h3, h4⟩
      simp only [Prod.mk.injEq] at h4
      obtain ⟨rfl, rfl, rfl⟩ := h4
      exact ⟨h1, List.mem_map.mpr ⟨p, h2, rfl⟩, h3⟩
    · rintro ⟨h1, h2, h3⟩
      obtain ⟨p, h4, rfl⟩ := List.mem_map.mp h2
      exact ⟨b, Nat.zero_le _, h1, p, h4, q, h3, rfl⟩

/-- C34. The pass does not panic (no debug assertion in it fails), and reports too many
operands only if some instruction has more than 65536. -/
theorem C34_no_panic (hn : NoClash f) : build ord multi f ls.liveouts ≠ .error .panic ∧
    (build ord multi f ls.liveouts = .error .tooManyOperands → ∃ i, 2 ^ 16 < (f.operands i).length) := by
  have hg := liveouts_good f ord he (noTies hr) hr.branches po hpo ls hls
  constructor
  · intro h
    have := build_safe hr (np := True) (few := False) (fun _ => hn) (by simp) ord multi ls.liveouts hg
    rw [h] at this
    exact this trivial
  · intro h
    apply Classical.byContradiction
    intro hc
    have := build_safe hr (np := True) (few := True) (fun _ => hn)
      (fun _ i => Nat.le_of_not_lt (fun h => hc ⟨i, h⟩)) ord multi ls.liveouts hg
    rw [h] at this
    exact this trivial

end

/-! ### Concrete cases -/

namespace Build.Ex

private def idOrder : HashOrder := ⟨id, fun l => .refl l⟩
private def r0 : PReg := .new 0 .Int
private def use (n : Nat) : Op := ⟨.new n .Int, .Any, .Use, .Early⟩
private def useFixed (n : Nat) (p : PReg) : Op := ⟨.new n .Int, .FixedReg p, .Use, .Early⟩
private def define (n : Nat) : Op := ⟨.new n .Int, .Any, .Def, .Late⟩
private def temp (n : Nat) : Op := ⟨.new n .Int, .Reg, .Def, .Early⟩
private def reusing (n k : Nat) : Op := ⟨.new n .Int, .Reuse k, .Def, .Late⟩

/-- Block 0 defines 0, 1 and a temporary 4 and enters the loop 1 with argument 0. The loop body
takes register 1 in `r0`, which it clobbers, overwrites its parameter 2 with 3 and passes 3
back through block 3; block 2 returns 3. -/
private def f : Func where
  numInsts := 6
  numBlocks := 4
  entry := 0
  insns := fun b => if b = 0 then (0, 2) else if b = 1 then (2, 4) else if b = 2 then (4, 5) else (5, 6)
  succs := fun b => if b = 0 then [1] else if b = 1 then [3, 2] else if b = 3 then [1] else []
  preds := fun b => if b = 1 then [0, 3] else if b = 2 then [1] else if b = 3 then [1] else []
  params := fun b => if b = 1 then [.new 2 .Int] else []
  isRet := fun i => i = 4
  isBranch := fun i => i = 1 ∨ i = 3 ∨ i = 5
  args := fun b _ _ => if b = 0 then [.new 0 .Int] else if b = 3 then [.new 3 .Int] else []
  operands := fun i => if i = 0 then [define 0, define 1, temp 4] else
    if i = 2 then [useFixed 1 r0, use 2, reusing 3 1] else if i = 4 then [use 3] else []
  clobbers := fun i => if i = 2 then [r0] else []
  numVregs := 5

/-- A range with the slots and points of its uses. -/
private structure Row where
  fr : Nat
  to : Nat
  startsAtDef : Bool
  uses : List (Nat × Nat)
  deriving DecidableEq

/-- The ranges of the five registers. -/
private def show_ (s : Except Err Build.St) : List (List Row) :=
  match s with
  | .ok st => (List.range 5).map (fun v => (st.ranges v).map (fun r =>
      ⟨r.range.fr, r.range.to, r.startsAtDef, r.uses.map (fun u => (u.slot, u.pos))⟩))
  | .error _ => []

private def fixupsOf (s : Except Err Build.St) : List Fixup × List (PReg × RKey) :=
  match s with
  | .ok st => (st.fixups, st.pregs)
  | .error _ => ([], [])

private def result (g : Func) (po : List Nat) : Option (Except Err Build.St) :=
  match compute idOrder g po with
  | some (.ok ls) => some (build idOrder false g ls.liveouts)
  | _ => none

/-- The hypotheses hold of this function. -/
private theorem opsCases (P : Nat → Prop) (h0 : P 0) (h2 : P 2) (h4 : P 4) (h : ∀ i, f.operands i = [] → P i) (i : Nat) : P i := by
  by_cases e0 : i = 0
  · subst e0; exact h0
  by_cases e2 : i = 2
  · subst e2; exact h2
  by_cases e4 : i = 4
  · subst e4; exact h4
  · exact h i (by simp [f, e0, e2, e4])

private def onceCheck (ops : List Op) : Bool :=
  (List.range ops.length).all (fun j => (List.range ops.length).all (fun k =>
    match ops[j]?, ops[k]? with
    | some o, some o' => decide (j = k) || o.asFixedNonallocatable.isSome || o'.asFixedNonallocatable.isSome ||
        decide (o.vreg.vreg ≠ o'.vreg.vreg) || decide (o.kind = .Use)
    | _, _ => true))

private theorem once_of {ops : List Op} (h : onceCheck ops = true) (j k : Nat) (o o' : Op) (hj : ops[j]? = some o)
    (hk : ops[k]? = some o') (hne : j ≠ k) (h1 : o.asFixedNonallocatable = none) (h2 : o'.asFixedNonallocatable = none)
    (h3 : o.vreg.vreg = o'.vreg.vreg) : o.kind = .Use := by
  have := List.all_eq_true.mp (List.all_eq_true.mp h j (List.mem_range.mpr (List.getElem?_eq_some_iff.mp hj).1)) k
    (List.mem_range.mpr (List.getElem?_eq_some_iff.mp hk).1)
  simpa [hj, hk, hne, h1, h2, h3] using this

private theorem ready : Ready f where
  nonempty := by
    intro b hb
    have hb : b < 4 := hb
    rcases b with _ | _ | _ | _ | b <;> first | decide | omega
  ordered := by
    intro b c h1 h2
    have h2 : c < 4 := h2
    rcases b with _ | _ | _ | b <;> rcases c with _ | _ | _ | _ | c <;> first | decide | omega
  branches := by
    intro b
    rcases b with _ | _ | _ | _ | b
    · decide
    · decide
    · decide
    · decide
    · simp [f]
  arity := by
    intro b k c h
    rcases b with _ | _ | _ | _ | b
    · rcases k with _ | k
      · cases h; rfl
      · simp [f] at h
    · rcases k with _ | _ | k
      · cases h; rfl
      · cases h; rfl
      · simp [f] at h
    · simp [f] at h
    · rcases k with _ | k
      · cases h; rfl
      · simp [f] at h
    · simp [f] at h
  once := by
    intro i
    refine opsCases (fun i => ∀ (j k : Nat) (o o' : Op), (f.operands i)[j]? = some o → (f.operands i)[k]? = some o' → j ≠ k →
      o.asFixedNonallocatable = none → o'.asFixedNonallocatable = none → o.vreg.vreg = o'.vreg.vreg → o.kind = .Use) ?_ ?_ ?_ ?_ i
    · exact once_of (by decide +kernel)
    · exact once_of (by decide +kernel)
    · exact once_of (by decide +kernel)
    · intro i hi j k o o' h; rw [hi] at h; simp at h
  params := by
    intro b
    by_cases e : b = 1
    · subst e; decide
    · simp [f, e]
  params_def := by
    intro b v hv p
    by_cases e : b = 1
    · subst e
      rintro ⟨i, hi, o, ho, _, hk, h2, _⟩
      have hi : i = 2 ∨ i = 3 := by
        have := mem_blockInsts.mp hi
        have h1 : (f.insns 1).1 = 2 := rfl
        have h2 : (f.insns 1).2 = 4 := rfl
        omega
      have hv : v = .new 2 .Int := by simpa [f] using hv
      subst hv
      rcases hi with rfl | rfl
      · have ho : o = useFixed 1 r0 ∨ o = use 2 ∨ o = reusing 3 1 := by simpa [f] using ho
        rcases ho with rfl | rfl | rfl
        · exact absurd hk (by decide)
        · exact absurd hk (by decide)
        · exact absurd h2 (by decide)
      · simp [f] at ho
    · simp [f, e] at hv

private theorem noClash : NoClash f where
  reuse := by
    intro i j o ho hc
    revert o
    refine opsCases (fun i => ∀ o ∈ f.operands i, o.constraint = .Reuse j →
      ∃ r, (f.operands i)[j]? = some r ∧ r.asFixedNonallocatable = none) ?_ ?_ ?_ ?_ i
    · simp [f, define, temp]
    · intro o ho hc
      have ho : o = useFixed 1 r0 ∨ o = use 2 ∨ o = reusing 3 1 := by simpa [f] using ho
      rcases ho with rfl | rfl | rfl
      · cases hc
      · cases hc
      · cases hc; exact ⟨use 2, rfl, rfl⟩
    · simp [f, use]
    · intro i hi o ho; rw [hi] at ho; simp at ho
  fixed := by
    intro i
    refine opsCases (fun i => ∀ (j k : Nat) (o o' : Op) (p : PReg), (f.operands i)[j]? = some o → (f.operands i)[k]? = some o' →
      o.constraint = .FixedReg p → o'.constraint = .FixedReg p → o.kind = .Use → o'.kind = .Use →
      o.pos = .Early → o'.pos = .Early → j = k) ?_ ?_ ?_ ?_ i
    · intro j k o o' p hj _ hc
      rcases j with _ | _ | _ | j
      · cases hj; cases hc
      · cases hj; cases hc
      · cases hj; cases hc
      · simp [f] at hj
    · intro j k o o' p hj hk hc hc'
      rcases j with _ | _ | _ | j
      · rcases k with _ | _ | _ | k
        · intros; rfl
        · cases hk; cases hc'
        · cases hk; cases hc'
        · simp [f] at hk
      · cases hj; cases hc
      · cases hj; cases hc
      · simp [f] at hj
    · intro j k o o' p hj _ hc
      rcases j with _ | j
      · cases hj; cases hc
      · simp [f] at hj
    · intro i hi j k o o' p hj; rw [hi] at hj; simp at hj

example : Ready f ∧ NoClash f ∧ EdgesMatch f ∧
    Postorder.calculate? f.numBlocks f.entry f.succs = some (.ok [3, 2, 1, 0]) :=
  ⟨ready, noClash, .of_decide (by decide +kernel), by decide +kernel⟩

/-- Register 1 is live from its definition to the end of the loop, in two ranges around block 2;
its use in the loop is at the After point because another input is overwritten. The temporary
4 is live throughout the instruction. -/
example : (result f [3, 2, 1, 0]).map show_ = some [
    [⟨1, 4, true, [(0, 1)]⟩],
    [⟨1, 8, true, [(1, 1), (0, 5)]⟩, ⟨10, 12, false, []⟩],
    [⟨4, 5, false, [(1, 4)]⟩],
    [⟨5, 9, true, [(2, 5), (0, 8)]⟩, ⟨10, 12, false, []⟩],
    [⟨0, 2, true, [(2, 0)]⟩]] := by decide +kernel

/-- The fixed use of register 1 is replaced by a fixup move, and `r0` reserved for it. -/
example : (result f [3, 2, 1, 0]).map fixupsOf = some ([⟨4, 0, r0, 1⟩], [(r0, ⟨4, 5⟩), (r0, ⟨5, 6⟩)]) := by decide +kernel

/-- If the loop did not need register 1 again, there would be no fixup. -/
example : (result { f with succs := fun b => if b = 0 then [1] else if b = 1 then [2] else [], preds := fun b => if b = 1 then [0] else if b = 2 then [1] else [] }
    [2, 1, 0]).map fixupsOf = some ([], [(r0, ⟨5, 6⟩)]) := by decide +kernel

private def allocsOf (s : Except Err Build.St) : List (Nat × Nat × PReg) :=
  match s with
  | .ok st => st.allocs
  | .error _ => []

/-- An operand that names a register which cannot be allocated is assigned to it. -/
example : (result { f with operands := fun i => if i = 4 then [use 3, ⟨.invalid, .FixedReg (.new 5 .Int), .Use, .Early⟩] else f.operands i }
    [3, 2, 1, 0]).map allocsOf = some [(4, 1, .new 5 .Int)] := by decide +kernel

/-- C34, limit of the claim: an instruction that uses a register twice, both times in the same
physical register, which it also clobbers, fails a debug assertion if the register is live
afterwards. The second reservation of the physical register collides with the first. -/
theorem C34_same_fixed_use_twice_panics :
    (result { f with operands := fun i => if i = 2 then [useFixed 1 r0, useFixed 1 r0, use 2, reusing 3 2] else f.operands i } [3, 2, 1, 0]).map
      (fun r => match r with | .ok _ => none | .error e => some e) = some (some .panic) := by decide +kernel

/-- The entry, block 2, goes to block 1, which defines register 3 at its very first point, then
to block 0, placed before it, and to block 3, which uses the register. -/
private def backwards : Func :=
  { f with
    entry := 2
    succs := fun b => if b = 0 then [3] else if b = 1 then [0] else if b = 2 then [1] else []
    preds := fun b => if b = 0 then [1] else if b = 1 then [2] else if b = 3 then [0] else []
    params := fun _ => []
    args := fun _ _ _ => []
    isBranch := fun i => i = 1 ∨ i = 3 ∨ i = 4
    isRet := fun i => i = 5
    clobbers := fun _ => []
    operands := fun i => if i = 2 then [temp 3] else if i = 5 then [use 3] else [] }

/-- C34, limit of the claim: the mark "starts at a definition" says that the range has one, not
that the definition is at its start. Here the range of block 0, where the register is live
throughout, ends where block 1 starts with the definition, and becomes one range with it. -/
theorem C34_starts_at_def_elsewhere :
    (result backwards [3, 0, 1, 2]).map show_ = some [[], [], [], [⟨0, 8, true, [(0, 4)]⟩, ⟨10, 11, false, [(0, 10)]⟩], []] := by
  decide +kernel

end Build.Ex
end Regalloc
