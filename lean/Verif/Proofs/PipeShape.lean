import Verif.Proofs.PipeParts

/-! The final ranges are in the shape that the insertion of moves relies on. -/
namespace Regalloc.Pipeline

open Apply (OpAt DefAt entryPt exitPt FRange)
open Build (InBlock DefinedAt UsedAt LiveAt PassedOn Covered usePoint defPoint recordPoint RecordedAs mem_blockInsts)
open Ion (Live Origin Owns Covers Entry)

section
variable {i : Input} (hp : ProgramOk i) {fr : Front} (hf : FrontOk i fr) {q : Ion.PSt} {ss : Spill.State} {slots : List SpillSlot}
  {num : UInt32} (hl : LoopOk i fr q ss slots num) {loc : Nat → Allocation}

section
variable {v : Nat} {R : FRange} {c b0 : Nat} {e e0 : Entry} {r0 : Build.LR} (h : PartOf i fr q loc v R c e b0 e0 r0)
include h

theorem PartOf.bounds : r0.range.fr ≤ R.range.fr ∧ R.range.fr < R.range.to ∧ R.range.to ≤ r0.range.to := by
  have h1 := h.orig.start
  have h2 := h.orig.stop
  rw [h.stands.range] at h1 h2
  rw [h.range]
  exact ⟨h1, h.neat.nonempty, h2⟩

theorem PartOf.cut : R.range.fr = r0.range.fr ∨ R.range.fr % 2 = 0 := by
  have h1 := h.orig.cut
  rw [h.stands.range] at h1
  rw [h.range]
  exact h1

theorem PartOf.has {p : Nat} (hp : R.Has p) : r0.range.fr ≤ p ∧ p < r0.range.to := by
  have := h.bounds
  have h1 := hp.1
  have h2 := hp.2
  omega

theorem PartOf.use {u : Ion.Use} (hu : u ∈ R.uses) : u ∈ r0.uses := by
  rw [h.uses] at hu
  rw [← h.stands.uses]
  exact h.orig.uses u hu

theorem PartOf.use_has {u : Ion.Use} (hu : u ∈ R.uses) : R.Has u.pos := by
  rw [h.uses] at hu
  have := h.neat.inside u hu
  unfold FRange.Has
  rw [h.range]
  exact this

theorem PartOf.first {u : Ion.Use} (hu : u ∈ r0.uses) (hk : u.op.kind = .Def) (he : R.range.fr = r0.range.fr) : u ∈ R.uses := by
  rw [h.uses]
  refine h.orig.first ?_ u ?_ hk
  · rw [← h.range, h.stands.range]; exact he
  · rw [h.stands.uses]; exact hu

theorem PartOf.flagged : R.startsAtDef = true ↔ ∃ u ∈ R.uses, u.op.kind = .Def := by
  rw [h.flag, h.uses]
  exact h.neat.flag

/-- The range is determined by its number. -/
theorem PartOf.eq {v' : Nat} {R' : FRange} {c' b0' : Nat} {e' e0' : Entry} {r0' : Build.LR} (h' : PartOf i fr q loc v' R' c' e' b0' e0' r0')
    (he : e.index = e'.index) : R = R' := by
  have h1 : e.range = e'.range := by rw [← h.neat.range, ← h'.neat.range, he]
  have h2 : R.range = R'.range := by rw [h.range, h'.range, h1]
  have h3 : R.startsAtDef = R'.startsAtDef := by rw [h.flag, h'.flag, he]
  have h4 : R.uses = R'.uses := by rw [h.uses, h'.uses, he]
  have h5 : R.alloc = R'.alloc := by rw [h.alloc, h'.alloc, he]
  cases R; cases R'
  dsimp only at h2 h3 h4 h5
  rw [h2, h3, h4, h5]

include hp hf

theorem PartOf.reg : RegOk i v (fr.b1.ranges v) := fix_regOk hp hf.toMidOk (vreg_small hp h.hv)

theorem PartOf.marked : R.startsAtDef = true ↔ DefAt i.f v R.range.fr := by
  have hR := h.reg hp hf
  have hb := h.bounds
  rw [h.flagged]
  constructor
  · rintro ⟨u, hu, hk⟩
    have h1 := hR.defAt h.mem (h.use hu) hk
    have h2 := (h.neat.defStart u (h.uses ▸ hu) hk).1
    rw [h.range, ← h2]
    exact h1
  · intro hd
    obtain ⟨u, h1, h2, h3⟩ := hR.hasDef h.mem hd hb.1 (by omega)
    have := hR.def_first hp hf.toMidOk h.mem hd hb.1 (by omega)
    exact ⟨u, h.first h1 h2 this, h2⟩

theorem PartOf.oddDef (ho : R.range.fr % 2 = 1) : DefAt i.f v R.range.fr := by
  refine (h.marked hp hf).mp (h.flagged.mpr ?_)
  rw [h.uses]
  exact h.neat.odd (by rw [← h.range]; exact ho)

include hl

theorem PartOf.begins (hs : R.startsAtDef = false) : (∃ b, b < i.f.numBlocks ∧ R.range.fr = entryPt i.f b) ∨
    (R.range.fr % 2 = 0 ∧ ∃ R' ∈ finalRanges i q.st loc v, R'.range.fr < R.range.fr ∧ R.range.fr ≤ R'.range.to) := by
  have hR := h.reg hp hf
  have hb := h.bounds
  by_cases he : R.range.fr = r0.range.fr
  · left
    rw [he]
    refine hR.starts h.mem ?_
    intro u hu hk
    have := h.flagged.mpr ⟨u, h.first hu hk he, hk⟩
    rw [hs] at this
    cases this
  · right
    refine ⟨h.cut.resolve_left he, ?_⟩
    obtain ⟨R', h1, h2, -⟩ := covered_part hp hf hl (loc := loc) h.hv h.mem (p := R.range.fr - 1) (by omega) (by omega)
    have g1 := h2.1
    have g2 := h2.2
    exact ⟨R', h1, by omega, by omega⟩

end

include hp hf hl

theorem final_overlap {v : Nat} {Q R : FRange} (hQ : Q ∈ finalRanges i q.st loc v) (hR : R ∈ finalRanges i q.st loc v)
    (h1 : Q.range.fr < R.range.fr) (h2 : R.range.fr < Q.range.to) {b : Nat} (hb : R.Has (entryPt i.f b)) : R.range.fr = entryPt i.f b := by
  obtain ⟨c, e, b0, e0, r0, H⟩ := part hp hf hl hQ
  obtain ⟨c', e', b0', e0', r0', H'⟩ := part hp hf hl hR
  have hne : e.index ≠ e'.index := by
    intro he
    rw [H.eq H' he] at h1
    omega
  have hb1 := hb.1
  have hb2 := hb.2
  have hB' := H'.bounds
  have hB := H.bounds
  have he : entryPt i.f b = 2 * (i.f.insns b).1 := rfl
  rcases hl.placed.pinned c e c' e' v H.live H'.live H.owns H'.owns hne with h3 | ⟨u, -, -, h3, h4⟩ | ⟨u, -, -, h3, h4⟩
  · exfalso
    apply h3 R.range.fr
    rw [← H.range, ← H'.range]
    exact ⟨⟨by omega, by omega⟩, by omega, by omega⟩
  · exfalso
    rw [← H.range] at h3 h4
    have ho : R.range.fr % 2 = 1 := by omega
    have hd := H'.oddDef hp hf ho
    have := (H.reg hp hf).def_first hp hf.toMidOk H.mem hd (by omega) (by omega)
    omega
  · rw [← H'.range] at h3 h4
    omega

omit hf hl in
theorem op_lt {j k : Nat} {o : Op} (ho : OpAt i.f j k o) : o.vreg.vreg < i.f.numVregs :=
  (hp.func.named j o (List.mem_of_getElem? ho.2.1) ho.2.2).2

theorem final_recorded {j k : Nat} {o : Op} (ho : OpAt i.f j k o) : ∃ R ∈ finalRanges i q.st loc o.vreg.vreg, ∃ u ∈ R.uses, u.slot = k ∧
    u.pos = recordPoint i.f j o := by
  have hv := op_lt hp ho
  obtain ⟨r, h1, u, h2, h3, h4⟩ := (fix_regOk hp hf.toMidOk (vreg_small hp hv)).all j k o ho rfl
  obtain ⟨R, h5, h6, -⟩ := used_part hp hf hl (loc := loc) hv h1 h2
  exact ⟨R, h5, u, h6, h3, h4⟩

theorem final_once {v v' : Nat} {R R' : FRange} (hR : R ∈ finalRanges i q.st loc v) (hR' : R' ∈ finalRanges i q.st loc v')
    {u u' : Ion.Use} (hu : u ∈ R.uses) (hu' : u' ∈ R'.uses) (h1 : u.pos / 2 = u'.pos / 2) (h2 : u.slot = u'.slot) : R = R' ∧ u = u' := by
  obtain ⟨c, e, b0, e0, r0, H⟩ := part hp hf hl hR
  obtain ⟨c', e', b0', e0', r0', H'⟩ := part hp hf hl hR'
  have := hl.placed.once c e c' e' H.live H'.live u (H.uses ▸ hu) u' (H'.uses ▸ hu') h1 h2
  exact ⟨H.eq H' this.1, this.2⟩

theorem final_defs {j k : Nat} {o : Op} (ho : OpAt i.f j k o) (hk : o.kind = .Def) {R : FRange}
    (hR : R ∈ finalRanges i q.st loc o.vreg.vreg) (hd : R.Has (defPoint j o)) :
    ptBefore (j + 1) ≤ R.range.to ∧ ∃ u ∈ R.uses, u.slot = k ∧ u.pos = recordPoint i.f j o := by
  obtain ⟨c, e, b0, e0, r0, H⟩ := part hp hf hl hR
  have hreg := H.reg hp hf
  have hdef : DefAt i.f o.vreg.vreg (defPoint j o) := by
    obtain ⟨⟨b, hb, hj⟩, h1, h2⟩ := ho
    exact ⟨b, hb, j, hj, o, List.mem_of_getElem? h1, h2, hk, rfl, rfl⟩
  have hrp : recordPoint i.f j o = defPoint j o := by unfold recordPoint; rw [hk]
  have hin := H.has hd
  have h1 := hreg.def_first hp hf.toMidOk H.mem hdef hin.1 hin.2
  have hB := H.bounds
  have hd1 := hd.1
  obtain ⟨r', h2, u, h3, h4, h5⟩ := hreg.all j k o ho rfl
  have h6 := hreg.inside r' h2 u h3
  have : r0 = r' := hreg.same H.mem h2 hin.1 hin.2 h6.1 h6.2 (by rw [h5, hrp]; omega) (by rw [h5, hrp]; omega)
  subst this
  have hkind : u.op.kind = .Def := by
    obtain ⟨j', o', ho', g1, g2, g3, -⟩ := hreg.ops r0 h2 u h3
    have : j' = j := by
      have e1 : u.pos / 2 = j' := by rw [g2]; exact recordPoint_div
      have e2 : u.pos / 2 = j := by rw [h5]; exact recordPoint_div
      omega
    subst this
    have e3 := ho'.2.1
    rw [h4, ho.2.1] at e3
    rw [g3, ← Option.some.inj e3, hk]
  have hmem := H.first h3 hkind (by omega)
  have h7 := (H.neat.defStart u (H.uses ▸ hmem) hkind)
  have h8 : u.pos / 2 = j := by rw [h5]; exact recordPoint_div
  rw [H.range]
  refine ⟨?_, u, hmem, h4, h5⟩
  have : ptBefore (j + 1) = 2 * (j + 1) := rfl
  omega

theorem final_records {v : Nat} {R : FRange} (hR : R ∈ finalRanges i q.st loc v) {u : Ion.Use} (hu : u ∈ R.uses) :
    R.Has u.pos ∧ ∃ j o, OpAt i.f j u.slot o ∧ o.vreg.vreg = v ∧ u.pos = recordPoint i.f j o ∧
      (∀ m, u.op.constraint = .Reuse m ↔ o.constraint = .Reuse m) ∧ (∀ p, u.op.constraint = .FixedReg p → o.constraint = .FixedReg p) := by
  obtain ⟨c, e, b0, e0, r0, H⟩ := part hp hf hl hR
  obtain ⟨j, o, g1, g2, g3, g4, g5⟩ := (H.reg hp hf).ops r0 H.mem u (H.use hu)
  exact ⟨H.use_has hu, j, o, g1, g2, g3, g5⟩

end
end Regalloc.Pipeline
