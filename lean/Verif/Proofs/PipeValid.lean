import Verif.Proofs.PipeFix

/-! The ranges, with their locations, are a valid assignment. -/
namespace Regalloc.Pipeline

open Apply (OpAt DefAt entryPt exitPt FRange FixupOk Valid)
open Build (recordPoint usePoint defPoint mem_blockInsts RecordedAs reusedReg)
open Ion (Live Origin Owns Covers Entry)

theorem lexLe_trans : ∀ as bs cs : List Nat, lexLe as bs = true → lexLe bs cs = true → lexLe as cs = true := by
  intro as
  induction as with
  | nil => intro bs cs _ _; rfl
  | cons a as ih =>
    intro bs cs h1 h2
    cases bs with
    | nil => simp [lexLe] at h1
    | cons b bs =>
      cases cs with
      | nil => simp [lexLe] at h2
      | cons c cs =>
        simp only [lexLe, Bool.or_eq_true, Bool.and_eq_true, decide_eq_true_eq] at h1 h2 ⊢
        rcases h1 with h1 | ⟨h1, h3⟩ <;> rcases h2 with h2 | ⟨h2, h4⟩
        · left; omega
        · left; omega
        · left; omega
        · right; exact ⟨by omega, ih bs cs h3 h4⟩

theorem lexLe_total : ∀ as bs : List Nat, lexLe as bs = true ∨ lexLe bs as = true := by
  intro as
  induction as with
  | nil => intro bs; exact .inl rfl
  | cons a as ih =>
    intro bs
    cases bs with
    | nil => exact .inr rfl
    | cons b bs =>
      simp only [lexLe, Bool.or_eq_true, Bool.and_eq_true, decide_eq_true_eq]
      rcases Nat.lt_trichotomy a b with h | h | h
      · exact .inl (.inl h)
      · rcases ih bs with g | g
        · exact .inl (.inr ⟨h, g⟩)
        · exact .inr (.inr ⟨h.symm, g⟩)
      · exact .inr (.inl h)

section
variable {i : Input} (hp : ProgramOk i) (hr : RegsOk i) {fr : Front} (hf : FrontOk i fr) {q : Ion.PSt} {ss : Spill.State} {slots : List SpillSlot}
  {num : UInt32} (hl : LoopOk i fr q ss slots num)

/-- What the insertion of moves is given. -/
def moveInput (i : Input) (fr : Front) (q : Ion.PSt) (ss : Spill.State) (slots : List SpillSlot) : Apply.Env :=
  applyEnv i fr.info fr.ls fr.b1 fr.second q.st (allocOf q.st ss.assigned slots)

include hp hf hl

/-- A late definition in a fixed register is there. -/
theorem late_fixed {j k : Nat} {o : Op} {p : PReg} (ho : OpAt i.f j k o) (hc : o.constraint = .FixedReg p) (hd : o.kind = .Def)
    (hlate : o.pos = .Late) : ∃ R ∈ finalRanges i q.st (allocOf q.st ss.assigned slots) o.vreg.vreg, R.Has (ptAfter j) ∧ R.alloc = Allocation.reg p := by
  have hv := op_lt hp ho
  have hrp : recordPoint i.f j o = ptAfter j := by unfold recordPoint defPoint; rw [hd, hlate]; rfl
  obtain ⟨⟨b, hb, hj⟩, h1, h2⟩ := ho
  obtain ⟨r, h3, u, h4, h5, h6, -, -, h7⟩ := C34_operand_recorded i.f hp.ready hp.edges i.ord i.multi _ hf.po _ hf.ls _ hf.b0 b hb j hj k o h1 h2
  have hop : u.op = o := by
    rcases h7 with ⟨h7, -⟩ | ⟨_, -, h7, -⟩
    · exact h7
    · rw [hd] at h7; cases h7
  obtain ⟨r', g1, -, -, g2⟩ := Build.forall₂_mem_left (C39_relaxed i.env i.f.numVregs fr.b0 fr.b1 fr.second hf.b1 o.vreg.vreg) h3
  obtain ⟨u', g3, g4⟩ := Build.forall₂_mem_left g2 h4
  have hu' : u' = u := by
    rcases g4 with g4 | ⟨p', -, -, x, hx, hxp, -⟩
    · exact g4
    · exfalso
      obtain ⟨-, j', w, w', F⟩ := second_from hp hf hx
      have h8 := F.pos
      rw [hxp, h6, hrp] at h8
      unfold ptAfter ptBefore at h8
      omega
  subst hu'
  obtain ⟨R, k1, k2, c, e, b0, e0, H⟩ := used_part hp hf hl (loc := allocOf q.st ss.assigned slots) hv g1 g3
  have hhas := H.use_has k2
  rw [h6, hrp] at hhas
  refine ⟨R, k1, hhas, ?_⟩
  rw [H.uses] at k2
  rcases H.place hl with ⟨x, m1, m2⟩ | ⟨m1, -⟩
  · have := (hl.placed.register c e x H.live m1).2 u' k2
    rw [hop, hc] at this
    have this : Place.ofPReg i.env x = Place.ofPReg i.env p := this
    have : x = p := by
      unfold Place.ofPReg at this
      split at this <;> split at this <;> cases this <;> rfl
    rw [m2, this]
  · have := (hl.placed.slot c e H.live m1).2 u' k2 0
    rw [hop, hc] at this
    have this : Place.slot 0 = Place.ofPReg i.env p := this
    unfold Place.ofPReg at this
    split at this <;> cases this

include hr

theorem fix_ok {fx : Apply.Fixup} {e : ResolveMoves.MoveEnv} (hm : e.machine = i.env) (hq : e.maps = q.maps)
    (h : fx ∈ allFixups fr.b1.fixups fr.second) : FixupOk (moveInput i fr q ss slots) e fx := by
  obtain ⟨j, o, o', F⟩ := fix_from hp hr hf h
  refine ⟨⟨j, o, o', F.pos, F.target, F.source, F.kind, F.early, F.kind', F.vreg, F.vreg'⟩, ?_, ?_, ?_, ?_, ?_, ?_, ?_⟩
  · rw [(hr.fixed_ok j _ o _ F.target F.fixed).1]
    have h1 := (hp.func.named j o (List.mem_of_getElem? F.target.2.1) F.target.2.2).1
    rw [h1, F.vreg]
    rfl
  · rw [hm]
    exact (hr.fixed_ok j _ o _ F.target F.fixed).2
  · rw [hq]
    refine ⟨(⟨fx.pos, fx.pos + 1⟩, none), ((hl.placed.maps fx.preg).2 _).mpr (mem_reservations.mpr ⟨rfl, F.resv⟩), ?_⟩
    exact ⟨Nat.le_refl _, Nat.lt_succ_self _⟩
  · intro v R hR hpos
    obtain ⟨c, e, b0, e0, r0, H⟩ := part hp hf hl hR
    exact H.reserved hl F.resv hpos ⟨Nat.le_refl _, Nat.lt_succ_self _⟩
  · intro j' k m w w' hpos hw hc hw' ⟨R, hR, hhas, halloc⟩
    have : j' = j := by
      have h1 := F.pos
      unfold ptBefore at h1 hpos
      omega
    subst this
    have hR : R ∈ finalRanges i q.st (allocOf q.st ss.assigned slots) w.vreg.vreg := hR
    obtain ⟨c, e, b0, e0, r0, H⟩ := part hp hf hl hR
    cases hlev : fx.level with
    | Initial =>
      exfalso
      rcases (F.initial hlev).2 with h1 | ⟨k2, o2, h1, h2, h3, h4⟩
      · obtain ⟨b, hb, hj⟩ := F.target.1
        have hres : (fx.preg, (⟨ptAfter j', ptBefore (j' + 1)⟩ : RKey)) ∈ fr.b1.pregs := by
          refine ((C39_fixups i.env i.f.numVregs fr.b0 fr.b1 fr.second hf.b1).2.1 _ _).mpr (.inl ?_)
          exact ((C34_reservations i.f hp.ready hp.edges i.ord i.multi _ hf.po _ hf.ls _ hf.b0).1 _ _).mpr (.inl ⟨b, hb, j', hj, h1, rfl⟩)
        refine H.reserved hl hres hhas ⟨Nat.le_refl _, ?_⟩ halloc
        show ptAfter j' < ptBefore (j' + 1)
        unfold ptAfter ptBefore; omega
      · obtain ⟨R2, g1, g2, g3⟩ := late_fixed hp hf hl h1 h2 h4 h3
        obtain ⟨c', e', b0', e0', r0', H'⟩ := part hp hf hl g1
        have hw2 : w.kind = .Def := (hp.func.reuse j' k m w hw hc).1
        by_cases hv : w.vreg.vreg = o2.vreg.vreg
        · obtain ⟨-, hk⟩ := hp.one_def j' j' k k2 w o2 hw h1 hw2 h4 hv
          subst hk
          have := opAt_eq hw h1
          rw [this, h2] at hc
          cases hc
        · exact H.differ hp hf hl H' hv hhas g2 (by rw [halloc, g3])
    | Secondary =>
      have h1 := (F.secondary hlev).2 w'.vreg (Apply.reusedReg_eq (x := i.base) hp.func hw hc hw')
      rw [h1]
      exact F.vreg
  · intro hlev
    exact (F.initial hlev).1
  · intro hlev fy hy hlev' hpos
    have hx2 := (F.secondary hlev).1
    obtain ⟨j', w, w', G⟩ := fix_from hp hr hf hy
    exact fix_source hp hf hx2 (G.secondary hlev').1 hpos

omit hr hl in
theorem sortedIns_sorted : (sortedIns fr.b1.ins).Pairwise (fun a b => Apply.pairLt (b.toVreg, b.toBlock) (a.toVreg, a.toBlock) = false) := by
  unfold sortedIns
  refine (pairwise_isort ?_ ?_ _).imp ?_
  · intro a b c h1 h2; exact lexLe_trans _ _ _ h1 h2
  · intro a b; exact lexLe_total _ _
  · intro a b h
    simp only [lexLe, Bool.or_eq_true, Bool.and_eq_true, decide_eq_true_eq] at h
    simp only [Apply.pairLt, Bool.or_eq_false_iff, Bool.and_eq_false_imp, decide_eq_false_iff_not, decide_eq_true_eq]
    omega

theorem valid (allocs : Nat → Nat → Allocation) : Valid (moveInput i fr q ss slots) (moveEnv i fr.info q.maps allocs) num.toNat := by
  have hfin : ∀ {v R}, R ∈ (moveInput i fr q ss slots).ranges v → R ∈ finalRanges i q.st (allocOf q.st ss.assigned slots) v := id
  have hbp := C34_block_params i.f hp.ready hp.edges i.ord i.multi _ hf.po _ hf.ls _ hf.b0
  constructor
  case blocks => exact fun b hb j => blocks_iff hp hf b hb j
  case sorted =>
    intro v
    refine (pairwise_isort ?_ ?_ _).imp ?_
    · intro a b c h1 h2
      have := of_decide_eq_true h1
      have := of_decide_eq_true h2
      exact decide_eq_true (by omega)
    · intro a b
      rcases Nat.le_total a.range.fr b.range.fr with h | h
      · exact .inl (decide_eq_true h)
      · exact .inr (decide_eq_true h)
    · intro a b h; exact of_decide_eq_true h
  case only =>
    intro v hv
    apply List.eq_nil_iff_forall_not_mem.mpr
    intro R hR
    obtain ⟨c, e, b0, e0, r0, H⟩ := part hp hf hl (hfin hR)
    have hv : i.f.numVregs ≤ v := hv
    have := H.hv
    omega
  case nonempty =>
    intro v R hR
    obtain ⟨c, e, b0, e0, r0, H⟩ := part hp hf hl (hfin hR)
    exact H.bounds.2.1
  case inside =>
    intro v R hR
    obtain ⟨c, e, b0, e0, r0, H⟩ := part hp hf hl (hfin hR)
    have := H.bounds
    exact (H.reg hp hf).blocks _ ⟨r0, H.mem, this.1, by omega⟩
  case marked =>
    intro v R hR
    obtain ⟨c, e, b0, e0, r0, H⟩ := part hp hf hl (hfin hR)
    exact H.marked hp hf
  case begins =>
    intro v R hR hs
    obtain ⟨c, e, b0, e0, r0, H⟩ := part hp hf hl (hfin hR)
    exact H.begins hp hf hl hs
  case entered =>
    intro v R hR b hb _ hE
    obtain ⟨c, e, b0, e0, r0, H⟩ := part hp hf hl (hfin hR)
    have := H.has hE
    exact (H.reg hp hf).entered hp hf.toMidOk (vreg_small hp H.hv) H.mem hb this.1 this.2
  case live_param => exact fun b v hb hv h => live_param hp hf.toMidOk hb (vreg_small hp hv) h
  case entry_live => exact fun v hv => entry_live hp hf.toMidOk (vreg_small hp hv)
  case overlap =>
    intro v Q hQ R hR h1 h2 b hb hE
    exact final_overlap hp hf hl (hfin hQ) (hfin hR) h1 h2 hE
  case recorded => exact fun j k o ho => final_recorded hp hf hl ho
  case records =>
    intro v R hR u hu
    obtain ⟨h1, j, o, h2, h3, h4, h5, -⟩ := final_records hp hf hl (hfin hR) hu
    exact ⟨h1, j, o, h2, h3, h4, h5⟩
  case once => exact fun v R hR u hu R' hR' u' hu' h1 h2 => (final_once hp hf hl (hfin hR) (hfin hR') hu hu' h1 h2).1
  case defs => exact fun j k o ho hk R hR hd => final_defs hp hf hl ho hk (hfin hR) hd
  case apart =>
    intro v v' p hv R hR R' hR' h1 h2
    obtain ⟨c, e, b0, e0, r0, H⟩ := part hp hf hl (hfin hR)
    obtain ⟨c', e', b0', e0', r0', H'⟩ := part hp hf hl (hfin hR')
    exact H.differ hp hf hl H' hv h1 h2
  case clobbers =>
    intro b hb j hj p hpc v R hR hhas
    obtain ⟨c, e, b0, e0, r0, H⟩ := part hp hf hl (hfin hR)
    have hres : (p, (⟨ptAfter j, ptBefore (j + 1)⟩ : RKey)) ∈ fr.b1.pregs := by
      refine ((C39_fixups i.env i.f.numVregs fr.b0 fr.b1 fr.second hf.b1).2.1 _ _).mpr (.inl ?_)
      exact ((C34_reservations i.f hp.ready hp.edges i.ord i.multi _ hf.po _ hf.ls _ hf.b0).1 _ _).mpr (.inl ⟨b, hb, j, hj, hpc, rfl⟩)
    refine H.reserved hl hres hhas ⟨Nat.le_refl _, ?_⟩
    show ptAfter j < ptBefore (j + 1)
    unfold ptAfter ptBefore; omega
  case nonalloc =>
    intro b hb j hj k o p ho hna
    have hmem := List.mem_of_getElem? ho
    have hnp := hr.nonalloc b hb j hj o hmem p hna
    constructor
    · show assigned fr.b1.allocs j k = _
      rw [(b1_rest hf).2.1]
      have hA := C34_nonallocatable_assigned i.f i.ord i.multi fr.ls.liveouts fr.b0 hf.b0
      unfold assigned
      cases hx : fr.b0.allocs.find? (fun x => decide (x.1 = j ∧ x.2.1 = k)) with
      | none =>
        exfalso
        have := List.find?_eq_none.mp hx (j, k, p) ((hA j k p).mpr ⟨b, hb, hj, o, ho, hna⟩)
        simp at this
      | some x =>
        obtain ⟨x1, x2, x3⟩ := x
        have h1 := List.find?_some hx
        have h2 := List.mem_of_find?_eq_some hx
        obtain ⟨rfl, rfl⟩ := of_decide_eq_true h1
        obtain ⟨b', hb', hj', o', ho', hna'⟩ := (hA _ _ _).mp h2
        dsimp only at ho' ho
        have ho : (i.f.operands x1)[x2]? = some o := ho
        rw [ho] at ho'
        cases ho'
        rw [hna] at hna'
        rw [Option.some.inj hna']
    · intro v R hR ha
      obtain ⟨c, e, b0, e0, r0, H⟩ := part hp hf hl (hfin hR)
      rcases (H.named hp hr hf hl (H.reg_of hl ha)).2 with h1 | ⟨j', k', o', h1, h2⟩
      · exact hnp.1 h1
      · exact hnp.2 j' k' o' h1 h2
  case nonalloc_name =>
    intro j o ho hna v hv he
    have hv : v < i.f.numVregs := hv
    have h1 : o.vreg.vreg = VReg.MAX := by
      unfold Op.asFixedNonallocatable at hna
      split at hna
      · split at hna
        · assumption
        · exact absurd rfl hna
      · exact absurd rfl hna
    have h2 : (i.vreg v).vreg = v := hp.func.index v hv
    have he : o.vreg = i.vreg v := he
    rw [he, h2] at h1
    have := hp.vregs
    omega
  case location =>
    intro v R hR
    obtain ⟨c, e, b0, e0, r0, H⟩ := part hp hf hl (hfin hR)
    exact H.location hp hr hf hl rfl rfl
  case class_known =>
    intro v R hR
    obtain ⟨c, e, b0, e0, r0, H⟩ := part hp hf hl (hfin hR)
    exact hp.classes v H.hv
  case class_same =>
    intro v v' R hR R' hR' ha
    obtain ⟨c, e, b0, e0, r0, H⟩ := part hp hf hl (hfin hR)
    obtain ⟨c', e', b0', e0', r0', H'⟩ := part hp hf hl (hfin hR')
    exact H.same_class hp hf hl H' hr ha
  case ins =>
    intro x
    show x ∈ sortedIns fr.b1.ins ↔ _
    unfold sortedIns
    rw [mem_isort, List.mem_map, (b1_rest hf).2.2.1]
    constructor
    · rintro ⟨⟨v, b, a⟩, h1, rfl⟩
      obtain ⟨h2, h3, h4⟩ := (hbp.2 v b a).mp h1
      exact ⟨b, h2, rfl, h4, h3⟩
    · rintro ⟨b, h1, rfl, h2, h3⟩
      exact ⟨(x.toVreg, x.toBlock, x.fromBlock), (hbp.2 _ _ _).mpr ⟨h1, h3, h2⟩, rfl⟩
  case ins_sorted => exact sortedIns_sorted hp hf
  case outs =>
    intro x hx
    have hx : x ∈ sortedOuts fr.b1.outs := hx
    unfold sortedOuts at hx
    rw [mem_isort, List.mem_map, (b1_rest hf).2.2.2] at hx
    obtain ⟨⟨b, c, tv, fv⟩, h1, rfl⟩ := hx
    obtain ⟨hb, k, m, p, a, g1, g2, g3, rfl, rfl⟩ := (hbp.1 b c tv fv).mp h1
    refine ⟨k, g1, (p, a), ?_, rfl, rfl⟩
    exact List.mem_of_getElem? (List.getElem?_zip_eq_some.mpr ⟨g2, g3⟩)
  case fixups => exact fun fx hfx => fix_ok hp hr hf hl rfl rfl hfx
  case fixups_order => exact fixups_order hp hf
  case fixups_slots => exact fixups_slots hp hr hf
  case fixups_regs => exact fun fx hx fy hy h1 h2 => fixups_inj hp hr hf hx hy h1 h2

end
end Regalloc.Pipeline
