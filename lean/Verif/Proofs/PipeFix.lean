import Verif.Proofs.PipeLoc
import Verif.Proofs.ApplySem

/-! The fixups of the first half. -/
namespace Regalloc.Pipeline

open Apply (OpAt DefAt entryPt exitPt FRange)
open Build (recordPoint usePoint defPoint mem_blockInsts RecordedAs reusedReg)
open Ion (Live Origin Owns Covers Entry)

/-- Where a fixup comes from. -/
structure FixFrom (i : Input) (fr : Front) (fx : Apply.Fixup) (j : Nat) (o o' : Op) : Prop where
  pos : fx.pos = ptBefore j
  target : OpAt i.f j fx.toSlot o
  source : OpAt i.f j fx.fromSlot o'
  kind : o.kind = .Use
  early : o.pos = .Early
  kind' : o'.kind = .Use
  vreg : o.vreg.vreg = fx.vreg
  vreg' : o'.vreg.vreg = fx.vreg
  fixed : o.constraint = .FixedReg fx.preg
  initial : fx.level = .Initial → fx.fromSlot = fx.toSlot ∧ (fx.preg ∈ i.f.clobbers j ∨
    ∃ k2 o2, OpAt i.f j k2 o2 ∧ o2.constraint = .FixedReg fx.preg ∧ o2.pos = .Late ∧ o2.kind = .Def)
  secondary : fx.level = .Secondary → fx ∈ fr.second ∧ ∀ r, reusedReg (i.f.operands j) = some r → r = o.vreg
  resv : (fx.preg, (⟨fx.pos, fx.pos + 1⟩ : RKey)) ∈ fr.b1.pregs

section
variable {i : Input} (hp : ProgramOk i) (hr : RegsOk i) {fr : Front} (hf : FrontOk i fr)
include hp hf

/-- What a use that was built records. -/
theorem built_use {v : Nat} (hv : v < i.f.numVregs) {r : Build.LR} (h : r ∈ fr.b0.ranges v) {u : Ion.Use} (hu : u ∈ r.uses) :
    ∃ j o, OpAt i.f j u.slot o ∧ o.vreg.vreg = v ∧ u.pos = recordPoint i.f j o ∧ u.pos / 2 = j ∧ RecordedAs fr.b0.fixups j u.slot o u.op := by
  obtain ⟨-, -, b, hb, j, hj, o, h1, h2, h3, h4, h5, h6⟩ :=
    (C34_records_are_operands i.f hp.ready hp.edges i.ord i.multi _ hf.po _ hf.ls _ hf.b0 v (vreg_small hp hv)).1 r h u hu
  exact ⟨j, o, ⟨⟨b, hb, hj⟩, h1, h3⟩, h2, h4, h5, h6⟩

omit hp hf in
/-- The constraint in a record is that of the operand or none. -/
theorem recorded_admits {fx : List Build.Fixup} {j k : Nat} {o o' : Op} (h : RecordedAs fx j k o o') {env : MachineEnv} {x : Place}
    (ha : o.constraint.Admits env x) : o'.constraint.Admits env x := by
  rcases h with ⟨rfl, -⟩ | ⟨p, -, -, -, -, rfl, -⟩
  · exact ha
  · trivial

omit hp hf in
theorem recorded_fixed {fx : List Build.Fixup} {j k : Nat} {o o' : Op} (h : RecordedAs fx j k o o') {p : PReg}
    (ha : o'.constraint = .FixedReg p) : o' = o := by
  rcases h with ⟨rfl, -⟩ | ⟨p, -, -, -, -, rfl, -⟩
  · rfl
  · cases ha

omit hp hf in
theorem opAt_eq {f : Func} {j k : Nat} {o o' : Op} (h : OpAt f j k o) (h' : OpAt f j k o') : o = o' := by
  have := h.2.1
  rw [h'.2.1] at this
  exact (Option.some.inj this).symm

omit hp hf in
theorem recordPoint_cases {f : Func} {j : Nat} {o : Op} : recordPoint f j o = ptBefore j ∨ recordPoint f j o = ptAfter j := by
  unfold recordPoint usePoint defPoint
  split <;> split <;> simp

omit hp hf in
theorem use_before {f : Func} {j : Nat} {o : Op} (h : recordPoint f j o = ptBefore j) (hk : o.kind = .Use) :
    o.pos = .Early ∧ ∀ r, reusedReg (f.operands j) = some r → r = o.vreg := by
  unfold recordPoint at h
  rw [hk] at h
  dsimp only at h
  unfold usePoint at h
  split at h
  · unfold ptAfter ptBefore at h; omega
  · rename_i hc
    constructor
    · cases hpos : o.pos
      · rfl
      · exact absurd (.inl hpos) hc
    · intro r hr
      apply Classical.byContradiction
      intro hne
      exact hc (.inr ⟨r, hr, hne⟩)

theorem second_from {fx : Apply.Fixup} (h : fx ∈ fr.second) : fx.level = .Secondary ∧ ∃ j o o', FixFrom i fr fx j o o' := by
  obtain ⟨H1, H2, -⟩ := C39_fixups i.env i.f.numVregs fr.b0 fr.b1 fr.second hf.b1
  obtain ⟨v, hv, r, hrr, u, hu, u0, hu0, h1, h2, h3, h4, h5, h6, h7, h8⟩ := H1 fx h
  obtain ⟨j, o, a1, a2, a3, a4, a5⟩ := built_use hp hf hv hrr hu
  obtain ⟨j', o', b1, b2, b3, b4, b5⟩ := built_use hp hf hv hrr hu0
  have : j' = j := by rw [← b4, ← a4, h4]
  subst this
  have e := recorded_fixed a5 h5
  -- not after the instruction
  have hpos : u.pos = ptBefore j' := by
    rcases recordPoint_cases (f := i.f) (j := j') (o := o) with g | g
    · rw [a3, g]
    · exfalso
      obtain ⟨x, hx⟩ := hp.late j' v
      apply h8
      refine ⟨x, fun w hw => ?_⟩
      obtain ⟨hw1, hw2⟩ := List.mem_filter.mp hw
      have hw2 := of_decide_eq_true hw2
      obtain ⟨m, ow, c1, c2, c3, c4, c5⟩ := built_use hp hf hv hrr hw1
      have : m = j' := by rw [← c4, ← a4, hw2]
      subst this
      refine recorded_admits c5 (hx _ ow c1 c2 ?_)
      rw [← c3, hw2, a3, g]
  -- another use
  have hother : ∃ w ∈ r.uses, w.pos = u.pos ∧ w.slot ≠ u.slot := by
    apply Classical.byContradiction
    intro hc
    apply h8
    refine ⟨Place.ofPReg i.env fx.preg, fun w hw => ?_⟩
    obtain ⟨hw1, hw2⟩ := List.mem_filter.mp hw
    have hw2 := of_decide_eq_true hw2
    have hs : w.slot = u.slot := by
      apply Classical.byContradiction
      intro hne
      exact hc ⟨w, hw1, hw2, hne⟩
    obtain ⟨m, ow, c1, c2, c3, c4, c5⟩ := built_use hp hf hv hrr hw1
    have : m = j' := by rw [← c4, ← a4, hw2]
    subst this
    rw [hs] at c1
    have := opAt_eq c1 a1
    subst this
    refine recorded_admits c5 ?_
    rw [← e, h5]
    rfl
  have hkinds : ∀ {k : Nat} {ow : Op}, OpAt i.f j' k ow → ow.vreg.vreg = v → ow.kind = .Use := by
    obtain ⟨w, hw1, hw2, hw3⟩ := hother
    obtain ⟨m, ow', c1, c2, c3, c4, c5⟩ := built_use hp hf hv hrr hw1
    have : m = j' := by rw [← c4, ← a4, hw2]
    subst this
    intro k ow hk hkv
    by_cases hks : k = u.slot
    · exact hp.ready.once m k w.slot ow ow' hk.2.1 c1.2.1 (by rw [hks]; exact fun h => hw3 h.symm) hk.2.2 c1.2.2 (by rw [hkv, c2])
    · exact hp.ready.once m k u.slot ow o hk.2.1 a1.2.1 hks hk.2.2 a1.2.2 (by rw [hkv, a2])
  have hk := hkinds a1 a2
  have hk' := hkinds b1 b2
  have hb := use_before (a3 ▸ hpos) hk
  refine ⟨h7, j', o, o', ⟨by rw [h3, hpos], by rw [h1]; exact a1, by rw [h2]; exact b1, hk, hb.1, hk', ?_, ?_, by rw [← e]; exact h5, ?_, ?_, ?_⟩⟩
  · rw [h6, e]
  · rw [h6, e, b2, a2]
  · rw [h7]; intro h; cases h
  · intro _; exact ⟨h, hb.2⟩
  · exact (H2 fx.preg _).mpr (.inr ⟨fx, h, rfl, rfl⟩)

include hr in
theorem first_from {f0 : Build.Fixup} (h : f0 ∈ fr.b0.fixups) :
    ∃ j o, FixFrom i fr ⟨f0.pos, f0.slot, f0.slot, f0.preg, f0.vreg, .Initial⟩ j o o := by
  obtain ⟨H1, H2⟩ := C34_reservations i.f hp.ready hp.edges i.ord i.multi _ hf.po _ hf.ls _ hf.b0
  obtain ⟨b, hb, j, hj, hpos, -⟩ := H2 f0 h
  obtain ⟨o, h1, h2, ⟨h3, h4, h5, h6, h7⟩, -⟩ := (C34_fixup_iff i.f hp.ready hp.edges i.ord i.multi _ hf.po _ hf.ls _ hf.b0 b hb
    (hp.reach b hb) j hj f0 hpos).mp h
  have ho : OpAt i.f j f0.slot o := ⟨⟨b, hb, hj⟩, h1, h3⟩
  refine ⟨j, o, hpos, ho, ho, h5, h6, h5, h2, h2, h4, fun _ => ⟨rfl, ?_⟩, (fun h => by cases h), ?_⟩
  · rcases h7 with h7 | ⟨o2, h8, h9, h10, h11⟩
    · exact .inl h7
    · right
      obtain ⟨k2, hk2⟩ := List.mem_iff_getElem?.mp h8
      refine ⟨k2, o2, ⟨⟨b, hb, hj⟩, hk2, ?_⟩, h9, h10, h11⟩
      cases hna : o2.asFixedNonallocatable with
      | none => rfl
      | some p =>
        exfalso
        have : p = f0.preg := by
          unfold Op.asFixedNonallocatable at hna
          rw [h9] at hna
          dsimp only at hna
          split at hna
          · exact (Option.some.inj hna).symm
          · cases hna
        subst this
        exact (hr.nonalloc b hb j hj o2 h8 _ hna).2 j f0.slot o ho h4
  · refine ((C39_fixups i.env i.f.numVregs fr.b0 fr.b1 fr.second hf.b1).2.1 _ _).mpr (.inl ?_)
    exact (H1 _ _).mpr (.inr ⟨f0, h, rfl, rfl⟩)

omit hp in
theorem b1_rest : fr.b1.fixups = fr.b0.fixups ∧ fr.b1.allocs = fr.b0.allocs ∧ fr.b1.ins = fr.b0.ins ∧ fr.b1.outs = fr.b0.outs := by
  obtain ⟨tab, P⟩ := Build.fixupMulti_spec hf.b1
  exact ⟨P.rest.1, P.rest.2.1, P.rest.2.2.2.1, P.rest.2.2.2.2⟩

include hr in
theorem fix_from {fx : Apply.Fixup} (h : fx ∈ allFixups fr.b1.fixups fr.second) : ∃ j o o', FixFrom i fr fx j o o' := by
  unfold allFixups at h
  rcases List.mem_append.mp h with h | h
  · obtain ⟨f0, h1, rfl⟩ := List.mem_map.mp h
    rw [List.mem_reverse, (b1_rest hf).1] at h1
    obtain ⟨j, o, h2⟩ := first_from hp hr hf h1
    exact ⟨j, o, o, h2⟩
  · exact (second_from hp hf h).2

theorem fixups_order : (allFixups fr.b1.fixups fr.second).Pairwise (fun a b => a.level = .Secondary → b.level = .Secondary) := by
  unfold allFixups
  rw [List.pairwise_append]
  refine ⟨?_, ?_, ?_⟩
  · rw [List.pairwise_map]
    refine List.Pairwise.imp_of_mem ?_ (List.pairwise_of_forall_mem_list (r := fun _ _ => True) (fun _ _ _ _ => trivial))
    intro a b _ _ _ h
    cases h
  · refine List.Pairwise.imp_of_mem ?_ (List.pairwise_of_forall_mem_list (r := fun _ _ => True) (fun _ _ _ _ => trivial))
    intro a b _ hb _ _
    exact (second_from hp hf hb).1
  · intro a _ b hb _
    exact (second_from hp hf hb).1

omit hp in
/-- Fixups at one point are to different registers. -/
theorem fixups_regs : (allFixups fr.b1.fixups fr.second).Pairwise (fun a b => a.pos = b.pos → a.preg ≠ b.preg) := by
  obtain ⟨tab, P⟩ := Build.fixupMulti_spec hf.b1
  have hc := b1_clear hf
  have hs := (Build.build_resv hf.b0).own
  have hsym : ∀ a b : PReg × RKey, (a.1 = b.1 → RKey.cmp a.2 b.2 ≠ .eq) → (b.1 = a.1 → RKey.cmp b.2 a.2 ≠ .eq) := by
    intro a b h e h2
    rw [RKey.cmp_eq] at h2
    exact h e.symm (RKey.cmp_eq.mpr ⟨h2.2, h2.1⟩)
  have h1 : ((fr.second.map Build.resv).reverse ++ fr.b0.fixups.map Build.resv0).Pairwise (fun a b => a.1 = b.1 → RKey.cmp a.2 b.2 ≠ .eq) := by
    unfold Build.Clear at hc
    rw [P.pregs] at hc
    exact hc.sublist (List.Sublist.append (List.Sublist.refl _) hs)
  have h2 : ((fr.second.map Build.resv).reverse ++ fr.b0.fixups.map Build.resv0).Perm ((allFixups fr.b1.fixups fr.second).map Build.resv) := by
    unfold allFixups
    rw [P.rest.1, List.map_append, List.map_map]
    refine List.perm_append_comm.trans (List.Perm.append ?_ (List.reverse_perm _))
    rw [List.map_reverse]
    exact (List.reverse_perm _).symm
  have h3 := h1.perm h2 (fun h => hsym _ _ h)
  rw [List.pairwise_map] at h3
  refine h3.imp ?_
  intro a b h e1 e2
  refine h e2 (RKey.cmp_eq.mpr ?_)
  unfold Build.resv
  dsimp only
  omega

include hr

theorem fixups_slots : (allFixups fr.b1.fixups fr.second).Pairwise (fun a b => a.pos = b.pos → a.toSlot ≠ b.toSlot) := by
  refine List.Pairwise.imp_of_mem ?_ (fixups_regs hf)
  intro a b ha hb h e1 e2
  obtain ⟨j, o, o', A⟩ := fix_from hp hr hf ha
  obtain ⟨j', w, w', B⟩ := fix_from hp hr hf hb
  have : j = j' := by
    have h1 := A.pos
    have h2 := B.pos
    unfold ptBefore at h1 h2
    omega
  subst this
  have hA := A.target
  rw [e2] at hA
  have := opAt_eq hA B.target
  subst this
  have h1 := A.fixed
  rw [B.fixed] at h1
  exact h e1 (OperandConstraint.FixedReg.inj h1).symm

theorem fixups_inj {fx fy : Apply.Fixup} (hx : fx ∈ allFixups fr.b1.fixups fr.second) (hy : fy ∈ allFixups fr.b1.fixups fr.second)
    (h1 : fx.pos = fy.pos) (h2 : fx.preg = fy.preg) : fx = fy := by
  rcases pairwise_tri (fixups_regs hf) hx hy with h | h | h
  · exact h
  · exact absurd h2 (h h1)
  · exact absurd h2.symm (h h1.symm)

omit hr in
theorem fix_source {fx fy : Apply.Fixup} (hx : fx ∈ fr.second) (hy : fy ∈ fr.second) (hpos : fy.pos = fx.pos) : fy.toSlot ≠ fx.fromSlot := by
  obtain ⟨-, j, o, o', A⟩ := second_from hp hf hx
  obtain ⟨-, j', w, w', B⟩ := second_from hp hf hy
  by_cases hv : fx.vreg = fy.vreg
  · have hlt : fx.vreg < i.f.numVregs := by rw [← A.vreg]; exact op_lt hp A.target
    refine C39_source i.f hp.ready hp.edges i.ord i.multi _ hf.po _ hf.ls _ hf.b0 i.env i.f.numVregs ?_ _ _ hf.b1 fx.vreg hlt ?_ fx fy hx hy
      rfl hv.symm hpos.symm
    · have := hp.vregs
      have h2 : VReg.MAX < 2 ^ 30 := by decide
      omega
    · rintro r hrr ⟨u, hu, u', hu', h1, p, n, h2, h3, h4, h5⟩
      obtain ⟨m, ow, c1, c2, c3, c4, c5⟩ := built_use hp hf hlt hrr hu
      obtain ⟨m', ow', d1, d2, d3, d4, d5⟩ := built_use hp hf hlt hrr hu'
      have : m' = m := by rw [← c4, ← d4, h1]
      subst this
      have e1 := recorded_fixed c5 h2
      have e2 : ow'.constraint = .Limit n := by
        rcases d5 with ⟨d5, -⟩ | ⟨p, -, -, -, -, d5, -⟩
        · rw [← d5]; exact h4
        · rw [d5] at h4; cases h4
      have := hp.limits m' _ _ ow ow' p n c1 d1 (by rw [c2, d2]) (by rw [← e1]; exact h2) h3 e2
      omega
  · intro hs
    have : j' = j := by
      have h1 := A.pos
      have h2 := B.pos
      unfold ptBefore at h1 h2
      omega
    subst this
    have hB := B.target
    rw [hs] at hB
    have := opAt_eq hB A.source
    subst this
    exact hv (by rw [← A.vreg', B.vreg])

end
end Regalloc.Pipeline
