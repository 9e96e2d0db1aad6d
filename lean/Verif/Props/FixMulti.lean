/-
C39: serving several constraints on one register at one point
(`/repo/src/ion/liveranges.rs:774-914`, `fixup_multi_fixed_vregs`).
-/
import Verif.Proofs.FixTotal
import Verif.Props.LiveRanges
import Verif.Proofs.RangeMap

namespace Regalloc

open Build Liveness

private theorem noOverlap_iff (l : List (PReg × RKey)) : NoOverlap l ↔ Clear l := by
  unfold NoOverlap Clear
  refine List.pairwise_iff_forall_sublist.trans (Iff.trans ?_ List.pairwise_iff_forall_sublist.symm)
  refine forall_congr' fun a => forall_congr' fun b => imp_congr_right fun _ => imp_congr_right fun _ => ?_
  rw [ne_eq, RKey.cmp_eq]
  omega

section
variable (env : MachineEnv) (n : Nat) (st st' : Build.St) (fx : List Apply.Fixup)
  (h : fixupMulti env n st = .ok (st', fx))
include h

/-- C39. The pass keeps the ranges and their uses, except that the fixed register of a use may be
left to a move that it notes. -/
theorem C39_relaxed (v : Nat) : List.Forall₂ (fun r r' : LR => r'.range = r.range ∧ r'.startsAtDef = r.startsAtDef ∧
    List.Forall₂ (Relaxed fx) r.uses r'.uses) (st.ranges v) (st'.ranges v) := by
  obtain ⟨tab, P⟩ := fixupMulti_spec h
  rw [P.ranges]
  split
  · rename_i hv
    have hsub : ∀ o ∈ tab v, ∀ x ∈ o.2, x ∈ fx := by
      intro o ho x hx
      rw [P.fixups]
      exact List.mem_flatMap.mpr ⟨v, List.mem_range.mpr hv, List.mem_flatMap.mpr ⟨o, ho, hx⟩⟩
    have key : ∀ (l : List LR) (t : List (LR × List Apply.Fixup)), List.Forall₂ (RangeOut env) l t → (∀ o ∈ t, ∀ x ∈ o.2, x ∈ fx) →
        List.Forall₂ (fun r r' : LR => r'.range = r.range ∧ r'.startsAtDef = r.startsAtDef ∧
          List.Forall₂ (Relaxed fx) r.uses r'.uses) l (t.map (·.1)) := by
      intro l t hl
      induction hl with
      | nil => intro _; exact .nil
      | cons h1 _ ih =>
        intro h2
        refine .cons ⟨h1.1, h1.2.1, h1.2.2.relaxed.imp fun u u' hu => hu.mono (h2 _ (List.mem_cons_self ..))⟩
          (ih fun o ho => h2 o (List.mem_cons_of_mem _ ho))
    exact key _ _ (P.out v hv) hsub
  · have : ∀ l : List LR, List.Forall₂ (fun r r' : LR => r'.range = r.range ∧ r'.startsAtDef = r.startsAtDef ∧
        List.Forall₂ (Relaxed fx) r.uses r'.uses) l l := by
      intro l
      induction l with
      | nil => exact .nil
      | cons r l ih => exact .cons ⟨rfl, rfl, forall₂_refl_relaxed fx _⟩ ih
    exact this _

/-- C39. Every move the pass notes comes from two uses at one point of one range: it takes the
value from the location of the one to the register that the other is fixed to. That register is
reserved at that point; it was not before, nor does any other noted move use it there. -/
theorem C39_fixups : (∀ x ∈ fx, ∃ v, v < n ∧ ∃ r ∈ st.ranges v, ∃ u ∈ r.uses, ∃ u0 ∈ r.uses, x.toSlot = u.slot ∧
      x.fromSlot = u0.slot ∧ x.pos = u.pos ∧ u0.pos = u.pos ∧ u.op.constraint = .FixedReg x.preg ∧ x.vreg = u.op.vreg.vreg ∧
      x.level = .Secondary ∧ ¬ Ion.Satisfiable env (usesAt r.uses u.pos)) ∧
    (∀ p k, (p, k) ∈ st'.pregs ↔ (p, k) ∈ st.pregs ∨ ∃ x ∈ fx, p = x.preg ∧ k = ⟨x.pos, x.pos + 1⟩) ∧
    (NoOverlap st.pregs → NoOverlap st'.pregs) := by
  obtain ⟨tab, P⟩ := fixupMulti_spec h
  refine ⟨?_, ?_, fun hc => (noOverlap_iff _).mpr (P.clear ((noOverlap_iff _).mp hc))⟩
  · intro x hx
    rw [P.fixups] at hx
    obtain ⟨v, hv, hx⟩ := List.mem_flatMap.mp hx
    have hv := List.mem_range.mp hv
    obtain ⟨o, ho, hx⟩ := List.mem_flatMap.mp hx
    obtain ⟨r, hr, h1, h2, h3⟩ := forall₂_mem_right (P.out v hv) ho
    obtain ⟨u, hu, u0, hu0, e1, e2, e3, e4, e5, e6, e7⟩ := h3.origin x hx
    refine ⟨v, hv, r, hr, u, hu, u0, hu0, e1, e2, e3, e4, e5, e6, e7, ?_⟩
    intro hs
    exact (h3.quiet hs).2 x hx e3
  · intro p k
    rw [P.pregs]
    simp only [List.mem_append, List.mem_reverse, List.mem_map, resv, Prod.mk.injEq]
    constructor
    · rintro (⟨x, hx, rfl, rfl⟩ | hm)
      · exact .inr ⟨x, hx, rfl, rfl⟩
      · exact .inl hm
    · rintro (hm | ⟨x, hx, rfl, rfl⟩)
      · exact .inr hm
      · exact .inl ⟨x, hx, rfl, rfl⟩

/-- C39. The use that a noted move serves has lost its constraint. -/
theorem C39_dropped (x : Apply.Fixup) (hx : x ∈ fx) : ∃ v, v < n ∧ ∃ r ∈ st'.ranges v, ∃ u ∈ r.uses, u.pos = x.pos ∧
    u.slot = x.toSlot ∧ u.op.constraint = .Any := by
  obtain ⟨tab, P⟩ := fixupMulti_spec h
  rw [P.fixups] at hx
  obtain ⟨v, hv, hx⟩ := List.mem_flatMap.mp hx
  have hv := List.mem_range.mp hv
  obtain ⟨o, ho, hx⟩ := List.mem_flatMap.mp hx
  obtain ⟨r, hr, h1, h2, h3⟩ := forall₂_mem_right (P.out v hv) ho
  obtain ⟨u, hu, e⟩ := h3.target x hx
  exact ⟨v, hv, o.1, by rw [P.ranges, if_pos hv]; exact List.mem_map.mpr ⟨o, ho, rfl⟩, u, hu, e⟩

/-- C39. Where one location can serve all uses, they keep their constraints. -/
theorem C39_needed (v : Nat) : List.Forall₂ (fun r r' : LR => ∀ p, Ion.Satisfiable env (usesAt r.uses p) →
    ∀ u ∈ r.uses, u.pos = p → u ∈ r'.uses) (st.ranges v) (st'.ranges v) := by
  obtain ⟨tab, P⟩ := fixupMulti_spec h
  rw [P.ranges]
  split
  · rename_i hv
    rw [List.forall₂_map_right_iff]
    exact (P.out v hv).imp fun r o ho p hp u hu e => (ho.2.2.quiet hp).1 u hu e
  · exact List.forall₂_same.mpr (fun r _ p _ u hu _ => hu)

end

section
variable (f : Func) (hr : Ready f) (he : EdgesMatch f) (ord : HashOrder) (multi : Bool) (po : List Nat)
  (hpo : Postorder.calculate? f.numBlocks f.entry f.succs = some (.ok po)) (ls : Liveness.State)
  (hls : compute ord f po = some (.ok ls)) (st : Build.St) (hst : build ord multi f ls.liveouts = .ok st)
  (env : MachineEnv) (n : Nat) (hn : n ≤ 2 ^ 30) (st' : Build.St) (fx : List Apply.Fixup) (h : fixupMulti env n st = .ok (st', fx))
include hr he hpo hls hst hn h

omit h in
private theorem usesSorted (v : Nat) (hv : v < n) : ∀ r ∈ st.ranges v,
    r.uses.Pairwise (fun u u' => u.pos ≤ u'.pos ∧ (u.pos / 2, u.slot) ≠ (u'.pos / 2, u'.slot)) := by
  intro r hr'
  have := (C34_records_are_operands f hr he ord multi po hpo ls hls st hst v (by omega)).2
  exact this.sublist (List.sublist_flatten_of_mem (List.mem_map.mpr ⟨r, hr', rfl⟩))

/-- C39. After building live ranges and this pass, one location can serve all uses of a register
at one point. (No location serves a use whose limit is 0.) -/
theorem C39_served (hz : ∀ i, ∀ o ∈ f.operands i, o.constraint ≠ .Limit 0) (v : Nat) (hv : v < n) (r : LR) (hr' : r ∈ st'.ranges v)
    (p : Nat) : Ion.Satisfiable env (usesAt r.uses p) := by
  obtain ⟨tab, P⟩ := fixupMulti_spec h
  rw [P.ranges, if_pos hv] at hr'
  obtain ⟨o, ho, rfl⟩ := List.mem_map.mp hr'
  obtain ⟨r0, hr0, h1, h2, h3⟩ := forall₂_mem_right (P.out v hv) ho
  refine h3.sat ((usesSorted f hr he ord multi po hpo ls hls st hst n hn v hv r0 hr0).imp fun h => h.1) ?_ p
  intro u hu e
  obtain ⟨_, _, b, _, i, _, q, hq, _, _, _, _, hrec⟩ :=
    (C34_records_are_operands f hr he ord multi po hpo ls hls st hst v (by omega)).1 r0 hr0 u hu
  rcases hrec with ⟨hrec, _⟩ | ⟨p, _, _, _, _, hrec, _⟩
  · exact hz i q (List.mem_of_getElem? hq) (by rw [← hrec]; exact e)
  · rw [hrec] at e; cases e

/-- C39. The use whose location a noted move reads is not one of those that lost their register,
if no use at that point is fixed to a register beyond the limit of another. -/
theorem C39_source (v : Nat) (hv : v < n) (hl : ∀ r ∈ st.ranges v, ¬ BeyondLimit env r.uses) (x y : Apply.Fixup)
    (hx : x ∈ fx) (hy : y ∈ fx) (hxv : x.vreg = v) (hyv : y.vreg = v) (e : x.pos = y.pos) : y.toSlot ≠ x.fromSlot := by
  obtain ⟨tab, P⟩ := fixupMulti_spec h
  have find : ∀ z ∈ fx, z.vreg = v → ∃ o ∈ tab v, z ∈ o.2 := by
    intro z hz hzv
    rw [P.fixups] at hz
    obtain ⟨w, hw, hz⟩ := List.mem_flatMap.mp hz
    have hw := List.mem_range.mp hw
    obtain ⟨o, ho, hz⟩ := List.mem_flatMap.mp hz
    obtain ⟨r, hr1, h1, h2, h3⟩ := forall₂_mem_right (P.out w hw) ho
    obtain ⟨u, hu, u0, hu0, e1, e2, e3, e4, e5, e6, e7⟩ := h3.origin z hz
    obtain ⟨_, _, b, _, i, _, q, hq, hqv, _, _, _, hrec⟩ :=
      (C34_records_are_operands f hr he ord multi po hpo ls hls st hst w (by omega)).1 r hr1 u hu
    have : w = v := by
      rw [← hqv, ← hzv, e6, hrec.same.1]
    subst this
    exact ⟨o, ho, hz⟩
  obtain ⟨o, ho, hx⟩ := find x hx hxv
  obtain ⟨o', ho', hy⟩ := find y hy hyv
  obtain ⟨r, hr1, _, _, h3⟩ := forall₂_mem_right (P.out v hv) ho
  obtain ⟨r', hr2, _, _, h3'⟩ := forall₂_mem_right (P.out v hv) ho'
  obtain ⟨u, hu, _, _, _, _, e3, _⟩ := h3.origin x hx
  obtain ⟨u', hu', _, _, _, _, e3', _⟩ := h3'.origin y hy
  have hin := (C34_records_are_operands f hr he ord multi po hpo ls hls st hst v (by omega)).1
  have hso := (C34_sorted_disjoint f hr he ord multi po hpo ls hls st hst v (by omega)).1
  have hrr : r = r' := by
    apply Classical.byContradiction
    intro hne
    have h1 := hin r hr1 u hu
    have h2 := hin r' hr2 u' hu'
    rcases pairwise_or hso hr1 hr2 hne with h4 | h4 <;> omega
  subst hrr
  -- both come from the same range
  have hoo : o = o' := by
    have key : ∀ (l : List LR) (t : List (LR × List Apply.Fixup)), List.Forall₂ (RangeOut env) l t → l.Pairwise (fun r r' => r.range.to < r'.range.fr) →
        (∀ r ∈ l, ∀ u ∈ r.uses, r.range.fr ≤ u.pos ∧ u.pos < r.range.to) → o ∈ t → o' ∈ t → o = o' := by
      intro l t hl
      induction hl with
      | nil => intro _ _ h; cases h
      | @cons a b l t hab hlt ih =>
        intro hp hi h4 h5
        obtain ⟨hp1, hp2⟩ := List.pairwise_cons.mp hp
        have cross : ∀ (b' c : LR × List Apply.Fixup), b' = b → c ∈ t → ∀ z ∈ b'.2, ∀ z' ∈ c.2, z.pos ≠ z'.pos := by
          intro b' c eb hc z hz z' hz' hzz
          subst eb
          obtain ⟨w, hw, _, _, _, _, e8, _⟩ := hab.2.2.origin z hz
          obtain ⟨a', ha', hac⟩ := forall₂_mem_right hlt hc
          obtain ⟨w', hw', _, _, _, _, e9, _⟩ := hac.2.2.origin z' hz'
          have i1 := hi a (List.mem_cons_self ..) w hw
          have i2 := hi a' (List.mem_cons_of_mem _ ha') w' hw'
          have := hp1 a' ha'
          omega
        rcases List.mem_cons.mp h4 with h4 | h4 <;> rcases List.mem_cons.mp h5 with h5 | h5
        · rw [h4, h5]
        · exact absurd e (cross o o' h4 h5 x hx y hy)
        · exact absurd e.symm (cross o' o h5 h4 y hy x hx)
        · exact ih hp2 (fun r hr => hi r (List.mem_cons_of_mem _ hr)) h4 h5
    exact key _ _ (P.out v hv) hso (fun r hr u hu => ⟨(hin r hr u hu).1, (hin r hr u hu).2.1⟩) ho ho'
  subst hoo
  have hsd := usesSorted f hr he ord multi po hpo ls hls st hst n hn v hv r hr1
  refine h3.source (hsd.imp fun h => h.1) (hsd.imp fun {a b} h1 h2 h3 => h1.2 (by rw [h2, h3])) (hl r hr1) x hx y hy e

omit h

section
variable (hn' : NoClash f) (hsv : Servable env f)
include hn' hsv

private theorem keys_nodup : (((List.range n).flatMap (fun v => (st.ranges v).flatMap (·.uses))).map ukey).Nodup := by
  have hrec : ∀ v, v < n → _ := fun v hv => C34_records_are_operands f hr he ord multi po hpo ls hls st hst v (by omega)
  show List.Pairwise _ _
  rw [List.pairwise_map, List.pairwise_flatMap]
  constructor
  · intro v hv
    refine (hrec v (List.mem_range.mp hv)).2.imp ?_
    intro u u' h1 e
    have e := Prod.mk.inj e
    exact h1.2 (by rw [e.1, e.2])
  · refine List.Pairwise.imp_of_mem ?_ (List.nodup_range (n := n))
    intro v w hv hw hne u hu u' hu' e
    have e := Prod.mk.inj e
    obtain ⟨r, hr1, hu⟩ := List.mem_flatMap.mp hu
    obtain ⟨r', hr2, hu'⟩ := List.mem_flatMap.mp hu'
    obtain ⟨_, _, b, _, i, _, q, hq, hqv, _, _, hdiv, _⟩ := (hrec v (List.mem_range.mp hv)).1 r hr1 u hu
    obtain ⟨_, _, b', _, i', _, q', hq', hqv', _, _, hdiv', _⟩ := (hrec w (List.mem_range.mp hw)).1 r' hr2 u' hu'
    have : i = i' := by rw [← hdiv, ← hdiv', e.1]
    subst this
    rw [e.2, hq'] at hq
    cases hq
    exact hne (hqv.symm.trans hqv')

private theorem uses_fixed (v : Nat) (hv : v < n) (r : LR) (hr' : r ∈ st.ranges v) : ∃ o, fixUses env r.uses = .ok o := by
  have hrec := C34_records_are_operands f hr he ord multi po hpo ls hls st hst v (by omega)
  have hpw := hrec.2.sublist (List.sublist_flatten_of_mem (List.mem_map.mpr ⟨r, hr', rfl⟩))
  refine fixUses_total ?_ ?_
  · intro u hu hc u' hu' hpos
    obtain ⟨_, _, b, hb, i, hi, q, hq, hqv, hqn, hqp, hdiv, hra⟩ := hrec.1 r hr' u hu
    obtain ⟨_, _, b', _, i', _, q', hq', hqv', hqn', hqp', hdiv', _⟩ := hrec.1 r hr' u' hu'
    have : i' = i := by rw [← hdiv, ← hdiv', hpos]
    subst this
    have hqc : q.constraint = .Stack := by
      rcases hra with ⟨h1, _⟩ | ⟨p, _, _, _, _, h1, _⟩
      · rw [← h1]; exact hc
      · rw [h1] at hc; cases hc
    have hslot := hsv.stack b hb i' hi u.slot u'.slot q q' hq hq' hqn hqn' hqc (by rw [hqv, hqv']) (by rw [← hqp, ← hqp', hpos])
    apply Classical.byContradiction
    intro hne
    rcases pairwise_or hpw hu' hu hne with h1 | h1
    · exact h1.2 (by rw [hpos, hslot])
    · exact h1.2 (by rw [hpos, hslot])
  · show List.Pairwise _ _
    rw [List.pairwise_map]
    refine hpw.imp ?_
    intro u u' h1 e
    have e := Prod.mk.inj e
    exact h1.2 (by rw [e.1, e.2])

/-- Each fixup is for an early use fixed to its register. -/
private theorem fix_origin (x : Apply.Fixup) (hx : x ∈ fixesAll env n st) : ∃ b, b < f.numBlocks ∧ ∃ i ∈ f.blockInsts b, ∃ o,
    (f.operands i)[x.toSlot]? = some o ∧ o.constraint = .FixedReg x.preg ∧ o.kind = .Use ∧ o.pos = .Early ∧ x.pos = ptBefore i ∧
    ∀ fx ∈ st.fixups, fx.pos = ptBefore i → fx.slot ≠ x.toSlot := by
  obtain ⟨v, hv, hx⟩ := List.mem_flatMap.mp hx
  have hv := List.mem_range.mp hv
  obtain ⟨r, hr', hx⟩ := List.mem_flatMap.mp hx
  obtain ⟨⟨us', fx'⟩, hfu⟩ := uses_fixed f hr he ord multi po hpo ls hls st hst env n hn hn' hsv v hv r hr'
  rw [fixesOf_eq hfu] at hx
  have hout := fixUses_spec hfu
  obtain ⟨u, hu, u0, hu0, e1, e2, e3, e4, e5, e6, e7⟩ := hout.origin x hx
  have hunsat : ¬ Ion.Satisfiable env (usesAt r.uses u.pos) := fun hs => (hout.quiet hs).2 x hx e3
  have hrec := C34_records_are_operands f hr he ord multi po hpo ls hls st hst v (by omega)
  obtain ⟨_, _, b, hb, i, hi, q, hq, hqv, hqn, hqp, hdiv, hra⟩ := hrec.1 r hr' u hu
  have hra' : u.op = q ∧ ∀ fx ∈ st.fixups, fx.pos = ptBefore i → fx.slot ≠ u.slot := by
    rcases hra with h1 | ⟨p, _, _, _, _, h1, _⟩
    · exact h1
    · rw [h1] at e5; cases e5
  obtain ⟨hra1, hra2⟩ := hra'
  -- another use at the same point
  have hother : ∃ w ∈ r.uses, w.pos = u.pos ∧ w ≠ u := by
    apply Classical.byContradiction
    intro hno
    apply hunsat
    obtain ⟨y, hy⟩ := one_sat env u (by rw [e5]; simp)
    refine ⟨y, ?_⟩
    intro w hw
    obtain ⟨hw, hwp⟩ := List.mem_filter.mp hw
    have : w = u := by
      apply Classical.byContradiction
      intro hne
      exact hno ⟨w, hw, of_decide_eq_true hwp, hne⟩
    rw [this]; exact hy
  obtain ⟨w, hw, hwp, hwne⟩ := hother
  have hpw := hrec.2.sublist (List.sublist_flatten_of_mem (List.mem_map.mpr ⟨r, hr', rfl⟩))
  obtain ⟨_, _, b', _, i', _, q', hq', hqv', hqn', hqp', hdiv', _⟩ := hrec.1 r hr' w hw
  have : i' = i := by rw [← hdiv, ← hdiv', hwp]
  subst this
  have hslot : u.slot ≠ w.slot := by
    intro e
    rcases pairwise_or hpw hu hw (Ne.symm hwne) with h1 | h1
    · exact h1.2 (by rw [hwp, e])
    · exact h1.2 (by rw [hwp, e])
  have hkind := hr.once i' u.slot w.slot q q' hq hq' hslot hqn hqn' (by rw [hqv, hqv'])
  have hbefore : u.pos = ptBefore i' := by
    apply Classical.byContradiction
    intro hne
    have hafter : u.pos = ptAfter i' := by unfold ptBefore at hne; unfold ptAfter; omega
    apply hunsat
    obtain ⟨y, hy⟩ := hsv.late b hb i' hi v
    refine ⟨y, ?_⟩
    intro z hz
    obtain ⟨hz, hzp⟩ := List.mem_filter.mp hz
    have hzp := of_decide_eq_true hzp
    obtain ⟨_, _, b2, _, i2, _, q2, hq2, hqv2, hqn2, hqp2, hdiv2, hraz⟩ := hrec.1 r hr' z hz
    have : i2 = i' := by rw [← hdiv, ← hdiv2, hzp]
    subst this
    rcases hraz with ⟨h1, _⟩ | ⟨p, _, _, _, _, h1, _⟩
    · rw [h1]
      exact hy _ q2 hq2 hqn2 hqv2 (by rw [← hqp2, hzp, hafter])
    · rw [h1]; trivial
  refine ⟨b, hb, i', hi, q, by rw [e1]; exact hq, by rw [← hra1]; exact e5, hkind, ?_, by rw [e3, hbefore], ?_⟩
  · rw [hqp] at hbefore
    unfold recordPoint at hbefore
    rw [hkind] at hbefore
    cases hp : q.pos with
    | Early => rfl
    | Late =>
      dsimp only at hbefore
      unfold usePoint at hbefore
      rw [if_pos (.inl hp)] at hbefore
      unfold ptAfter ptBefore at hbefore
      omega
  · rw [e1]; exact hra2

/-- C39. The pass does not panic: every group of uses can be served, and no register is reserved
twice at one point. -/
theorem C39_no_panic : ∃ r, fixupMulti env n st = .ok r := by
  have horig := fix_origin f hr he ord multi po hpo ls hls st hst env n hn hn' hsv
  have hres := C34_reservations f hr he ord multi po hpo ls hls st hst
  suffices ha : Addable st.pregs (fixesAll env n st) by
    obtain ⟨r, h1, _⟩ := fixupMulti_total (uses_fixed f hr he ord multi po hpo ls hls st hst env n hn hn' hsv) ha
    exact ⟨r, h1⟩
  constructor
  · have hkeys : (fixesAll env n st).Pairwise (fun x y => fkey x ≠ fkey y) := by
      rw [← List.pairwise_map]
      refine (keys_nodup f hr he ord multi po hpo ls hls st hst env n hn hn' hsv).sublist ?_
      unfold fixesAll
      rw [List.map_flatMap, List.map_flatMap]
      refine flatMap_sublist _ _ _ ?_
      intro v hv
      rw [List.map_flatMap, List.map_flatMap]
      refine flatMap_sublist _ _ _ ?_
      intro r hr'
      obtain ⟨⟨us', fx'⟩, hfu⟩ := uses_fixed f hr he ord multi po hpo ls hls st hst env n hn hn' hsv v (List.mem_range.mp hv) r hr'
      rw [fixesOf_eq hfu]
      exact fixUses_keys hfu
    refine List.Pairwise.imp_of_mem ?_ hkeys
    intro x y hx hy hne ep epos
    obtain ⟨b, _, i, _, o, ho, hc, hk, hp, hpos, _⟩ := horig x hx
    obtain ⟨b', _, i', _, o', ho', hc', hk', hp', hpos', _⟩ := horig y hy
    have : i' = i := by unfold ptBefore at hpos hpos'; omega
    subst this
    have := hn'.fixed i' x.toSlot y.toSlot o o' x.preg ho ho' hc (by rw [ep]; exact hc') hk hk' hp hp'
    exact hne (by unfold fkey; rw [epos, this])
  · intro x hx e he' ep
    obtain ⟨b, _, i, _, o, ho, hc, hk, hp, hpos, hno⟩ := horig x hx
    obtain ⟨p, k⟩ := e
    rcases (hres.1 p k).mp he' with ⟨b', _, i', _, _, rfl⟩ | ⟨fx, hfx, e1, rfl⟩
    · unfold ptBefore at hpos
      unfold ptAfter ptBefore
      dsimp only
      omega
    · obtain ⟨b', _, i', _, hpos', o', ho', hc', hk', hp', _⟩ := hres.2 fx hfx
      dsimp only at ep ⊢
      by_cases hpp : fx.pos = x.pos
      · exfalso
        have : i' = i := by unfold ptBefore at hpos hpos'; omega
        subst this
        have hs := hn'.fixed i' fx.slot x.toSlot o' o fx.preg ho' ho hc' (by rw [← e1, ep]; exact hc) hk' hk hp' hp
        exact hno fx hfx hpos' hs
      · omega

end

end

/-! ### Concrete cases -/

namespace Build.ExMulti

private def idOrder : HashOrder := ⟨id, fun l => .refl l⟩
private def r (n : Nat) : PReg := .new n .Int
private def define (n : Nat) : Op := ⟨.new n .Int, .Any, .Def, .Late⟩
private def fixed (n : Nat) (p : PReg) : Op := ⟨.new n .Int, .FixedReg p, .Use, .Early⟩
private def limited (n k : Nat) : Op := ⟨.new n .Int, .Limit k, .Use, .Early⟩
private def plain (n : Nat) : Op := ⟨.new n .Int, .Reg, .Use, .Early⟩
private def reusing (n k : Nat) : Op := ⟨.new n .Int, .Reuse k, .Def, .Late⟩

private def env : MachineEnv := ⟨fun _ => .empty, fun _ => .empty, fun _ => none, [r 40]⟩

/-- One block: define registers 0 and 2, then an instruction with the given operands. -/
private def fn (ops : List Op) : Func where
  numInsts := 2
  numBlocks := 1
  entry := 0
  insns := fun _ => (0, 2)
  succs := fun _ => []
  preds := fun _ => []
  params := fun _ => []
  isRet := fun i => i = 1
  isBranch := fun _ => false
  args := fun _ _ _ => []
  operands := fun i => if i = 0 then [define 0, define 2] else if i = 1 then ops else []
  clobbers := fun _ => []
  numVregs := 3

private def after (ops : List Op) : Option (Except Err (Build.St × List Apply.Fixup)) :=
  match compute idOrder (fn ops) [0] with
  | some (.ok ls) => some (build idOrder false (fn ops) ls.liveouts >>= fixupMulti env 3)
  | _ => none

/-- Constraint and point of the uses of register 0, the moves and the reservations. -/
private structure View where
  uses : List (List (OperandConstraint × Nat))
  moves : List Apply.Fixup
  reserved : List (PReg × RKey)
  deriving DecidableEq

private def view (s : Except Err (Build.St × List Apply.Fixup)) : Option View :=
  match s with
  | .ok (st, fx) => some ⟨(st.ranges 0).map (fun l => l.uses.map (fun u => (u.op.constraint, u.pos))), fx, st.pregs⟩
  | .error _ => none

private def ops3 : List Op := [fixed 0 (r 1), fixed 0 (r 2), plain 0]

private theorem ops_of {P : Nat → List Op → Prop} {ops : List Op} (h0 : P 0 [define 0, define 2]) (h1 : P 1 ops)
    (h : ∀ i, P i []) (i : Nat) : P i ((fn ops).operands i) := by
  by_cases e0 : i = 0
  · subst e0; exact h0
  by_cases e1 : i = 1
  · subst e1; exact h1
  · have : (fn ops).operands i = [] := by simp [fn, e0, e1]
    rw [this]; exact h i

private theorem ready : Ready (fn ops3) where
  nonempty := by intro b _; exact (by decide : 0 < 2)
  ordered := by intro b c h1 h2; have : c < 1 := h2; omega
  branches := by intro b h; exact absurd rfl h
  arity := by intro b k c h; simp [fn] at h
  once := by
    intro i
    refine ops_of (P := fun _ l => ∀ (j k : Nat) (o o' : Op), l[j]? = some o → l[k]? = some o' → j ≠ k →
      o.asFixedNonallocatable = none → o'.asFixedNonallocatable = none → o.vreg.vreg = o'.vreg.vreg → o.kind = .Use) ?_ ?_ ?_ i
    · intro j k o o' hj hk hne _ _ hv
      rcases j with _ | _ | j <;> rcases k with _ | _ | k <;> simp at hj hk hne <;>
        (subst hj; subst hk; exact absurd hv (by decide))
    · intro j k o o' hj _ _ _ _ _
      rcases j with _ | _ | _ | j
      · cases hj; rfl
      · cases hj; rfl
      · cases hj; rfl
      · simp [ops3] at hj
    · intro i j k o o' h; simp at h
  params := by intro b; simp [fn]
  params_def := by intro b v hv; simp [fn] at hv

/-- The hypotheses hold of this function. -/
example : Ready (fn ops3) ∧ EdgesMatch (fn ops3) ∧
    Postorder.calculate? (fn ops3).numBlocks (fn ops3).entry (fn ops3).succs = some (.ok [0]) ∧
    (∃ ls, compute idOrder (fn ops3) [0] = some (.ok ls)) ∧ ∀ i, ∀ o ∈ (fn ops3).operands i, o.constraint ≠ .Limit 0 := by
  refine ⟨ready, .of_decide (by decide +kernel), by decide +kernel, ?_, ?_⟩
  · have h : (compute idOrder (fn ops3) [0]).any (fun r => match r with | .ok _ => true | .error _ => false) = true := by decide +kernel
    cases hc : compute idOrder (fn ops3) [0] with
    | none => rw [hc] at h; cases h
    | some x =>
      cases x with
      | error e => rw [hc] at h; cases h
      | ok ls => exact ⟨ls, rfl⟩
  · intro i
    refine ops_of (P := fun _ l => ∀ o ∈ l, o.constraint ≠ .Limit 0) (by decide +kernel) (by decide +kernel) (by simp) i

/-- So do those of `C39_no_panic`. -/
example : NoClash (fn ops3) ∧ Servable env (fn ops3) := by
  have hone : ∀ b, b < (fn ops3).numBlocks → ∀ i ∈ (fn ops3).blockInsts b, i = 0 ∨ i = 1 := by
    intro b hb i hi
    have := mem_blockInsts.mp hi
    simp only [fn] at this
    omega
  refine ⟨⟨?_, ?_⟩, ⟨?_, ?_⟩⟩
  · intro i j
    refine ops_of (P := fun _ l => ∀ o ∈ l, o.constraint = .Reuse j → ∃ r, l[j]? = some r ∧ r.asFixedNonallocatable = none) ?_ ?_ (by simp) i
    · intro o ho hc
      simp [define] at ho
      rcases ho with rfl | rfl <;> cases hc
    · intro o ho hc
      simp [ops3, fixed, plain] at ho
      rcases ho with rfl | rfl | rfl <;> cases hc
  · intro i
    refine ops_of (P := fun _ l => ∀ (j k : Nat) (o o' : Op) (p : PReg), l[j]? = some o → l[k]? = some o' →
      o.constraint = .FixedReg p → o'.constraint = .FixedReg p → o.kind = .Use → o'.kind = .Use →
      o.pos = .Early → o'.pos = .Early → j = k) ?_ ?_ (by simp) i
    · intro j k o o' p hj _ _ _ hk
      rcases j with _ | _ | j
      · cases hj; cases hk
      · cases hj; cases hk
      · simp at hj
    · intro j k o o' p hj hk hc hc' _ _ _ _
      rcases j with _ | _ | _ | j <;> rcases k with _ | _ | _ | k <;> simp [ops3] at hj hk <;> subst hj <;> subst hk <;>
        first
        | rfl
        | (exact absurd (hc.trans hc'.symm) (by decide))
        | (cases hc; done)
        | (cases hc'; done)
  · intro b hb i hi k k' o o' ho _ _ _ hc
    rcases hone b hb i hi with rfl | rfl
    · exact absurd hc ((by decide : ∀ o ∈ [define 0, define 2], o.constraint ≠ .Stack) o (List.mem_of_getElem? ho))
    · exact absurd hc ((by decide : ∀ o ∈ ops3, o.constraint ≠ .Stack) o (List.mem_of_getElem? ho))
  · intro b hb i hi v
    refine ⟨.reg (r 0), ?_⟩
    intro k o ho _ _ hp
    rcases hone b hb i hi with rfl | rfl
    · have := (by decide : ∀ o ∈ [define 0, define 2], o.constraint = .Any) o (List.mem_of_getElem? ho)
      rw [this]
      trivial
    · exact absurd hp ((by decide +kernel : ∀ o ∈ ops3, recordPoint (fn ops3) 1 o ≠ ptAfter 1) o (List.mem_of_getElem? ho))

/-- One register is left to a move from the location of the other use that names one. (Uses are
listed from the last operand to the first.) -/
example : (after ops3).map view = some (some ⟨[[(.Any, 1), (.Reg, 2), (.FixedReg (r 2), 2), (.Any, 2)]],
    [⟨2, 2, 0, r 1, 0, .Secondary⟩], [(r 1, ⟨2, 3⟩)]⟩) := by decide +kernel

/-- A fixed stack slot gives way if another use needs a register; the move reads the register. -/
example : (after [fixed 0 (r 40), plain 0]).map view = some (some ⟨[[(.Any, 1), (.Reg, 2), (.Any, 2)]],
    [⟨2, 1, 0, r 40, 0, .Secondary⟩], [(r 40, ⟨2, 3⟩)]⟩) := by decide +kernel

/-- So does a register beyond a limit. -/
example : (after [fixed 0 (r 20), limited 0 16]).map view = some (some ⟨[[(.Any, 1), (.Limit 16, 2), (.Any, 2)]],
    [⟨2, 1, 0, r 20, 0, .Secondary⟩], [(r 20, ⟨2, 3⟩)]⟩) := by decide +kernel

/-- Nothing changes if one register serves all. -/
example : (after [fixed 0 (r 3), limited 0 16]).map view =
    some (some ⟨[[(.Any, 1), (.Limit 16, 2), (.FixedReg (r 3), 2)]], [], []⟩) := by decide +kernel

/-- C39, violation: with two registers beyond a limit, the move for the first reads the location
of the second use, which is itself left to a move. -/
theorem C39_source_rewritten :
    (after [limited 0 16, fixed 0 (r 20), fixed 0 (r 21)]).map view =
      some (some ⟨[[(.Any, 1), (.Any, 2), (.Any, 2), (.Limit 16, 2)]],
        [⟨2, 2, 2, r 21, 0, .Secondary⟩, ⟨2, 2, 1, r 20, 0, .Secondary⟩], [(r 20, ⟨2, 3⟩), (r 21, ⟨2, 3⟩)]⟩) := by decide +kernel

/-- C39, violation: two uses in the same register beside a use in another one fail a debug
assertion: the register is reserved twice. -/
theorem C39_same_register_twice_panics :
    (after [fixed 0 (r 1), fixed 0 (r 1), fixed 0 (r 0)]).map view = some none := by decide +kernel

/-- C39, violation: two uses on the stack are not supported, although one slot serves both. -/
theorem C39_stack_twice_panics :
    (after [⟨.new 0 .Int, .Stack, .Use, .Early⟩, ⟨.new 0 .Int, .Stack, .Use, .Early⟩]).map view = some none := by decide +kernel

/-- C39, violation: if an output overwrites an input in another register, the uses count until the
end of the instruction, and the move for an early use is noted there (point 3, after the
instruction) although the instruction reads the operand before. -/
theorem C39_move_after_instruction :
    (after [fixed 0 (r 1), fixed 0 (r 2), plain 2, reusing 1 2]).map view =
      some (some ⟨[[(.Any, 1), (.FixedReg (r 2), 3), (.Any, 3)]], [⟨3, 1, 0, r 1, 0, .Secondary⟩], [(r 1, ⟨3, 4⟩)]⟩) := by
  decide +kernel

end Build.ExMulti

end Regalloc
