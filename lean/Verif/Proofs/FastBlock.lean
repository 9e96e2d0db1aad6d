import Verif.Proofs.FastReload

/-
Single-pass allocator: whole instructions, including branches, and whole blocks.
-/
namespace Regalloc
namespace Fast
open Exec

variable {cx : Cx} {C : Nat → VReg} {P : Nat → Prop}

/-- Definitions of an instruction. -/
def DDi (cx : Cx) (i w : Nat) : Prop := DD cx i (AllOps cx i) w

/-- What holds of the locations given to the operands of an instruction. -/
structure OpsGood (cx : Cx) (i : Nat) (al : Nat → Allocation) (slot : Nat → Option Nat) : Prop where
  na : ∀ (k : Nat) o p, (cx.f.operands i)[k]? = some o → o.asFixedNonallocatable = some p → al k = Allocation.reg p
  con : ∀ (k : Nat) o, (cx.f.operands i)[k]? = some o → o.asFixedNonallocatable = none → ConOk cx o.constraint (al k)
  real : ∀ (k : Nat) o, (cx.f.operands i)[k]? = some o → o.asFixedNonallocatable = none →
    (∃ p, al k = Allocation.reg p ∧ cx.initAvail.contains p = true ∧ pcls p = vcls o.vreg) ∨
    ∃ n, al k = stk n ∧ slot o.vreg.vreg = some n
  reuse : ∀ (k kd : Nat) ok od, (cx.f.operands i)[k]? = some ok → (cx.f.operands i)[kd]? = some od →
    od.constraint = .Reuse k → al k = al kd
  compat : ∀ (k k' : Nat) o o' p, (cx.f.operands i)[k]? = some o → (cx.f.operands i)[k']? = some o' → k ≠ k' →
    o.asFixedNonallocatable = none → o'.asFixedNonallocatable = none →
    al k = Allocation.reg p → al k' = Allocation.reg p → Compat (cx.f.operands i) o o'
  clob : ∀ (k : Nat) o p, (cx.f.operands i)[k]? = some o → o.kind = .Def → al k = Allocation.reg p →
    ¬ (cx.clob i).contains p = true
  lateClob : LateFix cx i → ∀ (k : Nat) o p, (cx.f.operands i)[k]? = some o → o.kind = .Use → o.pos = .Late →
    o.asFixedNonallocatable = none → al k = Allocation.reg p → ¬ (cx.clob i).contains p = true

theorem OpsGood.mono {i : Nat} {al al' : Nat → Allocation} {sl sl' : Nat → Option Nat} (h : OpsGood cx i al sl)
    (h1 : al' = al) (h2 : ∀ v n, sl v = some n → sl' v = some n) : OpsGood cx i al' sl' := by
  subst h1
  refine ⟨h.na, h.con, ?_, h.reuse, h.compat, h.clob, h.lateClob⟩
  intro k o ho hn
  exact (h.real k o ho hn).imp_right fun ⟨n, a, b⟩ => ⟨n, a, h2 _ _ b⟩

theorem InstR.good {P0 K : Nat → Prop} {i : Nat} {s s' : FS} {loc : Nat → Option Allocation} (hi : IOk cx C i)
    (R : InstR cx C P0 i K s s' loc) : OpsGood cx i (s'.allocs i) s'.slot := by
  have hl : ∀ (k : Nat) o, (cx.f.operands i)[k]? = some o → o.asFixedNonallocatable = none → loc k = some (s'.allocs i k) := by
    intro k o ho hn
    obtain ⟨a, ha⟩ := R.j.hasLoc k o ⟨o, ho⟩ ho hn
    rw [ha, R.j.locDone k a ⟨o, ho⟩ ha]
  refine ⟨fun k o p ho hn => (R.j.na k o p ho hn).2 ⟨o, ho⟩, fun k o ho hn => R.con k o _ ho (hl k o ho hn),
    fun k o ho hn => R.j.real k o _ ho (hl k o ho hn), ?_, ?_, ?_, ?_⟩
  · intro k kd ok od hok hod hre
    have h1 := R.req k kd ok od hok hod hre
    have hdk : od.kind = .Def := by
      cases e : od.kind with
      | Def => rfl
      | Use => exact absurd hre (hi.useC kd od hod e k)
    have h2 := hl kd od hod (hi.defNa kd od hod hdk)
    rw [h2] at h1
    exact R.j.locDone k _ ⟨ok, hok⟩ h1
  · intro k k' o o' p ho ho' hk hn hn' h1 h2
    exact R.j.compat k k' o o' p ho ho' hk (by rw [hl k o ho hn, h1]) (by rw [hl k' o' ho' hn', h2])
  · intro k o p ho hk h1
    obtain ⟨q, e, hq⟩ := R.j.defReg k o _ ho hk (hl k o ho (hi.defNa k o ho hk))
    rw [h1] at e
    cases reg_inj e
    exact hq
  · intro hf k o p ho hk hp hn h1
    exact R.j.lateClob hf k o p ho hk hp (by rw [hl k o ho hn, h1])

/-- What an instruction leaves behind, apart from its meaning. -/
structure IStep (cx : Cx) (C : Nat → VReg) (P0 : Nat → Prop) (i : Nat) (s s' : FS) : Prop where
  inv : Inv cx C (fun w => P0 w ∨ DDi cx i w) s'
  reused : s'.reused = fun _ => none
  slot : ∀ v n, s.slot v = some n → s'.slot v = some n
  allocs : ∀ i', i' ≠ i → s'.allocs i' = s.allocs i'
  allocMono : ∀ w, s.alloc w ≠ Allocation.none → s'.alloc w ≠ Allocation.none ∨ DDi cx i w
  stkMono : ∀ w n, s.slot w = some n → s.alloc w = stk n → s'.alloc w = stk n ∨ DDi cx i w
  good : OpsGood cx i (s'.allocs i) s'.slot
  live : ∀ w, UU cx i w → s'.alloc w ≠ Allocation.none

theorem allocInst_split {b i : Nat} {s s' : FS} (h : allocInst cx b s i = .ok s') :
    ∃ s1 nc s2 s3 s4 s5, instSetup cx s i = .ok (s1, nc) ∧ instEvict cx s1 nc i = .ok s2 ∧ instOps cx s2 b i = .ok s3 ∧
      (cx.opsOf i).foldlM (useMove cx i) s3 = .ok s4 ∧
      (if cx.f.isBranch i then processBranch cx s4 b i else .ok s4) = .ok s5 ∧ s' = { s5 with reused := fun _ => none } := by
  unfold allocInst at h
  split at h
  · cases h
  · next s1 nc h1 =>
    split at h
    · cases h
    · next s2 h2 =>
      split at h
      · cases h
      · next s3 h3 =>
        split at h
        · cases h
        · next s4 h4 =>
          split at h
          · cases h
          · next s5 h5 =>
            exact ⟨s1, nc, s2, s3, s4, s5, h1, h2, h3, h4, h5, (Except.ok.inj h).symm⟩

theorem opLocs_congr {s s' : FS} {i : Nat} (h : s'.allocs i = s.allocs i) : opLocs cx s' i = opLocs cx s i := by
  unfold opLocs; rw [h]

/-- When instruction `i` is processed in state `s`, the registers in `K` that it defines
are kept in their slots. -/
def DefTrace (cx : Cx) (b i : Nat) (K : Nat → Prop) (s : FS) : Prop :=
  ∀ s1 nc s2, instSetup cx s i = .ok (s1, nc) → instEvict cx s1 nc i = .ok s2 → DefAtSlot cx b i K s2

theorem defTrace_of {P0 K : Nat → Prop} {i b : Nat} {s : FS} (he : EnvOk cx) (hi : IOk cx C i) (I : Inv cx C P0 s)
    (hr : s.reused = fun _ => none) (hal : ∀ k, s.allocs i k = Allocation.none)
    (hP0 : ∀ (k : Nat) o, (cx.f.operands i)[k]? = some o → o.asFixedNonallocatable = none → ¬ P0 o.vreg.vreg)
    (hkd : ∀ (k : Nat) o, (cx.f.operands i)[k]? = some o → o.kind = .Def → K o.vreg.vreg →
      ∃ n, s.slot o.vreg.vreg = some n ∧ s.alloc o.vreg.vreg = stk n) : DefTrace cx b i K s := by
  intro s1 nc s2 h1 h2
  obtain ⟨st, haw, hslot, _⟩ := start_spec (b := b) he hi I hr hal h1 h2
  refine defAtSlot_of he hi hP0 st ?_
  intro k o ho hk hK
  obtain ⟨n, q1, q2⟩ := hkd k o ho hk hK
  refine ⟨n, hslot _ _ q1, ?_⟩
  rcases haw o.vreg.vreg with e | ⟨m, e1, e2⟩
  · rw [e]; exact q2
  · rw [hslot _ _ q1] at e1; cases e1; exact e2

section
variable {P0 K : Nat → Prop} {i b : Nat} {s s' : FS} (he : EnvOk cx) (hi : IOk cx C i) (I : Inv cx C P0 s)
    (hr : s.reused = fun _ => none) (hal : ∀ k, s.allocs i k = Allocation.none)
    (hP0 : ∀ (k : Nat) o, (cx.f.operands i)[k]? = some o → o.asFixedNonallocatable = none → ¬ P0 o.vreg.vreg)
    (hkd : DefTrace cx b i K s)
    (h : allocInst cx b s i = .ok s')
include he hi I hr hal hP0 hkd h

theorem allocInst_plain (hnb : cx.f.isBranch i = false) : IStep cx C P0 i s s' ∧
    ∃ Eb Ea : List Edit, s'.edits = Eb.map (fun e => (pt i .Before, e)) ++ Ea.map (fun e => (pt i .After, e)) ++ s.edits ∧
    ∀ {Val : Type} (sem : InstSem Val) (F : Nat → Option Nat) (L : Nat → Prop) (V : VReg → Val) (A : Allocation → Val)
      (junk : Allocation → Val), FOk F s' → (∀ w, L w → (C w).vreg = w) →
      Sat F s' (fun w => UU cx i w ∨ (L w ∧ ¬ DDi cx i w))
        (fun w => K w ∧ (UU cx i w ∨ (L w ∧ ¬ DDi cx i w))) (fun _ _ => False) (fun w => V (C w)) A →
      (stepInst sem i (opLocs cx s' i) (execE Eb A)).1 =
          (stepInst sem i ((cx.f.operands i).map (fun o => (o, o.vreg))) V).1 ∧
        Sat F s L (fun w => K w ∧ L w) (fun _ _ => False)
          (fun w => (stepInst sem i ((cx.f.operands i).map (fun o => (o, o.vreg))) V).2 (C w))
          (execE Ea (clobbered cx.f i junk (stepInst sem i (opLocs cx s' i) (execE Eb A)).2)) := by
  obtain ⟨s1, nc, s2, s3, s4, s5, h1, h2, h3, h4, h5, e⟩ := allocInst_split h
  rw [if_neg (by simp [hnb])] at h5
  have h5 := Except.ok.inj h5
  subst h5
  obtain ⟨loc, R⟩ := instR_spec he hi I hr hal hP0 (hkd s1 nc s2 h1 h2) h1 h2 h3 h4
  have hg := R.good hi
  refine ⟨⟨?_, by rw [e], by rw [e]; exact R.slot, by rw [e]; exact R.allocs, by rw [e]; exact R.allocMono,
    by rw [e]; exact R.stkMono, by rw [e]; exact hg, ?_⟩, ?_⟩
  · rw [e]
    exact (R.inv.congrP (fun w => Iff.rfl)).of_eq rfl rfl rfl rfl rfl R.inv.lru
  · rw [e]
    rintro w ⟨k, o, ho, hk, hn, rfl⟩
    exact R.j.useLive k o ⟨o, ho⟩ ho hk hn
  · obtain ⟨Eb, Ea, hE, hS⟩ := R.tr
    refine ⟨Eb, Ea, by rw [e]; exact hE, ?_⟩
    intro Val sem F L V A junk hF hL hSat
    have ho : opLocs cx s' i = opLocs cx s4 i := opLocs_congr (by rw [e])
    rw [ho]
    have hF4 : FOk F s4 := hF.of_eq (by rw [e])
    obtain ⟨g1, g2, _⟩ := hS sem F L V A junk hF4 hL (Sat.of_eq hSat (by rw [e]))
    exact ⟨g1, g2⟩
end

/-- The final slot numbers `F` fit state `t`. -/
structure Fin (F : Nat → Option Nat) (t : FS) : Prop where
  ok : FOk F t
  new : ∀ w n, F w = some n → n < slotBound ∧ (t.slot w = some n ∨ t.numSlots ≤ n)

theorem Fin.back {F : Nat → Option Nat} {s s' : FS} (h : Fin F s') (h1 : ∀ v n, s.slot v = some n → s'.slot v = some n)
    (h2 : NS s s') : Fin F s := by
  refine ⟨h.ok.of_mono h1, ?_⟩
  intro w n hw
  obtain ⟨a, b⟩ := h.new w n hw
  refine ⟨a, ?_⟩
  rcases b with b | b
  · exact h2.new w n b
  · exact .inr (Nat.le_trans h2.num b)

theorem stepInst_noDef {Val L : Type} [DecidableEq L] (sem : InstSem Val) (i : Nat) (ol : List (Op × L)) (σ : L → Val)
    (h : ∀ x ∈ ol, x.1.kind = .Use) : stepInst sem i ol σ = ((i, reads .Early ol σ, reads .Late ol σ), σ) := by
  have key : ∀ (pos : OperandPos) (g : Nat → Val) (ol : List (Op × L)) (k : Nat), (∀ x ∈ ol, x.1.kind = .Use) →
      writesFrom pos g k ol σ = σ := by
    intro pos g ol
    induction ol with
    | nil => intro k _; rfl
    | cons x xs ih =>
      intro k hx
      unfold writesFrom
      rw [if_neg (by rw [hx x (by simp)]; rintro ⟨e, _⟩; cases e)]
      exact ih (k + 1) (fun y hy => hx y (by simp [hy]))
  unfold stepInst
  dsimp only
  rw [key _ _ _ _ h, key _ _ _ _ h]

theorem reads_congr {Val L : Type} (pos : OperandPos) (ol : List (Op × L)) (σ σ' : L → Val)
    (h : ∀ x ∈ ol, x.1.kind = .Use → x.1.asFixedNonallocatable = none → σ x.2 = σ' x.2) : reads pos ol σ = reads pos ol σ' := by
  unfold reads
  apply List.map_congr_left
  intro x hx
  rw [List.mem_filter] at hx
  have := of_decide_eq_true hx.2
  exact h x hx.1 this.1 this.2.2

/-- How the registers needed after a block relate to those needed before its branch:
`Vp` gives their values after the branch from those before. -/
structure EdgeOk (cx : Cx) (C : Nat → VReg) (b i : Nat) {Val : Type} (Lend LOut : Nat → Prop)
    (Vp : (VReg → Val) → VReg → Val) : Prop where
  nb : cx.f.isBranch i = false → ∀ w, ¬ Lend w
  e1 : ∀ w V, Lend w → (∀ x ∈ branchPairs cx.f b i, ∀ p, x.2 = some p → p.vreg ≠ w) → LOut w ∧ Vp V (C w) = V (C w)
  e2 : ∀ w V, Lend w → ∀ x ∈ branchPairs cx.f b i, ∀ p, x.2 = some p → p.vreg = w →
    LOut x.1.vreg ∧ Vp V (C w) = V (C x.1.vreg)
  e3 : ∀ w V, UU cx i w → Vp V (C w) = V (C w)
  e4 : cx.f.isBranch i = true → ∀ w, UU cx i w → ∀ x ∈ branchPairs cx.f b i, ∀ p, x.2 = some p → p.vreg ≠ w

section
variable {P0 K : Nat → Prop} {i b : Nat} {s s' : FS} (he : EnvOk cx) (hi : IOk cx C i) (I : Inv cx C P0 s)
    (hr : s.reused = fun _ => none) (hal : ∀ k, s.allocs i k = Allocation.none)
    (hP0 : ∀ (k : Nat) o, (cx.f.operands i)[k]? = some o → o.asFixedNonallocatable = none → ¬ P0 o.vreg.vreg)
    (hbb : BB s) (hbr : BrOk cx C b i)
    (h : allocInst cx b s i = .ok s')
include he hi I hr hal hP0 hbb hbr h

theorem allocInst_branch (K : Nat → Prop) (hb : cx.f.isBranch i = true) : IStep cx C P0 i s s' ∧
    (∀ x ∈ branchPairs cx.f b i, s'.alloc x.1.vreg ≠ Allocation.none) ∧
    ∃ Eb Ea : List Edit, s'.edits = Eb.map (fun e => (pt i .Before, e)) ++ Ea.map (fun e => (pt i .After, e)) ++ s.edits ∧
    ∀ {Val : Type} (sem : InstSem Val) (F : Nat → Option Nat) (Lend LOut : Nat → Prop) (Vp : (VReg → Val) → VReg → Val)
      (V : VReg → Val) (A : Allocation → Val) (junk : Allocation → Val), Fin F s' → (∀ w, Lend w → (C w).vreg = w) →
      (∀ w, Lend w → K w) → EdgeOk cx C b i Lend LOut Vp →
      Sat F s' (fun w => UU cx i w ∨ (LOut w ∧ ¬ DDi cx i w))
        (fun w => K w ∧ (UU cx i w ∨ (LOut w ∧ ¬ DDi cx i w))) (fun _ _ => False) (fun w => V (C w)) A →
      (stepInst sem i (opLocs cx s' i) (execE Eb A)).1 =
          (stepInst sem i ((cx.f.operands i).map (fun o => (o, o.vreg))) V).1 ∧
        ∀ w n, Lend w → F w = some n →
          clobbered cx.f i junk (stepInst sem i (opLocs cx s' i) (execE Eb A)).2 (stk n) =
            Vp (stepInst sem i ((cx.f.operands i).map (fun o => (o, o.vreg))) V).2 (C w) := by
  have hnoD : ∀ w, ¬ DDi cx i w := by
    rintro w ⟨k, o, ho, _, hk, _⟩
    rw [hbr.noDef o (List.mem_of_getElem? ho)] at hk
    cases hk
  obtain ⟨s1, nc, s2, s3, s4, s5, h1, h2, h3, h4, h5, e⟩ := allocInst_split h
  rw [if_pos hb] at h5
  obtain ⟨loc, R⟩ := instR_spec (K := K) he hi I hr hal hP0 (fun pre x post t hl _ hk _ => absurd
      ⟨x.1, x.2, (ops_order hl).1, ⟨x.2, (ops_order hl).1⟩, hk, rfl⟩ (hnoD x.2.vreg.vreg))
    h1 h2 h3 h4
  have hg := R.good hi
  have hstk : ∀ w, Held s w → ∃ n, s4.slot w = some n ∧ s4.alloc w = stk n := by
    intro w hw
    obtain ⟨n, e1, e2⟩ := (hbb w).resolve_left hw
    exact ⟨n, R.slot w n e1, (R.stkMono w n e1 e2).resolve_right (hnoD w)⟩
  have hreg : ∀ w p, s4.alloc w = Allocation.reg p → ∃ (k : Nat) (o : Op), (cx.f.operands i)[k]? = some o ∧
      o.kind = .Use ∧ o.vreg.vreg = w ∧ loc k = some (Allocation.reg p) := by
    intro w p hw
    have hnh : ¬ Held s w := by
      intro hh
      obtain ⟨n, e1, e2⟩ := hstk w hh
      rw [e2] at hw
      exact reg_ne_stk (R.inv.slot29 e1) hw.symm
    obtain ⟨k, o, ho, _, hk, hv, hl⟩ := R.j.fresh w p hnh (fun h => h) hw
    exact ⟨k, o, ho, hk, hv, hl⟩
  have hav : ∀ w p, s4.alloc w = Allocation.reg p → ¬ (s4.availE.contains p = true ∧ s4.availL.contains p = true) := by
    rintro w p hw ⟨a1, a2⟩
    obtain ⟨k, o, ho, hk, _, hl⟩ := hreg w p hw
    have := R.j.phase k o p ho hl
    exact this.1 (.inl hk) a1
  obtain ⟨I5, B5, hargs, _, hmono, E, hE, hS5⟩ := processBranch_spec he hbr R.inv R.scr hav h5
  have hslot : ∀ v n, s.slot v = some n → s'.slot v = some n := by
    rw [e]; exact fun v n hv => B5.slot v n (R.slot v n hv)
  have hallocs : s'.allocs = s4.allocs := by rw [e]; exact B5.allocs
  refine ⟨⟨?_, by rw [e], hslot, by rw [hallocs]; exact R.allocs, ?_, ?_, ?_, ?_⟩, ?_, ?_⟩
  · rw [e]
    exact (I5.congrP (fun w => Iff.rfl)).of_eq rfl rfl rfl rfl rfl I5.lru
  · intro w hw
    have := (R.allocMono w hw).resolve_right (hnoD w)
    rw [e]
    exact .inl (hmono w this)
  · intro w n g1 g2
    have := (R.stkMono w n g1 g2).resolve_right (hnoD w)
    left
    rw [e]
    rcases B5.alloc w with e' | ⟨m, e1, e2⟩
    · exact e'.trans this
    · rw [B5.slot w n (R.slot w n g1)] at e1; cases e1; exact e2
  · rw [hallocs]
    exact hg.mono rfl (by rw [e]; exact B5.slot)
  · rintro w ⟨k, o, ho, hk, hn, rfl⟩
    rw [e]
    exact hmono _ (R.j.useLive k o ⟨o, ho⟩ ho hk hn)
  · intro x hx
    obtain ⟨n, e1, e2⟩ := hargs x hx
    rw [e]
    show s5.alloc x.1.vreg ≠ Allocation.none
    rw [e2]
    exact stk_ne_none (I5.slot29 e1)
  · obtain ⟨Eb, Ea, hEE, hS⟩ := R.tr
    refine ⟨E ++ Eb, Ea, ?_, ?_⟩
    · rw [e]
      show s5.edits = _
      rw [hE, hEE, List.map_append]
      simp only [List.append_assoc]
    intro Val sem F Lend LOut Vp V A junk hF hLC hK hed hSat
    have hF5 : Fin F s5 := ⟨hF.ok.of_eq (by rw [e]), by intro w n hw; have := hF.new w n hw; rw [e] at this; exact this⟩
    have ho : opLocs cx s' i = opLocs cx s4 i := opLocs_congr (by rw [hallocs])
    rw [ho]
    have hSat5 : Sat F s5 (fun w => UU cx i w ∨ (LOut w ∧ ¬ DDi cx i w))
        (fun w => K w ∧ (UU cx i w ∨ (LOut w ∧ ¬ DDi cx i w))) (fun _ _ => False) (fun w => V (C w)) A :=
      Sat.of_eq hSat (by rw [e])
    have hSat4 := hS5 F (fun w => UU cx i w ∨ (Lend w ∧ ¬ DDi cx i w)) (fun w => K w ∧ (UU cx i w ∨ (Lend w ∧ ¬ DDi cx i w)))
      _ _ (fun w => V (C w)) (fun w => Vp V (C w)) A hF5.ok hF5.new
      (by
        rintro w (hu | ⟨hl, _⟩) hnp
        · exact ⟨.inl hu, hed.e3 w V hu⟩
        · exact ⟨.inr ⟨(hed.e1 w V hl hnp).1, hnoD w⟩, (hed.e1 w V hl hnp).2⟩)
      (by
        rintro w ⟨hk, hu | ⟨hl, _⟩⟩ hnp
        · exact ⟨⟨hk, .inl hu⟩, hed.e3 w V hu⟩
        · exact ⟨⟨hk, .inr ⟨(hed.e1 w V hl hnp).1, hnoD w⟩⟩, (hed.e1 w V hl hnp).2⟩)
      (by
        intro w hw x hx p hp hpw
        have hw : UU cx i w ∨ (Lend w ∧ ¬ DDi cx i w) := by
          rcases hw with h | h
          · exact h
          · exact h.2
        rcases hw with hu | ⟨hl, _⟩
        · exact absurd hpw (hed.e4 hb w hu x hx p hp)
        · refine ⟨.inr ⟨(hed.e2 w V hl x hx p hp hpw).1, hnoD _⟩, (hed.e2 w V hl x hx p hp hpw).2, ?_⟩
          intro q hq
          obtain ⟨k, o, ho', hk, hv, hl'⟩ := hreg w q hq
          have hna : o.asFixedNonallocatable = none := by
            cases hn : o.asFixedNonallocatable with
            | none => rfl
            | some r => rw [(R.j.na k o r ho' hn).1] at hl'; cases hl'
          exact hed.e4 hb w ⟨k, o, ho', hk, hna, hv⟩ x hx p hp hpw)
      hSat5
    obtain ⟨g1, _, g3⟩ := hS sem F Lend (Vp V) (execE E A) junk (hF5.ok.of_mono B5.slot) hLC hSat4
    rw [execE_append]
    have hops : ∀ x ∈ (cx.f.operands i).map (fun o => (o, o.vreg)), x.1.kind = .Use := by
      intro x hx
      obtain ⟨o, ho', rfl⟩ := List.mem_map.mp hx
      exact hbr.noDef o ho'
    have hrd : ∀ pos, reads pos ((cx.f.operands i).map (fun o => (o, o.vreg))) (Vp V) =
        reads pos ((cx.f.operands i).map (fun o => (o, o.vreg))) V := by
      intro pos
      apply reads_congr
      intro x hx hk hn
      obtain ⟨o, ho', rfl⟩ := List.mem_map.mp hx
      obtain ⟨k, hko⟩ := List.mem_iff_getElem?.mp ho'
      dsimp only at hk hn ⊢
      have := hed.e3 o.vreg.vreg V ⟨k, o, hko, hk, hn, rfl⟩
      rw [← (hi.vreg k o hko hn).1] at this
      exact this
    refine ⟨?_, ?_⟩
    · rw [g1, stepInst_noDef _ _ _ _ hops, stepInst_noDef _ _ _ _ hops, hrd, hrd]
    · intro w n hl hw
      rw [g3 w n (hK w hl) hl (hnoD w) hw, stepInst_noDef _ _ _ _ hops, stepInst_noDef _ _ _ _ hops]
end

end Fast
end Regalloc
