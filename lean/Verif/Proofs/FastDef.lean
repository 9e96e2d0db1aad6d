import Verif.Proofs.FastProc

/-
Single-pass allocator: one operand of an instruction (`alloc_use`, `alloc_def_op`).
-/
namespace Regalloc
namespace Fast
open Exec

/-- Registers defined by processed operands. -/
def DD (cx : Cx) (i : Nat) (done : Nat → Prop) (w : Nat) : Prop :=
  ∃ (k : Nat) (o : Op), (cx.f.operands i)[k]? = some o ∧ done k ∧ o.kind = .Def ∧ o.vreg.vreg = w

/-- Locations of the definitions of processed operands. -/
def XD (cx : Cx) (i : Nat) (loc : Nat → Option Allocation) (done : Nat → Prop) (l : Allocation) (w : Nat) : Prop :=
  ∃ (k : Nat) (o : Op), (cx.f.operands i)[k]? = some o ∧ done k ∧ o.kind = .Def ∧ o.vreg.vreg = w ∧ loc k = some l

theorem PD_iff {cx i P0 done w} : PD cx i P0 done w ↔ P0 w ∨ DD cx i done w := Iff.rfl

/-- A location meets an operand constraint; a reuse asks for a register. -/
def ConOk (cx : Cx) (c : OperandConstraint) (a : Allocation) : Prop :=
  match c with
  | .Any => True
  | .Reg => ∃ p, a = Allocation.reg p ∧ cx.isStack a = false
  | .Reuse _ => ∃ p, a = Allocation.reg p ∧ cx.isStack a = false
  | .FixedReg p => a = Allocation.reg p
  | .Stack => cx.isStack a = true
  | .Limit _ => False

theorem addMove_allocs {cx : Cx} {s s' : FS} {i : Nat} {a b : Allocation} {c : RegClass} {pos : InstPosition}
    (h : addMove cx s i a b c pos = .ok s') : s'.allocs = s.allocs := by
  unfold addMove at h
  split at h
  · split at h
    · cases h
    · next s1 h1 =>
      have e1 : s1.allocs = s.allocs := by
        unfold ensureScratch at h1
        split at h1
        · cases h1; rfl
        · split at h1
          · cases h1
          · next s2 h2 =>
            cases h1
            unfold allocScratch at h2
            split at h2
            · cases h2
            · cases h2
            · split at h2
              · cases h2
              · next s3 h3 =>
                cases h2
                show s3.allocs = s.allocs
                split at h3
                · unfold evictPlain at h3
                  split at h3
                  · cases h3
                  · split at h3
                    · cases h3
                    · next n s4 h4 =>
                      split at h3
                      · cases h3
                      · cases h3
                        show s4.allocs = s.allocs
                        unfold toSlot at h4
                        split at h4
                        · cases h4
                        · next n' s5 h5 =>
                          cases h4
                          show s5.allocs = s.allocs
                          unfold getSpillslot at h5
                          split at h5
                          · cases h5; rfl
                          · split at h5
                            · cases h5
                            · cases h5; rfl
                · cases h3; rfl
      split at h
      · cases h
      · cases h; exact e1
  · cases h; rfl

/-- The location given to an operand meets its constraint. -/
theorem processOperand_con {cx : Cx} {C : Nat → VReg} {P : Nat → Prop} {s s' : FS} {i k : Nat} {eo : Op}
    (he : EnvOk cx) (I : Inv cx C P s) (hna : eo.asFixedNonallocatable = none)
    (h : processOperand cx s i eo k = .ok s') : ConOk cx eo.constraint (s'.allocs i k) := by
  unfold processOperand at h
  rw [hna] at h
  dsimp only at h
  split at h
  · cases h
  · next hw =>
    obtain ⟨na, lr, e, l, rfl, _⟩ := keepAlloc_spec he I h
    show ConOk cx eo.constraint (set1 s.allocs i (set1 (s.allocs i) k (s.alloc eo.vreg.vreg)) i k)
    rw [set1_same, set1_same]
    have w2 := (within_true I hw).2.1
    have w3 := (within_true I hw).2.2
    unfold withinConstraint at hw
    dsimp only at hw
    cases hc : eo.constraint with
    | Any => trivial
    | Reg =>
      obtain ⟨p, hp⟩ := w3 hc
      rw [hc] at hw
      dsimp only at hw
      refine ⟨p, hp, ?_⟩
      split at hw
      · cases hw
      · next hs => simpa using hs
    | FixedReg p => exact w2 p hc
    | Stack => rw [hc] at hw; exact Except.ok.inj hw
    | Reuse _ => rw [hc] at hw; cases hw
    | Limit _ => rw [hc] at hw; cases hw
  · unfold allocOperand at h
    split at h
    · cases h
    · next a s1 h1 =>
      have h1' : ∃ s2, chooseAlloc cx s i eo = .ok (a, s2) ∧ s1 = s2.setAllocs i k a := by
        split at h1
        · cases h1
        · next a' s2 h2 => cases h1; exact ⟨s2, h2, rfl⟩
      obtain ⟨s2, h2, rfl⟩ := h1'
      have hal : s'.allocs i k = a := by
        have e0 : (s2.setAllocs i k a).allocs i k = a := by simp [FS.setAllocs, set1]
        have si : ∀ (t : FS) (x : Allocation) (y : Option VReg), (t.setIn x y).allocs = t.allocs := by
          intro t x y; unfold FS.setIn; split <;> rfl
        split at h
        · unfold becomeLive at h
          split at h
          · cases h
          · cases h; rw [si]; exact e0
        · unfold relocate at h
          split at h
          · cases h
          · next s3 h3 =>
            cases h
            rw [si]
            split at h3
            · rw [addMove_allocs h3]; exact e0
            · cases h3; exact e0
      rw [hal]
      have reg : ∀ {a s2}, allocReg cx s i eo = .ok (a, s2) → ∃ p, a = Allocation.reg p ∧ cx.isStack a = false := by
        intro a s2 h
        unfold allocReg at h
        split at h
        · cases h
        · next p hp =>
          obtain ⟨q1, _⟩ := select_spec I.lru hp
          unfold takeReg at h
          split at h
          · cases h
          · split at h
            · cases h
            · cases h; exact ⟨p, rfl, he.isStack_reg q1⟩
      unfold chooseAlloc at h2
      cases hc : eo.constraint with
      | Any => trivial
      | Reg =>
        rw [hc] at h2
        dsimp only at h2
        split at h2
        · cases h2
        · next h3 => cases h2; exact reg h3
      | FixedReg p => rw [hc] at h2; cases h2; rfl
      | Stack =>
        rw [hc] at h2
        dsimp only at h2
        unfold slotAlloc at h2
        split at h2
        · cases h2
        · next n s3 h3 =>
          cases h2
          obtain ⟨I1, hs, _⟩ := getSpillslot_spec he h3 I
          exact isStack_stk cx (I1.slot29 hs)
      | Reuse _ => rw [hc] at h2; cases h2
      | Limit _ => rw [hc] at h2; cases h2

/-- Invariant of the loop over the operands. -/
structure Stp (cx : Cx) (C : Nat → VReg) (P0 : Nat → Prop) (i : Nat) (W : Nat → Prop) (s : FS)
    (loc : Nat → Option Allocation) (done : Nat → Prop) : Prop where
  inv : Inv cx C (PD cx i P0 done) s
  scr : ScrOk cx s
  j : J cx i W (PD cx i P0 done) s loc done (fun _ => False)
  con : ∀ (k : Nat) o a, (cx.f.operands i)[k]? = some o → done k → loc k = some a → ConOk cx o.constraint a
  req : ∀ (k kd : Nat) od, done k → (cx.f.operands i)[kd]? = some od → od.constraint = .Reuse k → done kd ∧ loc k = loc kd

/-- What a step leaves alone and how it acts on requirements. -/
structure OpFr (cx : Cx) (i : Nat) (W K : Nat → Prop) (s : FS) (loc : Nat → Option Allocation)
    (done : Nat → Prop) (s' : FS) (loc' : Nat → Option Allocation) (done' : Nat → Prop) : Prop where
  slot : ∀ v n, s.slot v = some n → s'.slot v = some n
  allocs : ∀ i', i' ≠ i → s'.allocs i' = s.allocs i'
  allocMono : ∀ w, s.alloc w ≠ Allocation.none → s'.alloc w ≠ Allocation.none ∨ DD cx i done' w
  stkMono : ∀ w n, s.slot w = some n → s.alloc w = stk n → s'.alloc w = stk n ∨ DD cx i done' w
  sat : ∃ E : List Edit, s'.edits = E.map (fun e => (pt i .After, e)) ++ s.edits ∧
    ∀ {Val : Type} (F : Nat → Option Nat) (L1 L2 : Nat → Prop) (V : Nat → Val) (A : Allocation → Val), FOk F s' →
      (∀ w, L1 w → W w) → (∀ w, L2 w → K w) →
      Sat F s' (fun w => L1 w ∧ ¬ DD cx i done' w) (fun w => L2 w ∧ ¬ DD cx i done' w) (XD cx i loc' done') V A →
      Sat F s (fun w => L1 w ∧ ¬ DD cx i done w) (fun w => L2 w ∧ ¬ DD cx i done w) (XD cx i loc done) V (execE E A)

section
variable {cx : Cx} {C : Nat → VReg} {P0 : Nat → Prop} {i k : Nat} {W K : Nat → Prop} {s : FS}
  {loc : Nat → Option Allocation} {done : Nat → Prop} {o : Op}

theorem DD_use (ho : (cx.f.operands i)[k]? = some o) (hk : o.kind = .Use) :
    DD cx i (fun x => done x ∨ x = k) = DD cx i done := by
  funext w
  refine propext ⟨?_, ?_⟩
  · rintro ⟨k', o', h1, h2, h3, h4⟩
    refine ⟨k', o', h1, ?_, h3, h4⟩
    rcases h2 with h | h
    · exact h
    · subst h; rw [ho] at h1; cases h1; rw [hk] at h3; cases h3
  · rintro ⟨k', o', h1, h2, h3, h4⟩
    exact ⟨k', o', h1, .inl h2, h3, h4⟩

theorem PD_use (ho : (cx.f.operands i)[k]? = some o) (hk : o.kind = .Use) :
    PD cx i P0 (fun x => done x ∨ x = k) = PD cx i P0 done := by
  funext w
  refine propext ?_
  rw [PD_iff, PD_iff, DD_use ho hk]

theorem DD_def (ho : (cx.f.operands i)[k]? = some o) (hk : o.kind = .Def) (w : Nat) :
    DD cx i (fun x => done x ∨ x = k) w ↔ DD cx i done w ∨ w = o.vreg.vreg := by
  refine ⟨?_, ?_⟩
  · rintro ⟨k', o', h1, h2, h3, h4⟩
    rcases h2 with h | h
    · exact .inl ⟨k', o', h1, h, h3, h4⟩
    · subst h; rw [ho] at h1; cases h1; exact .inr h4.symm
  · rintro (⟨k', o', h1, h2, h3, h4⟩ | h)
    · exact ⟨k', o', h1, .inl h2, h3, h4⟩
    · exact ⟨k, o, ho, .inr rfl, hk, h.symm⟩

theorem not_PD (hi : IOk cx C i) (ho : (cx.f.operands i)[k]? = some o) (hna : o.asFixedNonallocatable = none)
    (hnd : ¬ done k) (hP0 : ¬ P0 o.vreg.vreg) : ¬ PD cx i P0 done o.vreg.vreg := by
  rintro (h | ⟨k', o', h1, h2, h3, h4⟩)
  · exact hP0 h
  · have hne : k' ≠ k := by rintro rfl; exact hnd h2
    exact hi.defUniq k' k o' o h1 ho hne h3 hna h4

/-- An operand naming a non-allocatable register. -/
theorem naOp_spec (hi : IOk cx C i) (st : Stp cx C P0 i W s loc done) (ho : (cx.f.operands i)[k]? = some o)
    (hnr : ∀ (kd : Nat) od, (cx.f.operands i)[kd]? = some od → od.constraint ≠ .Reuse k) {p : PReg} (hna : o.asFixedNonallocatable = some p) :
    Stp cx C P0 i W (s.setAllocs i k (Allocation.reg p)) loc (fun x => done x ∨ x = k) ∧
      OpFr cx i W K s loc done (s.setAllocs i k (Allocation.reg p)) loc (fun x => done x ∨ x = k) := by
  have hk : o.kind = .Use := by
    cases h : o.kind with
    | Use => rfl
    | Def => have := hi.defNa k o ho h; rw [hna] at this; cases this
  have eD := DD_use (done := done) ho hk
  have eP := PD_use (P0 := P0) (done := done) ho hk
  have j := st.j
  have aat : ∀ k', (s.setAllocs i k (Allocation.reg p)).allocs i k' = if k' = k then Allocation.reg p else s.allocs i k' := by
    intro k'
    simp only [FS.setAllocs, set1, if_true]
  have eX : XD cx i loc (fun x => done x ∨ x = k) = XD cx i loc done := by
    funext l w
    refine propext ⟨?_, ?_⟩
    · rintro ⟨k', o', h1, h2, h3, h4, h5⟩
      refine ⟨k', o', h1, ?_, h3, h4, h5⟩
      rcases h2 with h | h
      · exact h
      · subst h; rw [ho] at h1; cases h1; rw [hk] at h3; cases h3
    · rintro ⟨k', o', h1, h2, h3, h4⟩
      exact ⟨k', o', h1, .inl h2, h3, h4⟩
  refine ⟨⟨?_, ?_, ?_, ?_, ?_⟩, ⟨fun _ _ h => h, ?_, fun _ h => .inl h, fun _ _ _ h => .inl h, ⟨[], rfl, ?_⟩⟩⟩
  · rw [eP]; exact st.inv.of_eq rfl rfl rfl rfl rfl st.inv.lru
  · exact st.scr.mono rfl (fun _ h => h) (fun _ h => h) (fun _ _ h => h)
  · rw [eP]
    have hlN := (j.na k o p ho hna).1
    refine
      { phase := j.phase, real := j.real, compat := j.compat, through := j.through, fresh := ?_, defFree := ?_,
        scr := j.scr, clobL := j.clobL, initE := j.initE, initL := j.initL, clobW := j.clobW, locDone := ?_, undone := ?_,
        hasLoc := ?_, useLive := ?_, wLive := j.wLive, fixedLoc := j.fixedLoc, reused := j.reused, defReg := j.defReg,
        lateClob := j.lateClob,
        locOp := j.locOp, na := ?_ }
    · intro w q hW hex ha
      obtain ⟨k2, o2, h1, h2, h3⟩ := j.fresh w q hW hex ha
      exact ⟨k2, o2, h1, .inl h2, h3⟩
    · intro k' o' q ho' hd hk'
      have hd' : done k' := by
        rcases hd with h | h
        · exact h
        · subst h; rw [ho] at ho'; cases ho'; rw [hk] at hk'; cases hk'
      exact j.defFree k' o' q ho' hd' hk'
    · intro k' a' hd hl
      have e : k' ≠ k := by rintro rfl; rw [hlN] at hl; cases hl
      rw [aat, if_neg e]
      exact j.locDone k' a' (hd.resolve_right e) hl
    · intro k' hd
      rw [aat, if_neg (fun e => hd (.inr e))]
      exact j.undone k' (fun h => hd (.inl h))
    · intro k' o' hd ho' hn
      have hd' : done k' := by
        rcases hd with h | h
        · exact h
        · subst h; rw [ho] at ho'; cases ho'; rw [hna] at hn; cases hn
      exact j.hasLoc k' o' hd' ho' hn
    · intro k' o' hd ho' hk' hn
      have hd' : done k' := by
        rcases hd with h | h
        · exact h
        · subst h; rw [ho] at ho'; cases ho'; rw [hna] at hn; cases hn
      exact j.useLive k' o' hd' ho' hk' hn
    · intro k' o' p' ho' hna'
      refine ⟨(j.na k' o' p' ho' hna').1, fun hd => ?_⟩
      rw [aat]
      split
      · next e => subst e; rw [ho] at ho'; cases ho'; rw [hna] at hna'; cases hna'; rfl
      · next e => exact (j.na k' o' p' ho' hna').2 (hd.resolve_right e)
  · intro k' o' a' ho' hd hl
    have e : k' ≠ k := by rintro rfl; rw [(j.na k' o p ho hna).1] at hl; cases hl
    exact st.con k' o' a' ho' (hd.resolve_right e) hl
  · intro k' kd od hd hod hre
    have e : k' ≠ k := by rintro rfl; exact hnr kd od hod hre
    obtain ⟨h1, h2⟩ := st.req k' kd od (hd.resolve_right e) hod hre
    exact ⟨.inl h1, h2⟩
  · intro i' hi'
    show set1 _ _ _ i' = _
    rw [set1_ne _ _ hi']
  · intro Val F L1 L2 V A hF _ _ hS
    rw [eD, eX] at hS
    exact hS.of_eq rfl

theorem XD_use (ho : (cx.f.operands i)[k]? = some o) (hk : o.kind = .Use) (a : Allocation) :
    XD cx i (set1 loc k (some a)) (fun x => done x ∨ x = k) = XD cx i loc done := by
  funext l w
  refine propext ⟨?_, ?_⟩
  · rintro ⟨k', o', h1, h2, h3, h4, h5⟩
    have e : k' ≠ k := by rintro rfl; rw [ho] at h1; cases h1; rw [hk] at h3; cases h3
    rw [set1_ne _ _ e] at h5
    exact ⟨k', o', h1, h2.resolve_right e, h3, h4, h5⟩
  · rintro ⟨k', o', h1, h2, h3, h4, h5⟩
    have e : k' ≠ k := by rintro rfl; rw [ho] at h1; cases h1; rw [hk] at h3; cases h3
    exact ⟨k', o', h1, .inl h2, h3, h4, by rw [set1_ne _ _ e]; exact h5⟩

theorem XD_from {l : Allocation} {w : Nat} (h : XD cx i loc done l w) :
    ∃ k' o', (cx.f.operands i)[k']? = some o' ∧ done k' ∧ o'.kind = .Def ∧ loc k' = some l := by
  obtain ⟨k', o', h1, h2, h3, h4, h5⟩ := h
  exact ⟨k', o', h1, h2, h3, h5⟩

/-- `alloc_use`. -/
theorem allocUse_spec (he : EnvOk cx) (hi : IOk cx C i) (st : Stp cx C P0 i W s loc done)
    (ho : (cx.f.operands i)[k]? = some o) (hk : o.kind = .Use) (hnd : ¬ done k)
    (ord : o.pos = .Late → ∀ (k' : Nat) o', (cx.f.operands i)[k']? = some o' → done k' → o'.pos = .Late)
    (ord2 : o.pos = .Early → ∀ (k' : Nat) o', (cx.f.operands i)[k']? = some o' → o'.pos = .Late → done k')
    (hP0 : o.asFixedNonallocatable = none → ¬ P0 o.vreg.vreg) {s' : FS} (h : allocUse cx s i o k = .ok s') :
    ∃ loc', Stp cx C P0 i W s' loc' (fun x => done x ∨ x = k) ∧
      OpFr cx i W K s loc done s' loc' (fun x => done x ∨ x = k) := by
  have j := st.j
  have hru : ∀ (kd : Nat) od, (cx.f.operands i)[kd]? = some od → od.constraint = .Reuse k → o.kind = .Use ∧
      o.pos = .Early ∧ o.constraint = .Reg ∧ od.pos = .Late ∧ od.kind = .Def := by
    intro kd od hod hre
    have hodk : od.kind = .Def := by
      cases hk' : od.kind with
      | Def => rfl
      | Use => exact absurd hre (hi.useC kd od hod hk' k)
    rcases hi.defC kd od hod hodk with h' | ⟨_, h', _⟩ | ⟨j', oj, h', h1, h2, h3, h4, h5, h6⟩
    · rw [hre] at h'; cases h'
    · rw [hre] at h'; cases h'
    · rw [hre] at h'; cases h'
      rw [ho] at h1; cases h1
      exact ⟨h2, h3, h4, h6, hodk⟩
  cases hna : o.asFixedNonallocatable with
  | some p =>
    have hcn : ∃ q, o.constraint = .FixedReg q := by
      unfold Op.asFixedNonallocatable at hna
      split at hna
      · next q hq => exact ⟨q, hq⟩
      · cases hna
    obtain ⟨q, hq⟩ := hcn
    unfold allocUse at h
    split at h
    · next kd hkd =>
      obtain ⟨od, hod, hre⟩ := (j.reused k kd).mp hkd
      have := (hru kd od hod hre).2.2.1
      rw [hq] at this; cases this
    · unfold processOperand at h
      rw [hna] at h
      cases h
      exact ⟨loc, naOp_spec hi st ho (fun kd od h1 h2 => by rw [(hru kd od h1 h2).2.2.1] at hq; cases hq) hna⟩
  | none =>
    have hnP := not_PD (P0 := P0) hi ho hna hnd (hP0 hna)
    have hdP : ∀ (k' : Nat) o', (cx.f.operands i)[k']? = some o' → done k' → o'.kind = .Def →
        PD cx i P0 done o'.vreg.vreg := fun k' o' h1 h2 h3 => .inr ⟨k', o', h1, h2, h3, rfl⟩
    have key : ∃ eo, Eff cx i loc done k o eo ∧ processOperand cx s i eo k = .ok s' ∧
        (∀ a, ConOk cx eo.constraint a → (∃ p, a = Allocation.reg p ∧ cx.initAvail.contains p = true) ∨
          (∃ n, a = stk n ∧ n < 2 ^ 29) → ConOk cx o.constraint a) ∧
        ∀ a (kd : Nat) od, ConOk cx eo.constraint a → (cx.f.operands i)[kd]? = some od → od.constraint = .Reuse k →
          done kd ∧ loc kd = some a := by
      unfold allocUse at h
      split at h
      · next kd hkd =>
        obtain ⟨od, hod, hre⟩ := (j.reused k kd).mp hkd
        split at h
        · cases h
        · next p hp =>
          have hodk : od.kind = .Def := by
            cases hk' : od.kind with
            | Def => rfl
            | Use => exact absurd hre (hi.useC kd od hod hk' k)
          rcases hi.defC kd od hod hodk with h' | ⟨_, h', _⟩ | ⟨j', oj, h', h1, h2, h3, h4, h5, h6⟩
          · rw [hre] at h'; cases h'
          · rw [hre] at h'; cases h'
          · rw [hre] at h'; cases h'
            rw [ho] at h1; cases h1
            have hdn := ord2 h3 kd od hod h6
            obtain ⟨a, ha⟩ := j.hasLoc kd od hdn hod (hi.defNa kd od hod hodk)
            obtain ⟨p', hp', _⟩ := j.defReg kd od a hod hodk ha
            rw [j.locDone kd a hdn ha, hp', asReg_reg] at hp
            cases hp
            refine ⟨⟨o.vreg, .FixedReg p, o.kind, o.pos⟩, ⟨rfl, rfl, ?_, ?_, fun h => h, .inr (.inr ⟨p, kd, od, rfl, hk, h3, h4, hod, hre, hdn, ?_⟩)⟩, h, ?_, ?_⟩
            · exact ⟨fun _ => .inl hk, fun _ => .inl hk⟩
            · exact Iff.rfl
            · rw [ha, hp']
            · intro a' (h1 : a' = _) _
              rw [h4, h1, ← hp']
              have := st.con kd od a hod hdn ha
              rw [hre] at this
              exact this
            · intro a' kd' od' (h1 : a' = _) hod' hre'
              cases hi.reuseUniq kd kd' od od' k hod hod' hre hre'
              exact ⟨hdn, by rw [ha, h1, hp']⟩
      · next hnr =>
        refine ⟨o, ⟨rfl, rfl, ?_, Iff.rfl, fun h => h, .inl rfl⟩, h, fun _ h _ => h, ?_⟩
        · exact ⟨fun _ => .inl hk, fun _ => .inl hk⟩
        · intro a kd od _ hod hre
          rw [(j.reused k kd).mpr ⟨od, hod, hre⟩] at hnr; cases hnr
    obtain ⟨eo, hef, h, hcon, hreq⟩ := key
    have hcon' := processOperand_con he st.inv (na_none (by
      rw [hef.vreg]; have := (hi.vreg k o ho hna).2; have := hi.max; omega)) h
    obtain ⟨a, po⟩ := processOperand_spec he hi st.inv st.scr j hef ho hna hnd ord hdP hnP h
    have eD := DD_use (done := done) ho hk
    have eP := PD_use (P0 := P0) (done := done) ho hk
    have eX := XD_use (loc := loc) (done := done) ho hk a
    have hex : (fun w => o.kind = .Def ∧ w = o.vreg.vreg) = (fun _ : Nat => False) := by
      funext w; rw [hk]; simp
    have pj := po.j
    rw [hex] at pj
    have haa : s'.allocs i k = a := by rw [po.allocs, set1_same, set1_same]
    rw [haa] at hcon'
    refine ⟨set1 loc k (some a), ⟨by rw [eP]; exact po.inv, po.scrOk, by rw [eP]; exact pj, ?_, ?_⟩,
      ⟨po.slot, ?_, fun w h => .inl (po.allocMono w h), fun w n h1 h2 => .inl (po.stkMono w n h1 h2), ?_⟩⟩
    · intro k' o' a' ho' hd hl
      by_cases e : k' = k
      · subst e
        rw [ho] at ho'; cases ho'
        rw [set1_same] at hl; cases hl
        refine hcon a hcon' ?_
        rcases pj.real k' o a ho (set1_same _ _ _) with ⟨p, h1, h2, _⟩ | ⟨n, h1, h2⟩
        · exact .inl ⟨p, h1, h2⟩
        · exact .inr ⟨n, h1, po.inv.slot29 h2⟩
      · rw [set1_ne _ _ e] at hl
        exact st.con k' o' a' ho' (hd.resolve_right e) hl
    · intro k' kd od hd hod hre
      have e2 : kd ≠ k := by
        rintro rfl
        rw [ho] at hod; cases hod
        exact hi.useC kd o ho hk k' hre
      rw [set1_ne _ _ e2]
      by_cases e : k' = k
      · subst e
        obtain ⟨h1, h2⟩ := hreq a kd od hcon' hod hre
        exact ⟨.inl h1, by rw [set1_same, h2]⟩
      · obtain ⟨h1, h2⟩ := st.req k' kd od (hd.resolve_right e) hod hre
        exact ⟨.inl h1, by rw [set1_ne _ _ e]; exact h2⟩
    · intro i' hi'
      rw [po.allocs, set1_ne _ _ hi']
    · obtain ⟨E, hE, hSat⟩ := po.sat
      refine ⟨E, hE, ?_⟩
      intro Val F L1 L2 V A hF hL1 hL2 hS
      rw [eD, eX] at hS
      refine (hSat F _ _ _ V A hF (fun l w h => XD_from h) ?_).1 hk hS
      intro hv
      exact (j.wLive _ (hL1 _ hv.1)).resolve_right hnP

/-- The operand that is allocated for a definition. -/
theorem defOperand_eff (hi : IOk cx C i) (ho : (cx.f.operands i)[k]? = some o) (hk : o.kind = .Def) {b : Nat} {s1 : FS}
    (h1 : defOperand cx s b i o k = .ok s1) :
    ∃ eo, Eff cx i loc done k o eo ∧ processOperand cx s i eo k = .ok s1 ∧
      (∀ a, ConOk cx eo.constraint a → ConOk cx o.constraint a) ∧ (eo.constraint = .Reg ∨ ∃ p, eo.constraint = .FixedReg p) := by
  unfold defOperand at h1
  rcases hi.defC k o ho hk with h' | ⟨p, h', _⟩ | ⟨j', oj, h', q1, q2, q3, q4, q5, q6⟩
  · rw [h'] at h1
    dsimp only at h1
    rw [if_neg (by simp)] at h1
    refine ⟨o, ⟨rfl, rfl, ?_, Iff.rfl, fun h => h, .inl rfl⟩, h1, fun _ h => h, .inl h'⟩
    unfold occE; rw [h']; simp
  · rw [h'] at h1
    dsimp only at h1
    rw [if_neg (by simp)] at h1
    refine ⟨o, ⟨rfl, rfl, ?_, Iff.rfl, fun h => h, .inl rfl⟩, h1, fun _ h => h, .inr ⟨p, h'⟩⟩
    unfold occE; rw [h']; simp
  · rw [h'] at h1
    dsimp only at h1
    rw [q1] at h1
    dsimp only at h1
    refine ⟨⟨o.vreg, oj.constraint, .Def, .Early⟩, ⟨rfl, hk.symm, ?_, ?_, fun _ => rfl, .inr (.inl ⟨q4, j', h'⟩)⟩, h1, ?_, .inl q4⟩
    · exact ⟨fun _ => .inr rfl, fun _ => .inr (.inr ⟨j', h'⟩)⟩
    · exact ⟨fun _ => .inl rfl, fun _ => .inl hk⟩
    · intro a ha
      dsimp only at ha
      rw [q4] at ha
      rw [h']
      exact ha

/-- `alloc_def_op`. -/
theorem allocDef_spec (he : EnvOk cx) (hi : IOk cx C i) (st : Stp cx C P0 i W s loc done)
    (ho : (cx.f.operands i)[k]? = some o) (hk : o.kind = .Def) (hnd : ¬ done k)
    (ord : o.pos = .Late → ∀ (k' : Nat) o', (cx.f.operands i)[k']? = some o' → done k' → o'.pos = .Late)
    (hP0 : ¬ P0 o.vreg.vreg) (hkd : K o.vreg.vreg → ∃ n, s.slot o.vreg.vreg = some n ∧ s.alloc o.vreg.vreg = stk n)
    {b : Nat} {s' : FS} (h : allocDef cx s b i o k = .ok s') :
    ∃ loc', Stp cx C P0 i W s' loc' (fun x => done x ∨ x = k) ∧
      OpFr cx i W K s loc done s' loc' (fun x => done x ∨ x = k) := by
  have j := st.j
  have hna := hi.defNa k o ho hk
  have hnP := not_PD (P0 := P0) hi ho hna hnd hP0
  have hdP : ∀ (k' : Nat) o', (cx.f.operands i)[k']? = some o' → done k' → o'.kind = .Def →
      PD cx i P0 done o'.vreg.vreg := fun k' o' h1 h2 h3 => .inr ⟨k', o', h1, h2, h3, rfl⟩
  unfold allocDef at h
  split at h
  · cases h
  · next s1 h1 =>
    obtain ⟨eo, hef, h1, hcon, -⟩ := defOperand_eff (loc := loc) (done := done) hi ho hk h1
    have hcon' := processOperand_con he st.inv (na_none (by
      rw [hef.vreg]; have := (hi.vreg k o ho hna).2; have := hi.max; omega)) h1
    obtain ⟨a, po⟩ := processOperand_spec he hi st.inv st.scr j hef ho hna hnd ord hdP hnP h1
    split at h
    · cases h
    · next s2 h2 =>
      -- storing the value in the slot
      have key2 : Inv cx C (PD cx i P0 done) s2 ∧ ScrOk cx s2 ∧ Fr s1 s2 ∧
          s2.alloc o.vreg.vreg = s1.alloc o.vreg.vreg ∧
          ∃ E : List Edit, s2.edits = E.map (fun e => (pt i .After, e)) ++ s1.edits ∧
            ∀ {Val : Type} (F : Nat → Option Nat) (L1 L2 : Nat → Prop) (X : Allocation → Nat → Prop) (V : Nat → Val)
              (A : Allocation → Val), FOk F s2 → ¬ L1 o.vreg.vreg → ¬ L2 o.vreg.vreg →
              (∀ l w, X l w → (∃ p, l = Allocation.reg p) ∧ ∀ c r, s2.scratch c = some r → l ≠ Allocation.reg r) →
              Sat F s2 L1 L2 X V A → Sat F s1 L1 L2 X V (execE E A) := by
        unfold storeDef at h2
        split at h2
        · cases h2
          exact ⟨po.inv, po.scrOk, Fr.refl _, rfl, [], rfl, fun _ _ _ _ _ _ _ _ _ _ h => h⟩
        · next n hn =>
          split at h2
          · next hne =>
            have hn29 := po.inv.slot29 hn
            have hdst : cx.isStack (s1.alloc o.vreg.vreg) = true → cx.isStack (stk n) = true → DstOk cx s1 (stk n) := by
              intro hs _
              refine .inr ⟨o.vreg.vreg, n, hn, rfl, ?_⟩
              intro r hr e
              rw [e, hr] at hs; cases hs
            obtain ⟨I2, S2, fr, _, _, E, hE, hM⟩ := addMove_spec he h2 po.inv po.scrOk hdst
            have hkeep := addMove_keep he (v := o.vreg.vreg) h2 po.inv po.scrOk hdst
              (fun h => ((Bool.and_eq_true _ _).mp h).1)
            refine ⟨I2, S2, fr, hkeep, E, hE, ?_⟩
            intro Val F L1 L2 X V A hF hn1 hn2 hX hS
            refine (hM F L1 L2 X V A hF hS (fun l w hx => (hX l w hx).2) ?_ ?_ ?_).1
            · intro w hw e
              have := po.inv.stk_slot hn29 e
              rw [po.inv.slotInj _ _ _ this hn] at hw
              exact absurd hw hn1
            · intro w m hw hm e
              cases stk_inj (hF.lt _ _ hm) hn29 e
              rw [hF.inj _ _ _ hm (hF.ext _ _ (fr.slot _ _ hn))] at hw
              exact absurd hw hn2
            · intro l w hx e
              obtain ⟨⟨p, hp⟩, _⟩ := hX l w hx
              rw [e] at hp
              exact absurd hp.symm (reg_ne_stk hn29)
          · cases h2
            exact ⟨po.inv, po.scrOk, Fr.refl _, rfl, [], rfl, fun _ _ _ _ _ _ _ _ _ _ h => h⟩
      obtain ⟨I2, S2, fr2, hv2, E2, hE2, hSat2⟩ := key2
      have j2 := po.j.ofFr fr2 I2
      have hPi : ∀ w, PD cx i P0 (fun x => done x ∨ x = k) w ↔ PD cx i P0 done w ∨ w = o.vreg.vreg := by
        intro w
        rw [PD_iff, PD_iff, DD_def ho hk, or_assoc]
      obtain ⟨I3, S3, _, ea, i1, i2, heq⟩ := freealloc_spec I2 S2 hnP hPi h
      have hav : s'.alloc o.vreg.vreg = Allocation.none := by rw [ea, set1_same]
      have haw : ∀ w, w ≠ o.vreg.vreg → s'.alloc w = s2.alloc w := fun w hw => by rw [ea, set1_ne _ _ hw]
      have hal : ∀ w q, s'.alloc w = Allocation.reg q → w ≠ o.vreg.vreg ∧ s2.alloc w = Allocation.reg q := by
        intro w q hwq
        by_cases e : w = o.vreg.vreg
        · rw [e, hav] at hwq; exact absurd hwq.symm (reg_ne_none q)
        · exact ⟨e, by rw [← haw w e]; exact hwq⟩
      have esl : s'.slot = s2.slot := by rw [heq]
      have eE : s'.availE = s2.availE := by rw [heq]
      have eL : s'.availL = s2.availL := by rw [heq]
      have eal : s'.allocs = s2.allocs := by rw [heq]
      have esc : s'.scratch = s2.scratch := by rw [heq]
      have ere : s'.reused = s2.reused := by rw [heq]
      have eed : s'.edits = s2.edits := by rw [heq]
      clear heq
      have hslot : ∀ v n, s.slot v = some n → s'.slot v = some n := by
        intro v n h; rw [esl]; exact fr2.slot v n (po.slot v n h)
      have hnn : ∀ w, w ≠ o.vreg.vreg → s.alloc w ≠ Allocation.none → s'.alloc w ≠ Allocation.none := by
        intro w hw h
        rw [haw w hw]
        have h1 := po.allocMono w h
        rcases fr2.alloc w with e | ⟨_, n, hn, e⟩
        · rw [e]; exact h1
        · rw [e]; exact stk_ne_none (I2.slot29 hn)
      have hstk : ∀ w n, w ≠ o.vreg.vreg → s.slot w = some n → s.alloc w = stk n → s'.alloc w = stk n := by
        intro w n hw h1 h2
        rw [haw w hw]
        have h3 := po.stkMono w n h1 h2
        rcases fr2.alloc w with e | ⟨_, m, hm, e⟩
        · rw [e]; exact h3
        · rw [fr2.slot w n (po.slot w n h1)] at hm; cases hm; exact e
      -- no other operand names the register
      have hother : ∀ (k' : Nat) o', (cx.f.operands i)[k']? = some o' → k' ≠ k → o'.asFixedNonallocatable = none →
          o'.vreg.vreg ≠ o.vreg.vreg := fun k' o' h1 h2 h3 e =>
        hi.defUniq k k' o o' ho h1 (Ne.symm h2) hk h3 e.symm
      have haa : s1.allocs i k = a := by rw [po.allocs, set1_same, set1_same]
      rw [haa] at hcon'
      refine ⟨set1 loc k (some a), ⟨I3, S3, ?_, ?_, ?_⟩, ⟨hslot, ?_, ?_, ?_, ?_⟩⟩
      · refine
          { phase := by rw [eE, eL]; exact j2.phase
            real := by rw [esl]; exact j2.real
            compat := j2.compat
            through := fun w p k o hW h => j2.through w p k o hW (hal w p h).2
            fresh := ?_
            defFree := ?_
            scr := by rw [esc]; exact j2.scr
            clobL := by rw [eL]; exact j2.clobL
            initE := by rw [eE]; exact j2.initE
            initL := by rw [eL]; exact j2.initL
            clobW := fun w p hW h => j2.clobW w p hW (hal w p h).2
            locDone := by rw [eal]; exact j2.locDone
            undone := by rw [eal]; exact j2.undone
            hasLoc := j2.hasLoc
            useLive := ?_
            wLive := ?_
            fixedLoc := j2.fixedLoc
            reused := by rw [ere]; exact j2.reused
            defReg := j2.defReg
            lateClob := j2.lateClob
            locOp := j2.locOp
            na := by rw [eal]; exact j2.na }
        · intro w p hW _ ha
          obtain ⟨h1, h2⟩ := hal w p ha
          exact j2.fresh w p hW (fun h => h1 h.2) h2
        · intro k' o' p ho' hd hk' _ hl hav'
          rw [eE] at hav'
          by_cases e : k' = k
          · subst e
            rw [ho] at ho'; cases ho'
            rw [set1_same] at hl
            rcases po.defIn p (Option.some.inj hl) with h | h
            · rcases i1 p with h' | h'
              · exact h'
              · rw [h', fr2.inPreg]; exact h
            · exact i2 p (hv2.trans h)
          · have hne := hother k' o' ho' e (hi.defNa k' o' ho' hk')
            have := j2.defFree k' o' p ho' hd hk' (fun h => hne h.2) hl hav'
            rcases i1 p with h' | h'
            · exact h'
            · rw [h']; exact this
        · intro k' o' hd ho' hk' hn
          have e : k' ≠ k := by rintro rfl; rw [ho] at ho'; cases ho'; rw [hk] at hk'; cases hk'
          rw [haw _ (hother k' o' ho' e hn)]
          exact j2.useLive k' o' hd ho' hk' hn
        · intro w hW
          by_cases e : w = o.vreg.vreg
          · exact .inr ((hPi w).mpr (.inr e))
          · rw [haw w e]
            exact (j2.wLive w hW).imp_right (fun h => (hPi w).mpr (.inl h))
      · intro k' o' a' ho' hd hl
        by_cases e : k' = k
        · subst e
          rw [ho] at ho'; cases ho'
          rw [set1_same] at hl; cases hl
          exact hcon a hcon'
        · rw [set1_ne _ _ e] at hl
          exact st.con k' o' a' ho' (hd.resolve_right e) hl
      · intro k' kd od hd hod hre
        have hodk : od.kind = .Def := by
          cases hk' : od.kind with
          | Def => rfl
          | Use => exact absurd hre (hi.useC kd od hod hk' k')
        have hq : ∃ oj, (cx.f.operands i)[k']? = some oj ∧ oj.kind = .Use ∧ oj.pos = .Early ∧ od.pos = .Late := by
          rcases hi.defC kd od hod hodk with h' | ⟨_, h', _⟩ | ⟨j', oj, h', q1, q2, q3, q4, q5, q6⟩
          · rw [hre] at h'; cases h'
          · rw [hre] at h'; cases h'
          · rw [hre] at h'; cases h'
            exact ⟨oj, q1, q2, q3, q6⟩
        obtain ⟨oj, q1, q2, q3, q6⟩ := hq
        have e : k' ≠ k := by rintro rfl; rw [ho] at q1; cases q1; rw [hk] at q2; cases q2
        have hd' := hd.resolve_right e
        have e2 : kd ≠ k := by
          rintro rfl
          rw [ho] at hod; cases hod
          have := ord q6 k' oj q1 hd'
          rw [q3] at this; cases this
        rw [set1_ne _ _ e, set1_ne _ _ e2]
        obtain ⟨h1, h2⟩ := st.req k' kd od hd' hod hre
        exact ⟨.inl h1, h2⟩
      · intro i' hi'
        rw [eal, fr2.allocs, po.allocs, set1_ne _ _ hi']
      · intro w hw
        by_cases e : w = o.vreg.vreg
        · exact .inr ((DD_def ho hk w).mpr (.inr e))
        · exact .inl (hnn w e hw)
      · intro w n h1 h2
        by_cases e : w = o.vreg.vreg
        · exact .inr ((DD_def ho hk w).mpr (.inr e))
        · exact .inl (hstk w n e h1 h2)
      · obtain ⟨E, hE, hSat⟩ := po.sat
        refine ⟨E2 ++ E, by rw [eed, hE2, hE, List.map_append, List.append_assoc], ?_⟩
        intro Val F L1 L2 V A hF hL1 hL2 hS
        have hF2 : FOk F s2 := hF.of_eq esl.symm
        have hF1 : FOk F s1 := hF2.of_mono fr2.slot
        rw [execE_append]
        have hvD : DD cx i (fun x => done x ∨ x = k) o.vreg.vreg := (DD_def ho hk _).mpr (.inr rfl)
        have hS2 : Sat F s2 (fun w => L1 w ∧ ¬ DD cx i (fun x => done x ∨ x = k) w)
            (fun w => L2 w ∧ ¬ DD cx i (fun x => done x ∨ x = k) w)
            (XD cx i (set1 loc k (some a)) (fun x => done x ∨ x = k)) V A := by
          refine ⟨?_, hS.slot, hS.extra⟩
          intro w hw hn
          have e : w ≠ o.vreg.vreg := by rintro rfl; exact hw.2 hvD
          have := hS.here w hw (by rw [haw w e]; exact hn)
          rw [haw w e] at this; exact this
        have hS1 := hSat2 F _ _ _ V A hF2 (fun h => h.2 hvD) (fun h => h.2 hvD) (by
          intro l w hx
          obtain ⟨k', o', q1, q2, q3, q4, q5⟩ := hx
          obtain ⟨p, hp, _⟩ := j2.defReg k' o' l q1 q3 q5
          refine ⟨⟨p, hp⟩, ?_⟩
          intro c r hr e
          rw [e] at q5
          exact j2.scr c r hr k' q5) hS2
        refine (hSat F _ _ _ V _ hF1 (fun l w h => XD_from h) ?_).2 hk ?_ ?_ ?_
        · intro hv
          exact (j.wLive _ (hL1 _ hv.1)).resolve_right hnP
        · intro hv
          exact hkd (hL2 _ hv.1)
        · refine hS1.weaken ?_ ?_ ?_
          · intro w hw
            refine ⟨hw.1.1, fun h => ?_⟩
            rcases (DD_def ho hk w).mp h with h | h
            · exact hw.1.2 h
            · exact hw.2 h
          · intro w hw
            refine ⟨hw.1.1, fun h => ?_⟩
            rcases (DD_def ho hk w).mp h with h | h
            · exact hw.1.2 h
            · exact hw.2 h
          · rintro l w ⟨k', o', q1, q2, q3, q4, q5⟩
            have e : k' ≠ k := by rintro rfl; exact hnd q2
            exact ⟨k', o', q1, .inl q2, q3, q4, by rw [set1_ne _ _ e]; exact q5⟩
        · exact hS1.extra a o.vreg.vreg ⟨k, o, ho, .inr rfl, hk, rfl, set1_same _ _ _⟩

/-- One operand. -/
theorem allocOp_spec (he : EnvOk cx) (hi : IOk cx C i) (st : Stp cx C P0 i W s loc done)
    (ho : (cx.f.operands i)[k]? = some o) (hnd : ¬ done k)
    (ord : o.pos = .Late → ∀ (k' : Nat) o', (cx.f.operands i)[k']? = some o' → done k' → o'.pos = .Late)
    (ord2 : o.pos = .Early → ∀ (k' : Nat) o', (cx.f.operands i)[k']? = some o' → o'.pos = .Late → done k')
    (hP0 : o.asFixedNonallocatable = none → ¬ P0 o.vreg.vreg)
    (hkd : o.kind = .Def → K o.vreg.vreg → ∃ n, s.slot o.vreg.vreg = some n ∧ s.alloc o.vreg.vreg = stk n) {b : Nat} {s' : FS}
    (h : allocOp cx b i s (k, o) = .ok s') :
    ∃ loc', Stp cx C P0 i W s' loc' (fun x => done x ∨ x = k) ∧
      OpFr cx i W K s loc done s' loc' (fun x => done x ∨ x = k) := by
  unfold allocOp at h
  cases hk : o.kind with
  | Def =>
    rw [hk] at h
    exact allocDef_spec he hi st ho hk hnd ord (hP0 (hi.defNa k o ho hk)) (hkd hk) h
  | Use =>
    rw [hk] at h
    exact allocUse_spec he hi st ho hk hnd ord ord2 hP0 h

end

end Fast
end Regalloc
