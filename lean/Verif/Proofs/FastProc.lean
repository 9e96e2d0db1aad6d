import Verif.Proofs.FastOp

/-
Single-pass allocator: `process_operand_allocation`, `alloc_use`, `alloc_def_op`.
-/
namespace Regalloc
namespace Fast
open Exec

/-- Result of processing operand `k`, which is given location `a`. -/
structure PO (cx : Cx) (C : Nat → VReg) (P : Nat → Prop) (i k : Nat) (o : Op) (loc : Nat → Option Allocation)
    (done : Nat → Prop) (W : Nat → Prop) (s : FS) (a : Allocation) (s' : FS) : Prop where
  inv : Inv cx C P s'
  scrOk : ScrOk cx s'
  j : J cx i W P s' (set1 loc k (some a)) (fun x => done x ∨ x = k) (fun w => o.kind = .Def ∧ w = o.vreg.vreg)
  live : s'.alloc o.vreg.vreg ≠ Allocation.none
  slot : ∀ v n, s.slot v = some n → s'.slot v = some n
  allocs : s'.allocs = set1 s.allocs i (set1 (s.allocs i) k a)
  allocV : s.alloc o.vreg.vreg ≠ Allocation.none → s'.alloc o.vreg.vreg = s.alloc o.vreg.vreg
  allocMono : ∀ w, s.alloc w ≠ Allocation.none → s'.alloc w ≠ Allocation.none
  allocNew : ∀ w, s'.alloc w ≠ Allocation.none → s.alloc w ≠ Allocation.none ∨ w = o.vreg.vreg ∨ P w
  stkMono : ∀ w n, s.slot w = some n → s.alloc w = stk n → s'.alloc w = stk n
  defIn : ∀ p, a = Allocation.reg p → s'.inPreg p = none ∨ s'.alloc o.vreg.vreg = Allocation.reg p
  sat : ∃ E : List Edit, s'.edits = E.map (fun e => (pt i .After, e)) ++ s.edits ∧
    ∀ {Val : Type} (F : Nat → Option Nat) (L1 L2 : Nat → Prop) (X : Allocation → Nat → Prop) (V : Nat → Val)
      (A : Allocation → Val), FOk F s' →
      (∀ l w, X l w → ∃ k' o', (cx.f.operands i)[k']? = some o' ∧ done k' ∧ o'.kind = .Def ∧ loc k' = some l) →
      (L1 o.vreg.vreg → s.alloc o.vreg.vreg ≠ Allocation.none) →
      (o.kind = .Use → Sat F s' L1 L2 X V A → Sat F s L1 L2 X V (execE E A)) ∧
      (o.kind = .Def → (L2 o.vreg.vreg → ∃ n, s.slot o.vreg.vreg = some n ∧ s.alloc o.vreg.vreg = stk n) →
        Sat F s' (fun w => L1 w ∧ w ≠ o.vreg.vreg) (fun w => L2 w ∧ w ≠ o.vreg.vreg) X V A → A a = V o.vreg.vreg →
        Sat F s L1 L2 X V (execE E A))

theorem Sat.weaken {Val : Type} {F} {s : FS} {L1 L2 L1' L2' : Nat → Prop} {X X'} {V : Nat → Val} {A}
    (h : Sat F s L1 L2 X V A) (h1 : ∀ w, L1' w → L1 w) (h2 : ∀ w, L2' w → L2 w) (h3 : ∀ l w, X' l w → X l w) :
    Sat F s L1' L2' X' V A :=
  ⟨fun w hw => h.here w (h1 w hw), fun w n hw => h.slot w n (h2 w hw), fun l w hx => h.extra l w (h3 l w hx)⟩

theorem asReg_some {cx C P} {s : FS} (I : Inv cx C P s) {v : Nat} {p : PReg} (h : (s.alloc v).asReg = some p) :
    s.alloc v = Allocation.reg p := by
  rcases I.alloc v with h' | ⟨q, x, h', _⟩ | ⟨n, hn, h'⟩
  · rw [h', asReg_none] at h; cases h
  · rw [h', asReg_reg] at h; cases h; exact h'
  · rw [h', asReg_stk (I.slot29 hn)] at h; cases h

theorem isNone_iff {cx C P} {s : FS} (I : Inv cx C P s) {v : Nat} :
    (s.alloc v).isNone = true ↔ s.alloc v = Allocation.none := by
  rcases I.alloc v with h' | ⟨q, x, h', _⟩ | ⟨n, hn, h'⟩
  · rw [h']; simp
  · rw [h', isNone_reg]; simp [reg_ne_none]
  · rw [h', isNone_stk (I.slot29 hn)]; simp [stk_ne_none (I.slot29 hn)]

theorem within_true {cx C P} {s : FS} {i : Nat} {eo : Op} (I : Inv cx C P s)
    (h : withinConstraint cx s i eo = .ok true) :
    s.alloc eo.vreg.vreg ≠ Allocation.none ∧ (∀ p, eo.constraint = .FixedReg p → s.alloc eo.vreg.vreg = Allocation.reg p) ∧
      (eo.constraint = .Reg → ∃ p, s.alloc eo.vreg.vreg = Allocation.reg p) := by
  unfold withinConstraint at h
  dsimp only at h
  have rn : ∀ p, s.alloc eo.vreg.vreg = Allocation.reg p → s.alloc eo.vreg.vreg ≠ Allocation.none := by
    intro p hp; rw [hp]; exact reg_ne_none p
  cases hc : eo.constraint with
  | Any =>
    rw [hc] at h
    dsimp only at h
    refine ⟨?_, fun p h => (by cases h), fun h => (by cases h)⟩
    split at h
    · next p hp => exact rn p (asReg_some I hp)
    · have h := Except.ok.inj h
      intro e
      rw [(isNone_iff I).mpr e] at h; cases h
  | Reg =>
    rw [hc] at h
    dsimp only at h
    split at h
    · cases h
    · split at h
      · next p hp =>
        have := asReg_some I hp
        exact ⟨rn p this, fun p h => (by cases h), fun _ => ⟨p, this⟩⟩
      · cases h
  | FixedReg p =>
    rw [hc] at h
    have h := Except.ok.inj h
    have hp : (s.alloc eo.vreg.vreg).asReg = some p := by simpa using h
    have := asReg_some I hp
    refine ⟨rn p this, ?_, fun h => (by cases h)⟩
    intro q hq; cases hq; exact this
  | Stack =>
    rw [hc] at h
    have h := Except.ok.inj h
    refine ⟨?_, fun p h => (by cases h), fun h => (by cases h)⟩
    intro e
    rw [e] at h
    rw [isStack_none] at h
    cases h
  | Reuse _ => rw [hc] at h; cases h
  | Limit _ => rw [hc] at h; cases h

theorem keepAlloc_spec {cx C P} {s s' : FS} {i k : Nat} {eo : Op} (he : EnvOk cx) (I : Inv cx C P s)
    (h : keepAlloc cx s i eo k = .ok s') :
    ∃ na lr e l, s' = { (s.setAllocs i k (s.alloc eo.vreg.vreg)) with numAny := na, lrus := lr, availE := e, availL := l } ∧
      LruOk cx lr ∧ (∀ q, e.contains q = true → s.availE.contains q = true) ∧
      (∀ q, l.contains q = true → s.availL.contains q = true) ∧
      ∀ p, s.alloc eo.vreg.vreg = Allocation.reg p → (eo.kind = .Use ∨ eo.pos = .Early → ¬ e.contains p = true) ∧
      (eo.kind = .Def ∨ eo.pos = .Late → ¬ l.contains p = true) := by
  have key : ∃ na, keepAlloc cx s i eo k = (match (s.alloc eo.vreg.vreg).asReg with
      | none => .ok { (s.setAllocs i k (s.alloc eo.vreg.vreg)) with numAny := na }
      | some p =>
        match (if cx.allocatable.contains p then poke { (s.setAllocs i k (s.alloc eo.vreg.vreg)) with numAny := na } (pcls p) p
            else .ok { (s.setAllocs i k (s.alloc eo.vreg.vreg)) with numAny := na }) with
        | .error e => .error e
        | .ok s =>
          let s := s.unavail eo.pos p
          match eo.pos, eo.kind with
          | .Late, .Use => .ok (s.unavail .Early p)
          | .Early, .Def => .ok (s.unavail .Late p)
          | _, _ => .ok s) := by
    unfold keepAlloc
    dsimp only
    by_cases hc : eo.constraint = .Reg
    · rw [if_pos hc]; exact ⟨_, rfl⟩
    · rw [if_neg hc]; exact ⟨s.numAny, rfl⟩
  obtain ⟨na, key⟩ := key
  rw [key] at h
  have r1 : ∀ (t : PRegSet) p q, (t.remove p).contains q = true → t.contains q = true :=
    fun t p q h => ((cont_remove t q p).mp h).2
  have r2 : ∀ (t : PRegSet) p, ¬ (t.remove p).contains p = true := fun t p h => ((cont_remove t p p).mp h).1 rfl
  split at h
  · next hr =>
    cases h
    refine ⟨na, s.lrus, s.availE, s.availL, rfl, I.lru, fun _ h => h, fun _ h => h, ?_⟩
    intro p hp
    rw [hp, asReg_reg] at hr; cases hr
  · next p hp =>
    have hp' := asReg_some I hp
    split at h
    · cases h
    · next s1 h1 =>
      have h1' : ∃ lr, s1 = { (s.setAllocs i k (s.alloc eo.vreg.vreg)) with numAny := na, lrus := lr } ∧ LruOk cx lr := by
        split at h1
        · next ha =>
          unfold poke at h1
          split at h1
          · cases h1
          · next l hl =>
            cases h1
            exact ⟨_, rfl, lruOk_poke I.lru (he.allocatable_cls ha) hl⟩
        · cases h1; exact ⟨s.lrus, rfl, I.lru⟩
      obtain ⟨lr, rfl, hlr⟩ := h1'
      dsimp only at h
      have fin : ∀ q, s.alloc eo.vreg.vreg = Allocation.reg q → q = p := by
        intro q hq; rw [hp'] at hq; exact (reg_inj hq).symm
      cases hps : eo.pos <;> cases hk : eo.kind <;> rw [hps, hk] at h <;> simp only [FS.unavail] at h <;> cases h
      · exact ⟨na, lr, _, _, rfl, hlr, r1 _ p, r1 _ p, fun q hq => by cases fin q hq; exact ⟨fun _ => r2 _ _, fun _ => r2 _ _⟩⟩
      · exact ⟨na, lr, _, s.availL, rfl, hlr, r1 _ p, fun _ h => h,
          fun q hq => by cases fin q hq; exact ⟨fun _ => r2 _ _, by simp⟩⟩
      · exact ⟨na, lr, s.availE, _, rfl, hlr, fun _ h => h, r1 _ p,
          fun q hq => by cases fin q hq; exact ⟨by simp, fun _ => r2 _ _⟩⟩
      · exact ⟨na, lr, _, _, rfl, hlr, r1 _ p, r1 _ p, fun q hq => by cases fin q hq; exact ⟨fun _ => r2 _ _, fun _ => r2 _ _⟩⟩

theorem na_vreg {o : Op} {p : PReg} (h : o.asFixedNonallocatable = some p) : o.vreg.vreg = VReg.MAX := by
  unfold Op.asFixedNonallocatable at h
  split at h
  · split at h
    · next e => exact e
    · cases h
  · cases h

theorem na_none {o : Op} (h : o.vreg.vreg ≠ VReg.MAX) : o.asFixedNonallocatable = none := by
  cases e : o.asFixedNonallocatable with
  | none => rfl
  | some p => exact absurd (na_vreg e) h

section
variable {cx : Cx} {C : Nat → VReg} {P : Nat → Prop} {i k : Nat} {W : Nat → Prop} {s : FS}
  {loc : Nat → Option Allocation} {done : Nat → Prop} {o eo : Op}

/-- The register of a definition that is live before was live after the instruction. -/
theorem def_W (hi : IOk cx C i) (j : J cx i W P s loc done (fun _ => False)) (ho : (cx.f.operands i)[k]? = some o)
    (hk : o.kind = .Def) {p : PReg} (h : s.alloc o.vreg.vreg = Allocation.reg p) : W o.vreg.vreg := by
  refine Classical.byContradiction fun hW => ?_
  obtain ⟨k2, o2, ho2, hd2, hk2, hv2, hl2⟩ := j.fresh _ p hW (fun h => h) h
  have hne : k ≠ k2 := by rintro rfl; rw [ho] at ho2; cases ho2; rw [hk] at hk2; cases hk2
  have hlt := (hi.vreg k o ho (hi.defNa k o ho hk)).2
  have hmax := hi.max
  exact hi.defUniq k k2 o o2 ho ho2 hne hk (na_none (by rw [hv2]; omega)) hv2.symm

/-- Two operands of the same register are both uses. -/
theorem same_use (hi : IOk cx C i) {k' : Nat} {o' : Op} (ho : (cx.f.operands i)[k]? = some o)
    (ho' : (cx.f.operands i)[k']? = some o') (hna : o.asFixedNonallocatable = none) (hne : k ≠ k')
    (hv : o'.vreg.vreg = o.vreg.vreg) : o.kind = .Use ∧ o'.kind = .Use ∧ o'.vreg = o.vreg := by
  obtain ⟨hc, hlt⟩ := hi.vreg k o ho hna
  have hmax := hi.max
  have hna' : o'.asFixedNonallocatable = none := na_none (by omega)
  obtain ⟨hc', _⟩ := hi.vreg k' o' ho' hna'
  refine ⟨?_, ?_, by rw [hc, hc', hv]⟩
  · cases hk : o.kind with
    | Use => rfl
    | Def => exact absurd hv.symm (hi.defUniq k k' o o' ho ho' hne hk hna')
  · cases hk : o'.kind with
    | Use => rfl
    | Def => exact absurd hv (hi.defUniq k' k o' o ho' ho (Ne.symm hne) hk hna)

theorem keep_spec (he : EnvOk cx) (hi : IOk cx C i) (I : Inv cx C P s) (S : ScrOk cx s)
    (j : J cx i W P s loc done (fun _ => False)) (hef : Eff cx i loc done k o eo)
    (ho : (cx.f.operands i)[k]? = some o) (hna : o.asFixedNonallocatable = none) (hnd : ¬ done k)
    (ord : o.pos = .Late → ∀ (k' : Nat) o', (cx.f.operands i)[k']? = some o' → done k' → o'.pos = .Late)
    {s' : FS} (hw : withinConstraint cx s i eo = .ok true)
    (h : keepAlloc cx s i eo k = .ok s') : ∃ a, PO cx C P i k o loc done W s a s' := by
  obtain ⟨w1, w2, w3⟩ := within_true I hw
  obtain ⟨na, lr, e, l, rfl, hlr, m1, m2, m3⟩ := keepAlloc_spec he I h
  rw [hef.vreg] at w1 w2 w3 m3
  rw [hef.vreg]
  obtain ⟨hC, hlt⟩ := hi.vreg k o ho hna
  refine ⟨s.alloc o.vreg.vreg, ?_⟩
  have hdefc : o.kind = .Def → ∃ p, s.alloc o.vreg.vreg = Allocation.reg p ∧ ¬ (cx.clob i).contains p = true := by
    intro hk
    have : ∃ p, s.alloc o.vreg.vreg = Allocation.reg p := by
      rcases hef.cons with h | ⟨h, _⟩ | ⟨_, _, _, _, h, _⟩
      · rcases hi.defC k o ho hk with h' | ⟨p, h', _⟩ | ⟨_, _, h', _⟩
        · exact w3 (h.trans h')
        · exact ⟨p, w2 p (h.trans h')⟩
        · rw [h'] at h
          unfold withinConstraint at hw
          dsimp only at hw
          rw [h] at hw; cases hw
      · exact w3 h
      · rw [hk] at h; cases h
    obtain ⟨p, hp⟩ := this
    exact ⟨p, hp, j.clobW _ p (def_W hi j ho hk hp) hp⟩
  have hlatec : LateFix cx i → o.kind = .Use → o.pos = .Late → ∀ p, s.alloc o.vreg.vreg = Allocation.reg p →
      ¬ (cx.clob i).contains p = true := by
    intro hf _ hp p hal
    by_cases hW : W o.vreg.vreg
    · exact j.clobW _ p hW hal
    · obtain ⟨k2, o2, h1, h2, h3, _, h5⟩ := j.fresh _ p hW (fun h => h) hal
      exact j.lateClob hf k2 o2 p h1 h3 (ord hp k2 o2 h1 h2) h5
  refine
    { inv := I.of_eq rfl rfl rfl rfl rfl hlr
      scrOk := S.mono rfl m1 m2 (fun _ _ h => h)
      j := ?_
      live := w1
      slot := fun _ _ h => h
      allocs := rfl
      allocV := fun _ => rfl
      allocMono := fun _ h => h
      allocNew := fun _ h => .inl h
      stkMono := fun _ _ _ h => h
      defIn := fun p h => .inr h
      sat := ⟨[], rfl, ?_⟩ }
  · refine J.step hi j ho hna hnd m1 m2 (fun _ _ h => h) (fun _ _ h => .inl h) (fun _ h => h) w1
      (fun _ => .inr (.inl rfl)) ?_ rfl rfl ?_ ?_ ?_ ?_ ?_ hdefc hlatec
    · intro c r hr
      exact ⟨(S c r hr).2.2.2 _, j.scr c r hr⟩
    · intro p hp
      obtain ⟨h1, h2⟩ := m3 p hp
      exact ⟨fun h => h1 (hef.phE.mp h), fun h => h2 (hef.phL.mp h)⟩
    · rcases I.alloc o.vreg.vreg with h' | ⟨p, x, h', hx, hxv⟩ | ⟨n, hn, h'⟩
      · exact absurd h' w1
      · refine .inl ⟨p, h', I.inAvail _ p h', ?_⟩
        rw [I.inCls p x hx, I.inC p x hx, hxv, ← hC]
      · exact .inr ⟨n, h', hn⟩
    · intro p hp k' o' ho' hne hl'
      by_cases hW : W o.vreg.vreg
      · have hv := j.through _ p k' o' hW hp ho' hl'
        obtain ⟨h1, h2, h3⟩ := same_use hi ho ho' hna (Ne.symm hne) hv
        exact .inl ⟨h1, h2, hv.symm⟩
      · obtain ⟨k2, o2, ho2, hd2, hk2, hv2, hl2⟩ := j.fresh _ p hW (fun h => h) hp
        have hnk : k ≠ k2 := by rintro rfl; exact hnd hd2
        obtain ⟨h1, h2, h3⟩ := same_use hi ho ho2 hna hnk hv2
        by_cases e2 : k' = k2
        · subst e2
          rw [ho'] at ho2; cases ho2
          exact .inl ⟨h1, hk2, hv2.symm⟩
        · rcases j.compat k2 k' o2 o' p ho2 ho' (Ne.symm e2) hl2 hl' with ⟨_, q1, q2⟩ | ⟨q1, q2⟩ | q | q
          · exact .inl ⟨h1, q1, by rw [← hv2, q2]⟩
          · refine .inr (.inl ⟨fun ⟨_, q⟩ => q1 ⟨.inl hk2, q⟩, fun ⟨q, q'⟩ => ?_⟩)
            rcases q with q | q
            · rw [h1] at q; cases q
            · exact q2 ⟨.inr (ord q k2 o2 ho2 hd2), q'⟩
          · obtain ⟨j', oj, q1, q2, q3, q4, q5⟩ := q
            refine .inr (.inr (.inl ⟨j', oj, q1, q2, h1, ?_, by rw [← h3, q5]⟩))
            cases hp : o.pos with
            | Early => rfl
            | Late => rw [ord hp k2 o2 ho2 hd2] at q4; cases q4
          · obtain ⟨j', oj, q1, _⟩ := q
            exact absurd q1 (hi.useC k2 o2 ho2 hk2 j')
    · intro q w hq _ hw'
      exact I.reg_uniq hq hw'
    · intro a' hl
      obtain ⟨o', p, ho', hp⟩ := (j.undone k hnd).1 a' hl
      rw [ho] at ho'; cases ho'
      have := j.fixedLoc k o p ho hna hp
      rw [hl] at this; cases this
      rcases hef.cons with h | ⟨_, _, h⟩ | ⟨_, _, _, _, _, _, h, _⟩
      · exact w2 p (h.trans hp)
      · rw [hp] at h; cases h
      · rw [hp] at h; cases h
  · intro Val F L1 L2 X V A hF hX hL1
    refine ⟨fun _ h => h.of_eq rfl, fun hk hL2 hS ha => ?_⟩
    obtain ⟨p, hp, _⟩ := hdefc hk
    refine ⟨?_, ?_, hS.extra⟩
    · intro w hw' hn
      by_cases e : w = o.vreg.vreg
      · subst e; exact ha
      · exact hS.here w ⟨hw', e⟩ hn
    · intro w n hw' hn
      by_cases e : w = o.vreg.vreg
      · subst e
        obtain ⟨m, hm, hm'⟩ := hL2 hw'
        rw [hp] at hm'
        exact absurd hm' (reg_ne_stk (I.slot29 hm))
      · exact hS.slot w n ⟨hw', e⟩ hn

theorem setIn_reg (s : FS) (p : PReg) (x : Option VReg) :
    s.setIn (Allocation.reg p) x = { s with inPreg := set1 s.inPreg p x } := by
  unfold FS.setIn
  rw [asReg_reg]

theorem setIn_stk (s : FS) {n : Nat} (h : n < 2 ^ 29) (x : Option VReg) : s.setIn (stk n) x = s := by
  unfold FS.setIn
  rw [asReg_stk h]

theorem setIn_eq (s : FS) (a : Allocation) (x : Option VReg) :
    s.setIn a x = { s with inPreg := (s.setIn a x).inPreg } := by
  unfold FS.setIn
  split <;> rfl

/-- What `setIn` does to the register map, for a register or a slot. -/
theorem setIn_in (s : FS) {a : Allocation} (x : Option VReg) (ha : (∃ p, a = Allocation.reg p) ∨ ∃ n, n < 2 ^ 29 ∧ a = stk n)
    (q : PReg) : (a = Allocation.reg q ∧ (s.setIn a x).inPreg q = x) ∨
      (a ≠ Allocation.reg q ∧ (s.setIn a x).inPreg q = s.inPreg q) := by
  rcases ha with ⟨p, rfl⟩ | ⟨n, hn, rfl⟩
  · rw [setIn_reg]
    by_cases e : q = p
    · subst e; exact .inl ⟨rfl, set1_same _ _ _⟩
    · exact .inr ⟨fun h => e (reg_inj h).symm, set1_ne _ _ e⟩
  · rw [setIn_stk s hn]
    exact .inr ⟨fun h => reg_ne_stk hn h.symm, rfl⟩

theorem Ch.a_form {a : Allocation} {s' : FS} (c : Ch cx C P i k o loc done s a s') :
    (∃ p, a = Allocation.reg p) ∨ ∃ n, n < 2 ^ 29 ∧ a = stk n := by
  rcases c.real with ⟨p, h, _⟩ | ⟨n, h, hn⟩
  · exact .inl ⟨p, h⟩
  · exact .inr ⟨n, c.inv.slot29 hn, h⟩

theorem Ch.a_ne {a : Allocation} {s' : FS} (c : Ch cx C P i k o loc done s a s') : a ≠ Allocation.none := by
  rcases c.a_form with ⟨p, rfl⟩ | ⟨n, hn, rfl⟩
  · exact reg_ne_none p
  · exact stk_ne_none hn

theorem Ch.alloc_reg {a : Allocation} {s' : FS} (c : Ch cx C P i k o loc done s a s') {w : Nat} {q : PReg}
    (h : s'.alloc w = Allocation.reg q) : s.alloc w = Allocation.reg q := by
  rcases c.alloc w with e | ⟨_, n, hn, e⟩
  · rw [← e]; exact h
  · rw [e] at h; exact absurd h.symm (reg_ne_stk (c.inv.slot29 hn))

theorem Ch.alloc_none {a : Allocation} {s' : FS} (c : Ch cx C P i k o loc done s a s') {w : Nat}
    (h : s.alloc w ≠ Allocation.none) : s'.alloc w ≠ Allocation.none := by
  rcases c.alloc w with e | ⟨_, n, hn, e⟩
  · rw [e]; exact h
  · rw [e]; exact stk_ne_none (c.inv.slot29 hn)

theorem Ch.alloc_new {a : Allocation} {s' : FS} (c : Ch cx C P i k o loc done s a s') (I : Inv cx C P s) {w : Nat}
    (h : s'.alloc w ≠ Allocation.none) : s.alloc w ≠ Allocation.none ∨ P w := by
  rcases c.alloc w with e | ⟨⟨p, x, hp, hx⟩, _⟩
  · rw [← e]; exact .inl h
  · rw [← hx]; exact I.inLive p x hp

theorem Ch.alloc_stk {a : Allocation} {s' : FS} (c : Ch cx C P i k o loc done s a s') (I : Inv cx C P s) {w n : Nat}
    (hs : s.slot w = some n) (h : s.alloc w = stk n) : s'.alloc w = stk n := by
  rcases c.alloc w with e | ⟨_, m, hm, e⟩
  · rw [e]; exact h
  · rw [c.slot w n hs] at hm; cases hm; exact e

/-- The register becomes live with this operand. -/
theorem become_spec (hi : IOk cx C i) (I : Inv cx C P s)
    (j : J cx i W P s loc done (fun _ => False)) (ho : (cx.f.operands i)[k]? = some o)
    (hna : o.asFixedNonallocatable = none) (hnd : ¬ done k) (hnP : ¬ P o.vreg.vreg) {a : Allocation} {s1 s' : FS}
    (c : Ch cx C P i k o loc done s a s1) (hnone : s.alloc o.vreg.vreg = Allocation.none)
    (h : becomeLive (s1.setAllocs i k a) o.vreg a = .ok s') : PO cx C P i k o loc done W s a s' := by
  obtain ⟨hC, hlt⟩ := hi.vreg k o ho hna
  have hW : ¬ W o.vreg.vreg := fun h => (j.wLive _ h).elim (fun h => h hnone) hnP
  have hnone1 : s1.alloc o.vreg.vreg = Allocation.none := c.allocV.trans hnone
  unfold becomeLive at h
  split at h
  · cases h
  · next lv hlv =>
    cases h
    have hlv : s1.live.insert? o.vreg = some lv := hlv
    generalize hs2 : ({ (s1.setAllocs i k a) with live := lv, alloc := set1 (s1.setAllocs i k a).alloc o.vreg.vreg a } : FS) = s2
    have e2 : s2.alloc = set1 s1.alloc o.vreg.vreg a := by rw [← hs2]; rfl
    have e3 : s2.inPreg = s1.inPreg := by rw [← hs2]; rfl
    have hin := setIn_in s2 (some o.vreg) c.a_form
    rw [e3] at hin
    have heq := setIn_eq s2 a (some o.vreg)
    generalize hs3 : s2.setIn a (some o.vreg) = s3 at hin heq
    have ea : s3.alloc = set1 s1.alloc o.vreg.vreg a := by rw [heq, ← e2]
    have esl : s3.slot = s1.slot := by rw [heq, ← hs2]; rfl
    have eE : s3.availE = s1.availE := by rw [heq, ← hs2]; rfl
    have eL : s3.availL = s1.availL := by rw [heq, ← hs2]; rfl
    have eSc : s3.scratch = s1.scratch := by rw [heq, ← hs2]; rfl
    have elv : s3.live = lv := by rw [heq, ← hs2]
    have enum : s3.numSlots = s1.numSlots := by rw [heq, ← hs2]; rfl
    have elru : s3.lrus = s1.lrus := by rw [heq, ← hs2]; rfl
    have eal : s3.allocs = set1 s.allocs i (set1 (s.allocs i) k a) := by
      rw [heq, ← hs2]
      show set1 s1.allocs i (set1 (s1.allocs i) k a) = _
      rw [c.allocs]
    have ereu : s3.reused = s.reused := by rw [heq, ← hs2]; exact c.reused
    have eed : s3.edits = s1.edits := by rw [heq, ← hs2]; rfl
    clear heq hs3 hs2 e2 e3
    have I1 := c.inv
    have hav : s3.alloc o.vreg.vreg = a := by rw [ea, set1_same]
    have haw : ∀ w, w ≠ o.vreg.vreg → s3.alloc w = s1.alloc w := fun w hw => by rw [ea, set1_ne _ _ hw]
    have halloc : ∀ w q, s3.alloc w = Allocation.reg q → (w = o.vreg.vreg ∧ a = Allocation.reg q) ∨
        (w ≠ o.vreg.vreg ∧ s1.alloc w = Allocation.reg q ∧ a ≠ Allocation.reg q) := by
      intro w q hwq
      by_cases e : w = o.vreg.vreg
      · rw [e, hav] at hwq; exact .inl ⟨e, hwq⟩
      · rw [haw w e] at hwq
        exact .inr ⟨e, hwq, fun h => c.free q h w hwq⟩
    -- the old occupants are not the operand's register
    have hnotv : ∀ q x, s1.inPreg q = some x → x.vreg ≠ o.vreg.vreg := by
      intro q x hq e
      rcases I1.inLive q x hq with h | h
      · rw [e] at h; exact h hnone1
      · rw [e] at h; exact hnP h
    have hI : Inv cx C P s3 := by
      refine
        { alloc := ?_, inAvail := ?_, inReg := ?_, inLive := ?_, noReg := ?_, inC := ?_, inCls := ?_,
          slotLt := by rw [esl, enum]; exact I1.slotLt, slotInj := by rw [esl]; exact I1.slotInj,
          numLe := by rw [enum]; exact I1.numLe, live := ?_, lru := by rw [elru]; exact I1.lru }
      · intro w
        rw [esl]
        by_cases e : w = o.vreg.vreg
        · subst e
          rw [hav]
          rcases c.real with ⟨p, hp, _⟩ | ⟨n, hn, hs⟩
          · rcases hin p with ⟨_, h⟩ | ⟨h, _⟩
            · exact .inr (.inl ⟨p, o.vreg, hp, h, rfl⟩)
            · exact absurd hp h
          · exact .inr (.inr ⟨n, hs, hn⟩)
        · rw [haw w e]
          rcases I1.alloc w with h | ⟨p, x, h1, h2, h3⟩ | h
          · exact .inl h
          · rcases hin p with ⟨h, _⟩ | ⟨_, h⟩
            · exact absurd h1 (c.free p h w)
            · exact .inr (.inl ⟨p, x, h1, h.trans h2, h3⟩)
          · exact .inr (.inr h)
      · intro w q hwq
        rcases halloc w q hwq with ⟨_, h⟩ | ⟨_, h, _⟩
        · rcases c.real with ⟨p, hp, h', _⟩ | ⟨n, hn, hs⟩
          · rw [h] at hp; cases reg_inj hp; exact h'
          · rw [h] at hn; exact absurd hn (reg_ne_stk (I1.slot29 hs))
        · exact I1.inAvail w q h
      · intro q x hq r hr
        rcases hin q with ⟨h1, h2⟩ | ⟨h1, h2⟩
        · rw [hq] at h2; cases h2
          rw [hav, h1] at hr
          exact (reg_inj hr).symm
        · rw [hq] at h2
          rcases halloc _ _ hr with ⟨h, _⟩ | ⟨_, h, _⟩
          · exact absurd h (hnotv q x h2.symm)
          · exact I1.inReg q x h2.symm r h
      · intro q x hq
        rcases hin q with ⟨h1, h2⟩ | ⟨h1, h2⟩
        · rw [hq] at h2; cases h2
          rw [hav]; exact .inl c.a_ne
        · rw [hq] at h2
          rw [haw _ (hnotv q x h2.symm)]
          exact I1.inLive q x h2.symm
      · intro w hw q hwq
        rcases halloc w q hwq with ⟨h, _⟩ | ⟨_, h, _⟩
        · rw [h] at hw; exact hnP hw
        · exact I1.noReg w hw q h
      · intro q x hq
        rcases hin q with ⟨h1, h2⟩ | ⟨h1, h2⟩
        · rw [hq] at h2; cases h2; exact hC
        · rw [hq] at h2; exact I1.inC q x h2.symm
      · intro q x hq
        rcases hin q with ⟨h1, h2⟩ | ⟨h1, h2⟩
        · rw [hq] at h2; cases h2
          rcases c.real with ⟨p, hp, _, h'⟩ | ⟨n, hn, hs⟩
          · rw [h1] at hp; cases reg_inj hp; exact h'
          · rw [h1] at hn; exact absurd hn (reg_ne_stk (I1.slot29 hs))
        · rw [hq] at h2; exact I1.inCls q x h2.symm
      · obtain ⟨l, q1, q2, q3⟩ := I1.live
        have hnl : o.vreg.vreg ∉ l.map VReg.vreg := by
          intro hm
          obtain ⟨x, hx, hxv⟩ := List.mem_map.mp hm
          have := (q2 x hx).2
          rw [hxv] at this; exact this hnone1
        have hinv : o.vreg ≠ VReg.invalid := by
          intro e
          have : VReg.invalid.vreg = VReg.MAX := by decide
          rw [e, this] at hlt
          have := hi.max
          omega
        obtain ⟨s4, h4, I4⟩ := VRegSet.insert_ok q1 (v := o.vreg) ⟨hlt, hinv, hnl⟩
        rw [hlv] at h4; cases h4
        refine ⟨o.vreg :: l, by rw [elv]; exact I4, ?_, ?_⟩
        · intro x hx
          rcases List.mem_cons.mp hx with rfl | hx
          · rw [hav]; exact ⟨hC, c.a_ne⟩
          · have hne : x.vreg ≠ o.vreg.vreg := fun e => hnl (e ▸ List.mem_map_of_mem hx)
            rw [haw _ hne]; exact q2 x hx
        · intro w hw
          by_cases e : w = o.vreg.vreg
          · exact .inl ⟨o.vreg, by simp, e.symm⟩
          · rw [haw w e] at hw
            rcases q3 w hw with ⟨x, hx, h⟩ | h
            · exact .inl ⟨x, by simp [hx], h⟩
            · exact .inr h
    have hS3 : ScrOk cx s3 := by
      intro c' r hr
      rw [eSc] at hr
      obtain ⟨h1, h2, h3, h4⟩ := c.scrOk c' r hr
      refine ⟨by rw [eE]; exact h1, by rw [eL]; exact h2, h3, ?_⟩
      intro w hw
      rcases halloc w r hw with ⟨_, h⟩ | ⟨_, h, _⟩
      · rw [c.scratch] at hr
        exact c.noScr c' r hr h
      · exact h4 w h
    have hmono : ∀ w, s.alloc w ≠ Allocation.none → s3.alloc w ≠ Allocation.none := by
      intro w hw
      by_cases e : w = o.vreg.vreg
      · rw [e, hav]; exact c.a_ne
      · rw [haw w e]; exact c.alloc_none hw
    refine
      { inv := hI, scrOk := hS3, j := ?_, live := by rw [hav]; exact c.a_ne,
        slot := by rw [esl]; exact c.slot, allocs := eal, allocV := fun h => absurd hnone h, allocMono := hmono,
        allocNew := ?_, stkMono := ?_, defIn := fun p h => .inr (hav.trans h), sat := ?_ }
    · refine J.step hi j ho hna hnd (by rw [eE]; exact c.availE) (by rw [eL]; exact c.availL)
        (by rw [esl]; exact c.slot) ?_ hmono (by rw [hav]; exact c.a_ne) ?_ ?_ eal ereu
        (by rw [eE, eL]; exact c.phase) (by rw [esl]; exact c.real) c.compat ?_ c.fixed c.defReg c.lateClob
      · intro w q hwq
        rcases halloc w q hwq with ⟨h1, h2⟩ | ⟨_, h, _⟩
        · exact .inr ⟨h1, h2, h1 ▸ hW⟩
        · exact .inl (c.alloc_reg h)
      · intro q
        rcases hin q with ⟨h1, h2⟩ | ⟨h1, h2⟩
        · exact .inr (.inr h1)
        · exact .inr (.inl (h2.trans (congrFun c.inPreg q)))
      · intro c' r hr
        rw [eSc, c.scratch] at hr
        exact ⟨c.noScr c' r hr, j.scr c' r hr⟩
      · intro q w hq hWw hwq
        rcases halloc w q hwq with ⟨h1, _⟩ | ⟨_, _, h⟩
        · exact h1.symm
        · exact absurd hq h
    · intro w hw
      by_cases e : w = o.vreg.vreg
      · exact .inr (.inl e)
      · rw [haw w e] at hw
        exact (c.alloc_new I hw).imp_right .inr
    · intro w n hs hw
      by_cases e : w = o.vreg.vreg
      · rw [e, hnone] at hw
        exact absurd hw.symm (stk_ne_none (I.slot29 hs))
      · rw [haw w e]; exact c.alloc_stk I hs hw
    · obtain ⟨E, hE, hSat⟩ := c.sat
      refine ⟨E, by rw [eed, hE], ?_⟩
      intro Val F L1 L2 X V A hF hX hL1
      have hF1 : FOk F s1 := hF.of_eq esl.symm
      have go : ∀ L1' L2', Sat F s3 L1' L2' X V A → Sat F s1 L1' L2' X V A := by
        intro L1' L2' h
        refine ⟨?_, h.slot, h.extra⟩
        intro w hw hn
        by_cases e : w = o.vreg.vreg
        · rw [e] at hn; exact absurd hnone1 hn
        · have := h.here w hw (by rw [haw w e]; exact hn)
          rw [haw w e] at this; exact this
      refine ⟨fun _ h => hSat F L1 L2 X V A hF1 hX (go _ _ h), fun hk hL2 h ha => ?_⟩
      have h1 := hSat F _ _ X V A hF1 hX (go _ _ h)
      refine ⟨?_, ?_, h1.extra⟩
      · intro w hw hn
        have e : w ≠ o.vreg.vreg := by rintro rfl; exact hn hnone
        exact h1.here w ⟨hw, e⟩ hn
      · intro w n hw hn
        have e : w ≠ o.vreg.vreg := by
          rintro rfl
          obtain ⟨m, hm, hm'⟩ := hL2 hw
          rw [hnone] at hm'
          exact stk_ne_none (I.slot29 hm) hm'.symm
        exact h1.slot w n ⟨hw, e⟩ hn

theorem occ_or (o : Op) : occE o ∨ occL o := by
  unfold occE occL
  cases o.kind <;> simp

/-- The operand gets a location other than where its register is. -/
theorem relocate_spec (he : EnvOk cx) (hi : IOk cx C i) (I : Inv cx C P s)
    (j : J cx i W P s loc done (fun _ => False)) (hef : Eff cx i loc done k o eo) (ho : (cx.f.operands i)[k]? = some o)
    (hna : o.asFixedNonallocatable = none) (hnd : ¬ done k) {a : Allocation} {s1 s' : FS}
    (c : Ch cx C P i k o loc done s a s1) (hsome : s.alloc o.vreg.vreg ≠ Allocation.none)
    (h : relocate cx (s1.setAllocs i k a) i eo a (s.alloc o.vreg.vreg) = .ok s') : PO cx C P i k o loc done W s a s' := by
  have I1 := c.inv
  have I2 : Inv cx C P (s1.setAllocs i k a) := I1.of_eq rfl rfl rfl rfl rfl I1.lru
  have S2 : ScrOk cx (s1.setAllocs i k a) := c.scrOk.mono rfl (fun _ h => h) (fun _ h => h) (fun _ _ h => h)
  have key : ∃ s3, s' = s3.setIn a none ∧ Inv cx C P s3 ∧ ScrOk cx s3 ∧ Fr (s1.setAllocs i k a) s3 ∧
      s3.alloc o.vreg.vreg = s.alloc o.vreg.vreg ∧
      ∃ E : List Edit, s3.edits = E.map (fun e => (pt i .After, e)) ++ s1.edits ∧
        ∀ {Val : Type} (F : Nat → Option Nat) (L1 L2 : Nat → Prop) (X : Allocation → Nat → Prop) (V : Nat → Val)
          (A : Allocation → Val), FOk F s3 →
          (∀ l w, X l w → ∃ k' o', (cx.f.operands i)[k']? = some o' ∧ done k' ∧ o'.kind = .Def ∧ loc k' = some l) →
          (o.kind = .Use → Sat F s3 L1 L2 X V A → Sat F s1 L1 L2 X V (execE E A)) ∧
          (o.kind = .Def → (L2 o.vreg.vreg → ∃ n, s.slot o.vreg.vreg = some n ∧ s.alloc o.vreg.vreg = stk n) →
            Sat F s3 (fun w => L1 w ∧ w ≠ o.vreg.vreg) (fun w => L2 w ∧ w ≠ o.vreg.vreg) X V A →
            A a = V o.vreg.vreg → Sat F s1 L1 L2 X V (execE E A)) := by
    unfold relocate at h
    split at h
    · cases h
    · next s3 h3 =>
      have h := (Except.ok.inj h).symm
      rw [hef.kind, hef.vreg] at h3
      refine ⟨s3, h, ?_⟩
      split at h3
      · next hk =>
        have hc0 : (∃ q, s.alloc o.vreg.vreg = Allocation.reg q) ∨
            ∃ m, s1.slot o.vreg.vreg = some m ∧ s.alloc o.vreg.vreg = stk m := by
          rcases I.alloc o.vreg.vreg with h | ⟨q, x, h, _⟩ | ⟨m, hm, h⟩
          · exact absurd h hsome
          · exact .inl ⟨q, h⟩
          · exact .inr ⟨m, c.slot _ _ hm, h⟩
        obtain ⟨I3, S3, fr, hq1, hq2, E, hE, hM⟩ := addMove_spec he h3 I2 S2 (by
          intro _ _
          rcases hc0 with ⟨q, h⟩ | ⟨m, hm, h⟩
          · exact .inl ⟨q, h⟩
          · refine .inr ⟨o.vreg.vreg, m, hm, h, ?_⟩
            intro r _ hr
            have hr : s1.alloc o.vreg.vreg = Allocation.reg r := hr
            rw [c.allocV, h] at hr
            exact reg_ne_stk (I1.slot29 hm) hr.symm)
        have hv3 : s3.alloc o.vreg.vreg = s.alloc o.vreg.vreg := by
          rw [← c.allocV]
          show _ = (s1.setAllocs i k a).alloc o.vreg.vreg
          cases hb : (cx.isStack a && cx.isStack (s.alloc o.vreg.vreg)) with
          | false => rw [(hq1 hb).1]
          | true =>
            rw [Bool.and_eq_true] at hb
            rcases hq2 o.vreg.vreg with h | ⟨r, x, hr, hx, hxv⟩
            · exact h
            · rcases fr.alloc o.vreg.vreg with h | ⟨_, n, hn, h⟩
              · exact h
              · have hva : (s1.setAllocs i k a).alloc o.vreg.vreg = s.alloc o.vreg.vreg := c.allocV
                rw [hva]
                rcases hc0 with ⟨q, hq⟩ | ⟨m, hm, hm'⟩
                · have := I2.inReg r x hx q (by rw [hxv, hva]; exact hq)
                  subst this
                  rw [hq, hr] at hb
                  exact absurd hb.2 (by simp)
                · have := fr.slot o.vreg.vreg m hm
                  rw [hn] at this; cases this
                  rw [h, hm']
        refine ⟨I3, S3, fr, hv3, E, hE, ?_⟩
        intro Val F L1 L2 X V A hF hX
        refine ⟨fun hk' => (by rw [hk] at hk'; cases hk'), fun _ hL2 hSat ha => ?_⟩
        have hva : (s1.setAllocs i k a).alloc o.vreg.vreg = s.alloc o.vreg.vreg := c.allocV
        obtain ⟨r1, r2⟩ := hM F _ _ X V A hF hSat (by
            intro l w hx c' r hr e
            obtain ⟨k', o', ho', hd', hk', hl'⟩ := hX l w hx
            rw [e] at hl'
            rcases fr.scratch c' with h | ⟨r', h1, h2, h3⟩
            · rw [hr] at h
              have h : s1.scratch c' = some r := h.symm
              rw [c.scratch] at h
              exact j.scr c' r h k' hl'
            · rw [hr] at h1; cases h1
              exact (j.phase k' o' r ho' hl').2 (.inl hk') (c.availL r h3))
          (by
            intro w hw e
            exfalso
            have e : s1.alloc w = s.alloc o.vreg.vreg := e
            rcases hc0 with ⟨q, hq⟩ | ⟨m, hm, hm'⟩
            · rw [hq] at e
              exact hw.2 (I1.reg_uniq e (by rw [c.allocV]; exact hq))
            · rw [hm'] at e
              exact hw.2 (I1.slotInj _ _ _ (I1.stk_slot (I1.slot29 hm) e) hm))
          (by
            intro w n hw hn e
            exfalso
            rcases hc0 with ⟨q, hq⟩ | ⟨m, hm, hm'⟩
            · rw [hq] at e; exact reg_ne_stk (hF.lt _ _ hn) e.symm
            · rw [hm'] at e
              have := stk_inj (hF.lt _ _ hn) (I1.slot29 hm) e
              subst this
              exact hw.2 (hF.inj _ _ _ hn (hF.ext _ _ (fr.slot _ _ hm))))
          (by
            intro l w hx e
            exfalso
            obtain ⟨k', o', ho', hd', hk', hl'⟩ := hX l w hx
            obtain ⟨p', hp', _⟩ := j.defReg k' o' l ho' hk' hl'
            have hne : k' ≠ k := by rintro rfl; exact hnd hd'
            rcases hc0 with ⟨q, hq⟩ | ⟨m, hm, hm'⟩
            · rw [e, hq] at hl'
              have := j.through _ q k' o' (def_W hi j ho hk hq) hq ho' hl'
              exact hi.defUniq k' k o' o ho' ho hne hk' hna this
            · rw [e, hm'] at hp'
              exact reg_ne_stk (I1.slot29 hm) hp'.symm)
        refine ⟨?_, ?_, r1.extra⟩
        · intro w hw hn
          by_cases e : w = o.vreg.vreg
          · subst e
            rw [c.allocV, r2, ha]
          · exact r1.here w ⟨hw, e⟩ hn
        · intro w n hw hn
          by_cases e : w = o.vreg.vreg
          · subst e
            obtain ⟨m, hm, hm'⟩ := hL2 hw
            have := hF.ext _ _ (fr.slot _ _ (c.slot _ _ hm))
            rw [hn] at this; cases this
            rw [← hm', r2, ha]
          · exact r1.slot w n ⟨hw, e⟩ hn
      · next hk =>
        cases h3
        refine ⟨I2, S2, Fr.refl _, c.allocV, [], rfl, ?_⟩
        intro Val F L1 L2 X V A hF hX
        exact ⟨fun _ h => h.of_eq rfl, fun h => absurd h hk⟩
  obtain ⟨s3, rfl, I3, S3, fr, hv3, E, hE, hSat⟩ := key
  have hfree : ∀ p, a = Allocation.reg p → ∀ w, s3.alloc w ≠ Allocation.reg p := by
    intro p hp w hw
    rcases fr.alloc w with h | ⟨_, n, hn, h⟩
    · rw [h] at hw; exact c.free p hp w hw
    · rw [h] at hw; exact reg_ne_stk (I3.slot29 hn) hw.symm
  have hin := setIn_in s3 none c.a_form
  have heq := setIn_eq s3 a none
  generalize s3.setIn a none = s4 at hin heq
  have ea : s4.alloc = s3.alloc := by rw [heq]
  have esl : s4.slot = s3.slot := by rw [heq]
  have eE : s4.availE = s3.availE := by rw [heq]
  have eL : s4.availL = s3.availL := by rw [heq]
  have eSc : s4.scratch = s3.scratch := by rw [heq]
  have elv : s4.live = s3.live := by rw [heq]
  have enum : s4.numSlots = s3.numSlots := by rw [heq]
  have elru : s4.lrus = s3.lrus := by rw [heq]
  have eal : s4.allocs = set1 s.allocs i (set1 (s.allocs i) k a) := by
    rw [heq]
    show s3.allocs = _
    rw [fr.allocs]
    show set1 s1.allocs i (set1 (s1.allocs i) k a) = _
    rw [c.allocs]
  have ereu : s4.reused = s.reused := by rw [heq]; exact fr.reused.trans c.reused
  have eed : s4.edits = s3.edits := by rw [heq]
  clear heq
  have hI : Inv cx C P s4 := by
    refine
      { alloc := ?_, inAvail := by rw [ea]; exact I3.inAvail, inReg := ?_, inLive := ?_,
        noReg := by rw [ea]; exact I3.noReg, inC := ?_, inCls := ?_,
        slotLt := by rw [esl, enum]; exact I3.slotLt, slotInj := by rw [esl]; exact I3.slotInj,
        numLe := by rw [enum]; exact I3.numLe, live := by rw [elv, ea]; exact I3.live, lru := by rw [elru]; exact I3.lru }
    · intro w
      rw [ea, esl]
      rcases I3.alloc w with h | ⟨p, x, h1, h2, h3⟩ | h
      · exact .inl h
      · rcases hin p with ⟨h, _⟩ | ⟨_, h⟩
        · exact absurd h1 (hfree p h w)
        · exact .inr (.inl ⟨p, x, h1, h.trans h2, h3⟩)
      · exact .inr (.inr h)
    all_goals
      intro q x hq
      rcases hin q with ⟨_, h⟩ | ⟨_, h⟩
      · rw [hq] at h; cases h
      · rw [hq] at h
        first
        | (rw [ea]; exact I3.inReg q x h.symm)
        | (rw [ea]; exact I3.inLive q x h.symm)
        | exact I3.inC q x h.symm
        | exact I3.inCls q x h.symm
  have hS4 : ScrOk cx s4 := S3.mono eSc (by rw [eE]; exact fun _ h => h) (by rw [eL]; exact fun _ h => h)
    (by rw [ea]; exact fun _ _ h => h)
  have hmono : ∀ w, s.alloc w ≠ Allocation.none → s4.alloc w ≠ Allocation.none := by
    intro w hw
    rw [ea]
    rcases fr.alloc w with h | ⟨_, n, hn, h⟩
    · rw [h]; exact c.alloc_none hw
    · rw [h]; exact stk_ne_none (I3.slot29 hn)
  have hv4 : s4.alloc o.vreg.vreg = s.alloc o.vreg.vreg := by rw [ea]; exact hv3
  refine
    { inv := hI, scrOk := hS4, j := ?_, live := by rw [hv4]; exact hsome,
      slot := by rw [esl]; exact fun v n h => fr.slot v n (c.slot v n h), allocs := eal, allocV := fun _ => hv4,
      allocMono := hmono, allocNew := ?_, stkMono := ?_,
      defIn := fun p h => (hin p).elim (fun h => .inl h.2) (fun h' => absurd h h'.1), sat := ?_ }
  · refine J.step hi j ho hna hnd (by rw [eE]; exact fun p h => c.availE p (fr.availE p h))
      (by rw [eL]; exact fun p h => c.availL p (fr.availL p h))
      (by rw [esl]; exact fun v n h => fr.slot v n (c.slot v n h)) ?_ hmono (by rw [hv4]; exact hsome) ?_ ?_ eal ereu
      ?_ ?_ c.compat ?_ c.fixed c.defReg c.lateClob
    · intro w q hwq
      rw [ea] at hwq
      rcases fr.alloc w with h | ⟨_, n, hn, h⟩
      · rw [h] at hwq; exact .inl (c.alloc_reg hwq)
      · rw [h] at hwq; exact absurd hwq.symm (reg_ne_stk (I3.slot29 hn))
    · intro q
      rcases hin q with ⟨_, h⟩ | ⟨_, h⟩
      · exact .inl h
      · refine .inr (.inl ?_)
        rw [h, fr.inPreg]
        exact congrFun c.inPreg q
    · intro c' r hr
      rw [eSc] at hr
      rcases fr.scratch c' with h | ⟨r', h1, h2, h3⟩
      · rw [hr] at h
        have h : s1.scratch c' = some r := h.symm
        rw [c.scratch] at h
        exact ⟨c.noScr c' r h, j.scr c' r h⟩
      · rw [hr] at h1; cases h1
        refine ⟨?_, ?_⟩
        · intro e
          obtain ⟨q1, q2⟩ := c.phase r e
          rcases occ_or o with h | h
          · exact q1 h h2
          · exact q2 h h3
        · intro k' hl'
          obtain ⟨o', ho'⟩ := j.locOp k' _ hl'
          obtain ⟨q1, q2⟩ := j.phase k' o' r ho' hl'
          rcases occ_or o' with h | h
          · exact q1 h (c.availE r h2)
          · exact q2 h (c.availL r h3)
    · intro p hp
      obtain ⟨q1, q2⟩ := c.phase p hp
      rw [eE, eL]
      exact ⟨fun h h' => q1 h (fr.availE p h'), fun h h' => q2 h (fr.availL p h')⟩
    · rw [esl]
      rcases c.real with h | ⟨n, h1, h2⟩
      · exact .inl h
      · exact .inr ⟨n, h1, fr.slot _ _ h2⟩
    · intro q w hq _ hwq
      rw [ea] at hwq
      exact absurd hwq (hfree q hq w)
  · intro w hw
    rw [ea] at hw
    rcases fr.alloc w with h | ⟨⟨p, x, hp, hx⟩, _⟩
    · rw [h] at hw
      exact (c.alloc_new I hw).imp_right .inr
    · rcases I1.inLive p x hp with h | h
      · rw [hx] at h; exact (c.alloc_new I h).imp_right .inr
      · rw [hx] at h; exact .inr (.inr h)
  · intro w n hs hw
    have h1 := c.alloc_stk I hs hw
    rw [ea]
    rcases fr.alloc w with h | ⟨_, m, hm, h⟩
    · rw [h]; exact h1
    · rw [fr.slot w n (c.slot w n hs)] at hm; cases hm; exact h
  · obtain ⟨E1, hE1, hSat1⟩ := c.sat
    refine ⟨E ++ E1, by rw [eed, hE, hE1, List.map_append, List.append_assoc], ?_⟩
    intro Val F L1 L2 X V A hF hX hL1
    have hF3 : FOk F s3 := hF.of_eq esl.symm
    have hF1 : FOk F s1 := hF3.of_mono fr.slot
    rw [execE_append]
    obtain ⟨q1, q2⟩ := hSat F L1 L2 X V A hF3 hX
    exact ⟨fun hk h => hSat1 F L1 L2 X V _ hF1 hX (q1 hk (h.of_eq ea.symm)),
      fun hk hL2 h ha => hSat1 F L1 L2 X V _ hF1 hX (q2 hk hL2 (h.of_eq ea.symm) ha)⟩

/-- `process_operand_allocation`. -/
theorem processOperand_spec (he : EnvOk cx) (hi : IOk cx C i) (I : Inv cx C P s) (S : ScrOk cx s)
    (j : J cx i W P s loc done (fun _ => False)) (hef : Eff cx i loc done k o eo)
    (ho : (cx.f.operands i)[k]? = some o) (hna : o.asFixedNonallocatable = none) (hnd : ¬ done k)
    (ord : o.pos = .Late → ∀ (k' : Nat) o', (cx.f.operands i)[k']? = some o' → done k' → o'.pos = .Late)
    (hdP : ∀ (k' : Nat) o', (cx.f.operands i)[k']? = some o' → done k' → o'.kind = .Def → P o'.vreg.vreg)
    (hnP : ¬ P o.vreg.vreg) {s' : FS} (h : processOperand cx s i eo k = .ok s') :
    ∃ a, PO cx C P i k o loc done W s a s' := by
  have hlt := (hi.vreg k o ho hna).2
  have hmax := hi.max
  unfold processOperand at h
  rw [na_none (by rw [hef.vreg]; omega)] at h
  dsimp only at h
  split at h
  · cases h
  · next hw => exact keep_spec he hi I S j hef ho hna hnd ord hw h
  · next hw =>
    unfold allocOperand at h
    split at h
    · cases h
    · next a s2 h2 =>
      split at h2
      · cases h2
      · next a1 s1 h1 =>
        have hh := Prod.mk.inj (Except.ok.inj h2)
        obtain ⟨rfl, rfl⟩ := hh
        have c := chooseAlloc_spec he hi I S j hef ho hna hnd ord hdP hnP hw h1
        rw [hef.vreg] at h
        split at h
        · next hn => exact ⟨_, become_spec hi I j ho hna hnd hnP c ((isNone_iff I).mp hn) h⟩
        · next hn => exact ⟨_, relocate_spec he hi I j hef ho hna hnd c (fun e => hn ((isNone_iff I).mpr e)) h⟩

/-- Moves and evictions keep the instruction's invariant. -/
theorem J.ofFr {ex : Nat → Prop} {s' : FS} (j : J cx i W P s loc done ex) (fr : Fr s s') (I' : Inv cx C P s') :
    J cx i W P s' loc done ex := by
  have hr : ∀ w q, s'.alloc w = Allocation.reg q → s.alloc w = Allocation.reg q := by
    intro w q h
    rcases fr.alloc w with e | ⟨_, n, hn, e⟩
    · rw [← e]; exact h
    · rw [e] at h; exact absurd h.symm (reg_ne_stk (I'.slot29 hn))
  have hn : ∀ w, s.alloc w ≠ Allocation.none → s'.alloc w ≠ Allocation.none := by
    intro w h
    rcases fr.alloc w with e | ⟨_, n, hn, e⟩
    · rw [e]; exact h
    · rw [e]; exact stk_ne_none (I'.slot29 hn)
  refine
    { phase := fun k o p ho hl => ⟨fun h h' => (j.phase k o p ho hl).1 h (fr.availE p h'),
        fun h h' => (j.phase k o p ho hl).2 h (fr.availL p h')⟩
      real := fun k o a ho hl => (j.real k o a ho hl).imp_right (fun ⟨n, h1, h2⟩ => ⟨n, h1, fr.slot _ _ h2⟩)
      compat := j.compat
      through := fun w p k o hW h => j.through w p k o hW (hr w p h)
      fresh := fun w p hW hex h => j.fresh w p hW hex (hr w p h)
      defFree := fun k o p ho hd hk hex hl hav => by
        rw [fr.inPreg]; exact j.defFree k o p ho hd hk hex hl (fr.availE p hav)
      scr := ?_
      clobL := fun p h => j.clobL p (fr.availL p h)
      initE := fun p h => j.initE p (fr.availE p h)
      initL := fun p h => j.initL p (fr.availL p h)
      clobW := fun w p hW h => j.clobW w p hW (hr w p h)
      locDone := by rw [fr.allocs]; exact j.locDone
      undone := by rw [fr.allocs]; exact j.undone
      hasLoc := j.hasLoc
      useLive := fun k o hd ho hk hna => hn _ (j.useLive k o hd ho hk hna)
      wLive := fun w hW => (j.wLive w hW).imp_left (hn w)
      fixedLoc := j.fixedLoc
      reused := by rw [fr.reused]; exact j.reused
      defReg := j.defReg
      lateClob := j.lateClob
      locOp := j.locOp
      na := by rw [fr.allocs]; exact j.na }
  intro c r hs k hl
  rcases fr.scratch c with h | ⟨r', h1, h2, h3⟩
  · rw [hs] at h; exact j.scr c r h.symm k hl
  · rw [hs] at h1; cases h1
    obtain ⟨o, ho⟩ := j.locOp k _ hl
    obtain ⟨q1, q2⟩ := j.phase k o r ho hl
    rcases occ_or o with h | h
    · exact q1 h h2
    · exact q2 h h3

/-- A register that is in memory stays where it is. -/
theorem addMove_keep (he : EnvOk cx) {s' : FS} {src dst : Allocation} {c : RegClass} {pos : InstPosition} {v : Nat}
    (h : addMove cx s i src dst c pos = .ok s') (I : Inv cx C P s) (S : ScrOk cx s)
    (hd : cx.isStack src = true → cx.isStack dst = true → DstOk cx s dst)
    (hv : (cx.isStack src && cx.isStack dst) = true → cx.isStack (s.alloc v) = true) : s'.alloc v = s.alloc v := by
  obtain ⟨I3, S3, fr, hq1, hq2, _⟩ := addMove_spec he h I S hd
  cases hb : (cx.isStack src && cx.isStack dst) with
  | false => rw [(hq1 hb).1]
  | true =>
    have hv := hv hb
    rcases hq2 v with h | ⟨r, x, hr, hx, hxv⟩
    · exact h
    · rcases fr.alloc v with h | ⟨_, n, hn, h⟩
      · exact h
      · rcases I.alloc v with h' | ⟨q, y, hq, _⟩ | ⟨m, hm, hm'⟩
        · rw [h', isStack_none] at hv; cases hv
        · have := I.inReg r x hx q (by rw [hxv]; exact hq)
          subst this
          rw [hq, hr] at hv; cases hv
        · have := fr.slot v m hm
          rw [hn] at this; cases this
          rw [h, hm']

/-- `freealloc` of a register defined here. -/
theorem freealloc_spec {P' : Nat → Prop} {v : VReg} {s' : FS} (I : Inv cx C P s) (S : ScrOk cx s) (hnP : ¬ P v.vreg)
    (hP' : ∀ w, P' w ↔ P w ∨ w = v.vreg) (h : freealloc s v = .ok s') :
    Inv cx C P' s' ∧ ScrOk cx s' ∧ s.alloc v.vreg ≠ Allocation.none ∧ s'.alloc = set1 s.alloc v.vreg Allocation.none ∧
      (∀ q, s'.inPreg q = none ∨ s'.inPreg q = s.inPreg q) ∧
      (∀ q, s.alloc v.vreg = Allocation.reg q → s'.inPreg q = none) ∧
      s' = { s with inPreg := s'.inPreg, alloc := s'.alloc, live := s'.live } := by
  unfold freealloc at h
  dsimp only at h
  split at h
  · cases h
  · next hn =>
    have hn' : s.alloc v.vreg ≠ Allocation.none := fun e => hn ((isNone_iff I).mpr e)
    split at h
    · cases h
    · next lv hlv =>
      have h := (Except.ok.inj h).symm
      have hinp : (∀ q, s'.inPreg q = none ∨ s'.inPreg q = s.inPreg q) ∧
          (∀ q, s.alloc v.vreg = Allocation.reg q → s'.inPreg q = none) ∧
          (∀ q, s'.inPreg q = none → s.inPreg q = none ∨ s.alloc v.vreg = Allocation.reg q) := by
        have hinp : s'.inPreg = (match (s.alloc v.vreg).asReg with | some p => set1 s.inPreg p none | none => s.inPreg) := by
          rw [h]
          cases (s.alloc v.vreg).asReg <;> rfl
        rw [hinp]
        cases hp : (s.alloc v.vreg).asReg with
        | some p =>
          have hp' := asReg_some I hp
          dsimp only
          refine ⟨?_, ?_, ?_⟩
          · intro q
            by_cases e : q = p
            · subst e; exact .inl (set1_same _ _ _)
            · exact .inr (set1_ne _ _ e)
          · intro q hq
            rw [hp'] at hq
            cases reg_inj hq
            exact set1_same _ _ _
          · intro q hq
            by_cases e : q = p
            · subst e; exact .inr hp'
            · rw [set1_ne _ _ e] at hq; exact .inl hq
        | none =>
          refine ⟨fun _ => .inr rfl, ?_, fun _ h => .inl h⟩
          intro q hq
          rw [hq, asReg_reg] at hp; cases hp
      obtain ⟨i1, i2, i3⟩ := hinp
      have ea : s'.alloc = set1 s.alloc v.vreg Allocation.none := by rw [h]
      have elv : s'.live = lv := by rw [h]
      have heq : s' = { s with inPreg := s'.inPreg, alloc := s'.alloc, live := s'.live } := by rw [h]
      have esl : s'.slot = s.slot := by rw [heq]
      have enum : s'.numSlots = s.numSlots := by rw [heq]
      have elru : s'.lrus = s.lrus := by rw [heq]
      have hav : s'.alloc v.vreg = Allocation.none := by rw [ea, set1_same]
      have haw : ∀ w, w ≠ v.vreg → s'.alloc w = s.alloc w := fun w hw => by rw [ea, set1_ne _ _ hw]
      have hal : ∀ w q, s'.alloc w = Allocation.reg q → w ≠ v.vreg ∧ s.alloc w = Allocation.reg q := by
        intro w q hwq
        by_cases e : w = v.vreg
        · rw [e, hav] at hwq; exact absurd hwq.symm (reg_ne_none q)
        · exact ⟨e, by rw [← haw w e]; exact hwq⟩
      have hold : ∀ q x, s'.inPreg q = some x → s.inPreg q = some x := by
        intro q x hq
        rcases i1 q with h | h
        · rw [hq] at h; cases h
        · rw [← h]; exact hq
      refine ⟨?_, ?_, hn', ea, i1, i2, heq⟩
      · refine
          { alloc := ?_, inAvail := fun w q hwq => I.inAvail w q (hal w q hwq).2,
            inReg := fun q x hq r hr => I.inReg q x (hold q x hq) r (hal _ r hr).2, inLive := ?_, noReg := ?_,
            inC := fun q x hq => I.inC q x (hold q x hq), inCls := fun q x hq => I.inCls q x (hold q x hq),
            slotLt := by rw [esl, enum]; exact I.slotLt, slotInj := by rw [esl]; exact I.slotInj,
            numLe := by rw [enum]; exact I.numLe, live := ?_, lru := by rw [elru]; exact I.lru }
        · intro w
          by_cases e : w = v.vreg
          · rw [e]; exact .inl hav
          · rw [haw w e, esl]
            rcases I.alloc w with h | ⟨p, x, h1, h2, h3⟩ | h
            · exact .inl h
            · refine .inr (.inl ⟨p, x, h1, ?_, h3⟩)
              rcases i1 p with h | h
              · rcases i3 p h with h' | h'
                · rw [h2] at h'; cases h'
                · exact absurd (I.reg_uniq h1 h') e
              · rw [h]; exact h2
            · exact .inr (.inr h)
        · intro q x hq
          by_cases e : x.vreg = v.vreg
          · exact .inr ((hP' _).mpr (.inr e))
          · rw [haw _ e]
            exact (I.inLive q x (hold q x hq)).imp_right (fun h => (hP' _).mpr (.inl h))
        · intro w hw q hwq
          obtain ⟨h1, h2⟩ := hal w q hwq
          rcases (hP' w).mp hw with h | h
          · exact I.noReg w h q h2
          · exact h1 h
        · obtain ⟨l, q1, q2, q3⟩ := I.live
          have hm : v.vreg ∈ l.map VReg.vreg := by
            rcases q3 _ hn' with ⟨x, hx, hxv⟩ | h
            · exact hxv ▸ List.mem_map_of_mem hx
            · exact absurd h hnP
          obtain ⟨s4, h4, I4⟩ := VRegSet.remove_ok q1 (k := v.vreg) hm
          rw [hlv] at h4; cases h4
          refine ⟨_, by rw [elv]; exact I4, ?_, ?_⟩
          · intro x hx
            obtain ⟨hx1, hx2⟩ := List.mem_filter.mp hx
            have hx2 : x.vreg ≠ v.vreg := of_decide_eq_true hx2
            rw [haw _ hx2]; exact q2 x hx1
          · intro w hw
            have e : w ≠ v.vreg := by rintro rfl; exact hw hav
            rw [haw w e] at hw
            rcases q3 w hw with ⟨x, hx, hxv⟩ | h
            · exact .inl ⟨x, List.mem_filter.mpr ⟨hx, decide_eq_true (by rw [hxv]; exact e)⟩, hxv⟩
            · exact .inr ((hP' w).mpr (.inl h))
      · exact S.mono (by rw [heq]) (by rw [heq]; exact fun _ h => h) (by rw [heq]; exact fun _ h => h)
          (fun w r h => (hal w r h).2)

end

end Fast
end Regalloc
