import Verif.Proofs.FastSafe

/-
The single-pass allocator does not panic: operands and instructions.
-/
namespace Regalloc
namespace Fast

section
variable {cx : Cx} {C : Nat → VReg} {q : Par} {s s' : FS}

/-- The choice of a register for an operand. -/
theorem allocReg_safe (F : Fix cx C) (h : NP cx C q s) (hB : q.B ≤ SpillSlot.MAX) {i : Nat} {o : Op} (ho : Known cx C o.vreg) :
    Safe (allocReg cx s i o) (fun r => NP cx C q r.2 ∧ r.1.isNone = false ∧ r.1.asReg.isSome = true) := by
  unfold allocReg
  have hs : Safe (select s o) (fun p => (cx.regs (vcls o.vreg)).contains p = true) := by
    unfold select
    dsimp only
    split
    · exact Safe.many
    · split
      · rename_i hl
        exact absurd hl (last_safe F h.lru ho _)
      · exact Safe.many
      · rename_i p hp
        exact Safe.ok (last_mem h.lru hp).1
  split
  · exact hs.err ‹_›
  · rename_i p hp
    have hp := hs.2 _ hp
    unfold takeReg
    have hev : Safe (if (s.inPreg p).isSome then evict cx s i p .After else .ok s) (fun s' => NP cx C q s' ∧ s'.inPreg = s.inPreg) := by
      split
      · rename_i hx; exact evict_safe F h hB hx
      · exact Safe.ok ⟨h, rfl⟩
    split
    · exact hev.err ‹_›
    · rename_i s1 h1
      have k1 := (hev.2 _ h1).1
      have hpk := poke_safe k1 hp
      split
      · exact hpk.err ‹_›
      · rename_i s2 h2
        exact Safe.ok ⟨(hpk.2 _ h2).1.occupy _ _, isNone_reg p, by rw [asReg_reg]; rfl⟩

theorem slotAlloc_safe (F : Fix cx C) (h : NP cx C q s) (hB : q.B ≤ SpillSlot.MAX) {v : VReg} (hv : Known cx C v) :
    Safe (slotAlloc cx s v) (fun r => NP cx C q r.2 ∧ r.1.isNone = false) := by
  unfold slotAlloc
  have hg := getSpillslot_safe F h hB hv.2
  split
  · exact hg.err ‹_›
  · rename_i n s1 h1
    obtain ⟨k1, k2, _, _⟩ := hg.2 _ h1
    exact Safe.ok ⟨k1, isNone_stk (k1.num29 hB k2)⟩

/-- The operand asks for a register. -/
def InReg (o : Op) : Prop := o.constraint = .Reg ∨ ∃ p, o.constraint = .FixedReg p

theorem chooseAlloc_safe (F : Fix cx C) (h : NP cx C q s) (hB : q.B ≤ SpillSlot.MAX) {i : Nat} {o : Op} (ho : Known cx C o.vreg)
    (hl : ∀ n, o.constraint ≠ .Limit n) (hr : ∀ j, o.constraint ≠ .Reuse j) :
    Safe (chooseAlloc cx s i o) (fun r => NP cx C q r.2 ∧ r.1.isNone = false ∧ (InReg o → r.1.asReg.isSome = true)) := by
  have hnr : o.constraint = .Any ∨ o.constraint = .Stack → ¬ InReg o := by
    rintro (e | e) (e' | ⟨p, e'⟩) <;> rw [e] at e' <;> cases e'
  have hsl := slotAlloc_safe F h hB ho
  have hre := allocReg_safe (i := i) F h hB ho
  unfold chooseAlloc
  split
  · rename_i e
    have hsl' := hsl.mono (Q' := fun r => NP cx C q r.2 ∧ r.1.isNone = false ∧ (InReg o → r.1.asReg.isSome = true))
      (fun r hr => ⟨hr.1, hr.2, fun hx => absurd hx (hnr (.inl e))⟩)
    split
    · exact hsl'
    · split
      · rename_i r hr'
        obtain ⟨k1, k2, k3⟩ := hre.2 _ hr'
        exact Safe.ok ⟨k1, k2, fun _ => k3⟩
      · exact hsl'
      · rename_i hp; exact absurd hp hre.1
  · split
    · exact hre.err ‹_›
    · rename_i a s1 h1
      obtain ⟨k1, k2, k3⟩ := hre.2 _ h1
      exact Safe.ok ⟨k1.counters _ _, k2, fun _ => k3⟩
  · rename_i p e
    exact Safe.ok ⟨h, isNone_reg p, fun _ => by rw [asReg_reg]; rfl⟩
  · rename_i j e; exact absurd e (hr j)
  · rename_i e
    exact hsl.mono (fun r hr => ⟨hr.1, hr.2, fun hx => absurd hx (hnr (.inr e))⟩)
  · rename_i n e; exact absurd e (hl n)

/-- `allocs` with another entry. -/
def setAL (A : Nat → Nat → Allocation) (i idx : Nat) (a : Allocation) : Nat → Nat → Allocation := set1 A i (set1 (A i) idx a)

theorem setAL_same (A : Nat → Nat → Allocation) (i idx : Nat) (a : Allocation) : setAL A i idx a i idx = a := by
  unfold setAL; rw [set1_same, set1_same]

theorem setAL_ne (A : Nat → Nat → Allocation) (i idx : Nat) (a : Allocation) {k : Nat} (h : k ≠ idx) : setAL A i idx a i k = A i k := by
  unfold setAL; rw [set1_same, set1_ne _ _ h]

theorem NP.setAllocs (h : NP cx C q s) (i idx : Nat) (a : Allocation) : NP cx C { q with AL := setAL q.AL i idx a } (s.setAllocs i idx a) :=
  { h with al := (by
      show set1 s.allocs i (set1 (s.allocs i) idx a) = _
      rw [h.al]; rfl) }

theorem withinConstraint_safe (h : NP cx C q s) {i : Nat} {o : Op} (hl : ∀ n, o.constraint ≠ .Limit n) (hr : ∀ j, o.constraint ≠ .Reuse j) :
    Safe (withinConstraint cx s i o) (fun b => b = true → s.alloc o.vreg.vreg ≠ Allocation.none ∧ (InReg o → (s.alloc o.vreg.vreg).asReg.isSome = true)) := by
  have hn : Allocation.none.asReg = none := by decide
  have some' : ∀ p, (s.alloc o.vreg.vreg).asReg = some p →
      s.alloc o.vreg.vreg ≠ Allocation.none ∧ (InReg o → (s.alloc o.vreg.vreg).asReg.isSome = true) := by
    intro p hp
    exact ⟨fun e => by (rw [e, hn] at hp; cases hp), fun _ => by rw [hp]; rfl⟩
  unfold withinConstraint
  dsimp only
  split
  · rename_i e
    split
    · rename_i p hp
      split
      · exact Safe.ok (fun h => by cases h)
      · exact Safe.ok (fun _ => some' p hp)
    · refine Safe.ok (fun hx => ⟨fun e => ?_, ?_⟩)
      · rw [e] at hx; revert hx; decide
      · rintro (e' | ⟨p, e'⟩) <;> rw [e] at e' <;> cases e'
  · split
    · exact Safe.ok (fun h => by cases h)
    · split
      · rename_i p hp
        exact Safe.ok (fun _ => some' p hp)
      · exact Safe.ok (fun h => by cases h)
  · rename_i p e
    exact Safe.ok (fun hx => some' p (by simpa using hx))
  · rename_i j e; exact absurd e (hr j)
  · rename_i e
    refine Safe.ok (fun hx => ⟨fun e => ?_, ?_⟩)
    · rw [e] at hx
      unfold Cx.isStack at hx
      rw [hn] at hx
      have : Allocation.none.isStack = false := by decide
      rw [this] at hx
      cases hx
    · rintro (e' | ⟨p, e'⟩) <;> rw [e] at e' <;> cases e'
  · rename_i n e; exact absurd e (hl n)

/-- The parameters after an operand was processed. -/
def Par.after (q : Par) (o : Op) (i idx : Nat) (a : Allocation) : Par :=
  { q with AL := setAL q.AL i idx a, LV := fun w => o.asFixedNonallocatable = none ∧ w = o.vreg.vreg, NV := fun _ => False }

theorem keepAlloc_safe (F : Fix cx C) (h : NP cx C q s) {i idx : Nat} {o : Op} (ha : s.alloc o.vreg.vreg ≠ Allocation.none) :
    Safe (keepAlloc cx s i o idx) (fun s' => NP cx C (q.after o i idx (s.alloc o.vreg.vreg)) s') := by
  unfold keepAlloc
  dsimp only
  have h1 : NP cx C (q.after o i idx (s.alloc o.vreg.vreg)) (s.setAllocs i idx (s.alloc o.vreg.vreg)) := by
    have := (h.setAllocs i idx (s.alloc o.vreg.vreg)).rebase q.SL h.sl (fun w => o.asFixedNonallocatable = none ∧ w = o.vreg.vreg)
      (fun v hv => by rw [hv.2]; exact ha) (fun _ => False) (fun _ h => h.elim)
    exact this
  have h2 : NP cx C (q.after o i idx (s.alloc o.vreg.vreg)) (if o.constraint = .Reg then
      { s.setAllocs i idx (s.alloc o.vreg.vreg) with
        numAny := bump (s.setAllocs i idx (s.alloc o.vreg.vreg)).numAny (epos o) (vcls o.vreg) (-1) }
      else s.setAllocs i idx (s.alloc o.vreg.vreg)) := by
    split
    · exact h1.counters _ _
    · exact h1
  split
  · exact Safe.ok h2
  · rename_i p hp
    generalize (if o.constraint = .Reg then
      { s.setAllocs i idx (s.alloc o.vreg.vreg) with
        numAny := bump (s.setAllocs i idx (s.alloc o.vreg.vreg)).numAny (epos o) (vcls o.vreg) (-1) }
      else s.setAllocs i idx (s.alloc o.vreg.vreg)) = t at *
    have hpk : Safe (if cx.allocatable.contains p then poke t (pcls p) p else .ok t) (fun t' => NP cx C (q.after o i idx (s.alloc o.vreg.vreg)) t') := by
      split
      · rename_i hc
        exact (poke_safe h2 (F.env.allocatable_cls hc)).mono (fun _ h => h.1)
      · exact Safe.ok h2
    split
    · exact hpk.err ‹_›
    · rename_i t' ht
      have k := (hpk.2 _ ht).unavail o.pos p
      split
      · exact Safe.ok (k.unavail _ _)
      · exact Safe.ok (k.unavail _ _)
      · exact Safe.ok k

theorem processOperand_safe (F : Fix cx C) (h : NP cx C q s) (hB : q.B ≤ SpillSlot.MAX) {i idx : Nat} {o : Op}
    (ho : o.asFixedNonallocatable = none → Known cx C o.vreg ∧ ¬ q.P o.vreg.vreg) (hl : ∀ n, o.constraint ≠ .Limit n)
    (hr : ∀ j, o.constraint ≠ .Reuse j) :
    Safe (processOperand cx s i o idx) (fun s' => ∃ a, NP cx C (q.after o i idx a) s' ∧ (InReg o → a.asReg.isSome = true)) := by
  unfold processOperand
  split
  · rename_i p hp
    refine Safe.ok ⟨Allocation.reg p, ?_, fun _ => by rw [asReg_reg]; rfl⟩
    exact (h.setAllocs i idx (Allocation.reg p)).rebase q.SL h.sl _ (fun v hv => by rw [hp] at hv; cases hv.1) _ (fun _ h => h.elim)
  · rename_i hna
    obtain ⟨hk, hnp⟩ := ho hna
    have hw := withinConstraint_safe (i := i) h hl hr
    split
    · exact hw.err ‹_›
    · rename_i hx
      obtain ⟨k1, k2⟩ := hw.2 _ hx rfl
      exact (keepAlloc_safe F h k1).mono (fun s' hs => ⟨_, hs, k2⟩)
    · dsimp only
      rcases Bool.eq_false_or_eq_true (s.alloc o.vreg.vreg).isNone with hn | hn
      · -- not live so far
        have hn' := h.an _ hn
        have h1 : NP cx C { q with LV := fun _ => False, NV := fun w => w = o.vreg.vreg } s :=
          h.rebase q.SL h.sl _ (fun _ h => h.elim) _ (fun v hv => by rw [hv]; exact ⟨hn', hnp⟩)
        have hc := chooseAlloc_safe (i := i) F h1 hB hk hl hr
        unfold allocOperand
        split
        · rename_i e heq
          split at heq
          · rename_i e' he
            cases heq
            exact hc.err he
          · cases heq
        · rename_i a t heq
          split at heq
          · cases heq
          · rename_i a' t' ht
            have heq := Except.ok.inj heq
            obtain ⟨rfl, rfl⟩ := Prod.mk.inj heq
            obtain ⟨k1, k2, k3⟩ := hc.2 _ ht
            rw [if_pos hn]
            have k4 := k1.setAllocs i idx a'
            obtain ⟨lv, e, k5⟩ := insert_safe F k4 k2 hk (k4.nv _ rfl).1
            unfold becomeLive
            rw [e]
            refine Safe.ok ⟨a', ?_, k3⟩
            apply NP.setIn_some
            · refine k5.rebase q.SL k5.sl (fun w => o.asFixedNonallocatable = none ∧ w = o.vreg.vreg) ?_ _ (fun _ h => h.elim)
              intro v hv
              rw [hv.2]
              dsimp only
              rw [set1_same]
              exact ne_none_of k2
            · exact hk
            · dsimp only
              rw [set1_same]
              exact ne_none_of k2
      · have hn' := ne_none_of hn
        have h1 : NP cx C { q with LV := fun w => o.asFixedNonallocatable = none ∧ w = o.vreg.vreg, NV := fun _ => False } s :=
          h.rebase q.SL h.sl _ (fun v hv => by rw [hv.2]; exact hn') _ (fun _ h => h.elim)
        have hc := chooseAlloc_safe (i := i) F h1 hB hk hl hr
        unfold allocOperand
        split
        · rename_i e heq
          split at heq
          · rename_i e' he
            cases heq
            exact hc.err he
          · cases heq
        · rename_i a t heq
          split at heq
          · cases heq
          · rename_i a' t' ht
            have heq := Except.ok.inj heq
            obtain ⟨rfl, rfl⟩ := Prod.mk.inj heq
            obtain ⟨k1, k2, k3⟩ := hc.2 _ ht
            rw [if_neg (by rw [hn]; simp)]
            have k4 := k1.setAllocs i idx a'
            unfold relocate
            have hm : Safe (if o.kind = .Def then addMove cx (t'.setAllocs i idx a') i a' (s.alloc o.vreg.vreg) (vcls o.vreg) .After
                else .ok (t'.setAllocs i idx a')) (fun s' => NP cx C (q.after o i idx a') s') := by
              split
              · exact (addMove_safe F k4 hB hk).mono (fun _ h => h.1)
              · exact Safe.ok k4
            split
            · exact hm.err ‹_›
            · rename_i t ht
              exact Safe.ok ⟨a', (hm.2 _ ht).setIn_none _, k3⟩

/-- Between operands nothing more is known of live registers. -/
def Par.plain (q : Par) : Par := { q with LV := fun _ => False, NV := fun _ => False }

theorem NP.plain (h : NP cx C q s) : NP cx C q.plain s := h.rebase q.SL h.sl _ (fun _ h => h.elim) _ (fun _ h => h.elim)

/-- A definition. Afterwards its register is not mentioned any more. -/
theorem allocDef_safe (F : Fix cx C) (h : NP cx C q s) (hB : q.B ≤ SpillSlot.MAX) {b i idx : Nat} {o : Op}
    (hbr : cx.f.isBranch i = false) (hO : WorkableOps cx C i) (hm : o ∈ cx.f.operands i) (hk : o.kind = .Def) (hp : ¬ q.P o.vreg.vreg) :
    Safe (allocDef cx s b i o idx) (fun s' => ∃ a, NP cx C { q with P := fun w => q.P w ∨ w = o.vreg.vreg, AL := setAL q.AL i idx a, LV := fun _ => False, NV := fun _ => False } s' ∧
      ((∃ j, o.constraint = .Reuse j) → a.asReg.isSome = true)) := by
  have hna := hO.defs o hm hk
  have hkn : Known cx C o.vreg := hO.regs o hm hna
  have hd : Safe (defOperand cx s b i o idx) (fun s' => ∃ a,
      NP cx C { q with AL := setAL q.AL i idx a, LV := fun w => w = o.vreg.vreg, NV := fun _ => False } s' ∧
      ((∃ j, o.constraint = .Reuse j) → a.asReg.isSome = true)) := by
    have conv : ∀ o' : Op, o'.vreg = o.vreg → o'.asFixedNonallocatable = none → ∀ a t, NP cx C (q.after o' i idx a) t →
        NP cx C { q with AL := setAL q.AL i idx a, LV := fun w => w = o.vreg.vreg, NV := fun _ => False } t := by
      intro o' e1 e2 a t ht
      exact ht.rebase q.SL ht.sl _ (fun v hv => ht.lv v ⟨e2, by rw [e1]; exact hv⟩) _ (fun _ h => h.elim)
    unfold defOperand
    split
    · rename_i j hj
      obtain ⟨_, oj, e1, e2, _, e4⟩ := hO.reuse o hm j hj
      rw [e1]
      have hna' : (⟨o.vreg, oj.constraint, .Def, .Early⟩ : Op).asFixedNonallocatable = none := by
        unfold Op.asFixedNonallocatable
        dsimp only
        split
        · rw [if_neg]
          have := hkn.2
          have := F.vregs
          omega
        · rfl
      refine (processOperand_safe (o := ⟨o.vreg, oj.constraint, .Def, .Early⟩) F h hB (fun _ => ⟨hkn, hp⟩) ?_ ?_).mono ?_
      · intro n e
        rcases e4 with e4 | ⟨p, e4⟩ <;> · dsimp only at e; rw [e4] at e; cases e
      · intro n e
        rcases e4 with e4 | ⟨p, e4⟩ <;> · dsimp only at e; rw [e4] at e; cases e
      · rintro t ⟨a, h1, h2⟩
        exact ⟨a, conv ⟨o.vreg, oj.constraint, .Def, .Early⟩ rfl hna' a t h1, fun _ => h2 e4⟩
    · rename_i hnr
      rw [hbr]
      simp only [Bool.false_and, Bool.false_eq_true, if_false]
      refine (processOperand_safe F h hB (fun _ => ⟨hkn, hp⟩) (hO.limits o hm) (fun j e => hnr j e)).mono ?_
      rintro t ⟨a, h1, _⟩
      exact ⟨a, conv _ rfl hna a t h1, fun ⟨j, e⟩ => absurd e (hnr j)⟩
  unfold allocDef
  split
  · exact hd.err ‹_›
  · rename_i t ht
    obtain ⟨a, k1, k2⟩ := hd.2 _ ht
    have hst : Safe (storeDef cx t i o.vreg) (fun s' =>
        NP cx C { q with AL := setAL q.AL i idx a, LV := fun w => w = o.vreg.vreg, NV := fun _ => False } s') := by
      unfold storeDef
      split
      · exact Safe.ok k1
      · split
        · exact (addMove_safe F k1 hB hkn).mono (fun _ h => h.1)
        · exact Safe.ok k1
    split
    · exact hst.err ‹_›
    · rename_i t' ht'
      have k3 := hst.2 _ ht'
      refine (freealloc_safe k3 (k3.lv _ rfl) hp (fun _ h => h)).mono ?_
      rintro u ⟨hu, _⟩
      exact ⟨a, hu.plain, k2⟩

theorem allocUse_safe (F : Fix cx C) (h : NP cx C q s) (hB : q.B ≤ SpillSlot.MAX) {i idx : Nat} {o : Op}
    (hO : WorkableOps cx C i) (hm : o ∈ cx.f.operands i) (hk : o.kind = .Use) (hp : o.asFixedNonallocatable = none → ¬ q.P o.vreg.vreg)
    (hre : ∀ k, q.RE idx = some k → (q.AL i k).asReg.isSome = true) :
    Safe (allocUse cx s i o idx) (fun s' => ∃ a, NP cx C { q with AL := setAL q.AL i idx a, LV := fun _ => False, NV := fun _ => False } s') := by
  unfold allocUse
  rw [h.re, h.al]
  split
  · rename_i k hk'
    have h1 := hre k hk'
    have h2 : ∀ p, (⟨o.vreg, .FixedReg p, o.kind, o.pos⟩ : Op).asFixedNonallocatable = none → o.asFixedNonallocatable = none := by
      intro p hp'
      unfold Op.asFixedNonallocatable at hp' ⊢
      dsimp only at hp'
      split at hp'
      · cases hp'
      · rename_i hne
        split
        · rw [if_neg hne]
        · rfl
    split
    · rename_i e; rw [e] at h1; cases h1
    · rename_i p e
      refine (processOperand_safe (o := { o with constraint := .FixedReg p }) F h hB (fun e => ⟨hO.regs o hm (h2 p e), hp (h2 p e)⟩) (fun n e => by cases e) (fun n e => by cases e)).mono ?_
      rintro t ⟨a, h1, _⟩
      exact ⟨a, h1.plain⟩
  · refine (processOperand_safe F h hB (fun hna => ⟨hO.regs o hm hna, hp hna⟩) (hO.limits o hm) (hO.uses o hm hk)).mono ?_
    rintro t ⟨a, h1, _⟩
    exact ⟨a, h1.plain⟩

end

end Fast
end Regalloc
