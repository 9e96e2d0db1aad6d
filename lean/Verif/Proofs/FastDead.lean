import Verif.Proofs.FastFit

/-
The single-pass allocator gives no location to registers that are not read, between their
definitions.
-/
namespace Regalloc
namespace Fast

/-- A value meets `Q`. -/
def Oks {α : Type} (r : R α) (Q : α → Prop) : Prop := ∀ a, r = .ok a → Q a

theorem Oks.ok {α : Type} {a : α} {Q : α → Prop} (h : Q a) : Oks (.ok a : R α) Q := fun b e => by cases e; exact h

theorem Oks.error {α : Type} {Q : α → Prop} {e : FErr} : Oks (.error e : R α) Q := fun b e => by cases e

theorem Oks.mono {α : Type} {r : R α} {Q Q' : α → Prop} (h : Oks r Q) (hq : ∀ a, Q a → Q' a) : Oks r Q' := fun a e => hq a (h a e)

theorem Oks.cons {α β : Type} {g : α → β → R α} {x : β} {l : List β} {a : α} {Q Q' : α → Prop} (h : Oks (g a x) Q)
    (hl : ∀ a', Q a' → Oks (l.foldlM g a') Q') : Oks ((x :: l).foldlM g a) Q' := by
  rw [List.foldlM_cons]
  dsimp only [bind, Except.bind]
  split
  · exact Oks.error
  · exact hl _ (h _ ‹_›)

theorem Oks.foldlM {α β : Type} {P : α → Prop} {g : α → β → R α} (l : List β) (hg : ∀ x ∈ l, ∀ a, P a → Oks (g a x) P) :
    ∀ {a : α}, P a → Oks (l.foldlM g a) P := by
  induction l with
  | nil => intro a h; exact Oks.ok h
  | cons x l ih =>
    intro a h
    exact Oks.cons (hg x (by simp) a h) (fun a' h' => ih (fun y hy => hg y (List.mem_cons_of_mem _ hy)) h')

/-- The registers in `D` are nowhere. -/
structure Dd (D : Nat → Prop) (s : FS) : Prop where
  gone : ∀ w, D w → s.alloc w = Allocation.none
  inp : ∀ p x, s.inPreg p = some x → ¬ D x.vreg
  slt : ∀ v n, s.slot v = some n → n < 2 ^ 29

section
variable {cx : Cx} {D : Nat → Prop} {s s' : FS}

theorem Dd.same (h : Dd D s) (h1 : s'.alloc = s.alloc) (h2 : s'.inPreg = s.inPreg) (h3 : s'.slot = s.slot) : Dd D s' :=
  ⟨by rw [h1]; exact h.gone, by rw [h2]; exact h.inp, by rw [h3]; exact h.slt⟩

theorem Dd.setAlloc (h : Dd D s) {v : Nat} (hv : ¬ D v) (a : Allocation) : Dd D { s with alloc := set1 s.alloc v a } := by
  refine ⟨fun w hw => ?_, h.inp, h.slt⟩
  have e : w ≠ v := by rintro rfl; exact hv hw
  show set1 s.alloc v a w = _
  rw [set1_ne _ _ e]
  exact h.gone w hw

theorem Dd.clearIn (h : Dd D s) (p : PReg) : Dd D { s with inPreg := set1 s.inPreg p none } := by
  refine ⟨h.gone, fun r x hx => ?_, h.slt⟩
  dsimp only at hx
  by_cases e : r = p
  · subst e; rw [set1_same] at hx; cases hx
  · rw [set1_ne _ _ e] at hx; exact h.inp r x hx

theorem Dd.setIn (h : Dd D s) (a : Allocation) (y : Option VReg) (hy : ∀ x, y = some x → ¬ D x.vreg) : Dd D (s.setIn a y) := by
  unfold FS.setIn
  split
  · rename_i p hp
    refine ⟨h.gone, fun r x hx => ?_, h.slt⟩
    dsimp only at hx
    by_cases e : r = p
    · subst e; rw [set1_same] at hx; exact hy x hx
    · rw [set1_ne _ _ e] at hx; exact h.inp r x hx
  · exact h

theorem getSpillslot_dead (h : Dd D s) (v : VReg) : Oks (getSpillslot cx s v) (fun r => Dd D r.2 ∧ r.2.alloc = s.alloc ∧ r.2.inPreg = s.inPreg ∧
    r.2.slot v.vreg = some r.1 ∧ r.1 < 2 ^ 29) := by
  unfold getSpillslot
  split
  · rename_i n hn
    exact Oks.ok ⟨h, rfl, rfl, hn, h.slt _ _ hn⟩
  · split
    · exact Oks.error
    · rename_i n k ha
      have hn : n < 2 ^ 29 := by
        unfold allocstack at ha
        split at ha
        · cases ha
        · split at ha
          · cases ha
          · rename_i hle
            have e := Except.ok.inj ha
            have e1 : slotAt cx.byLast (cx.size (vcls v)) s.numSlots = n := (Prod.mk.inj e).1
            have : SpillSlot.MAX < 2 ^ 29 := by decide
            omega
      refine Oks.ok ⟨⟨h.gone, h.inp, fun w m hm => ?_⟩, rfl, rfl, set1_same .., hn⟩
      dsimp only at hm
      by_cases e : w = v.vreg
      · subst e; rw [set1_same] at hm; cases hm; exact hn
      · rw [set1_ne _ _ e] at hm; exact h.slt w m hm

theorem toSlot_dead (h : Dd D s) {v : VReg} (hv : ¬ D v.vreg) : Oks (toSlot cx s v) (fun r => Dd D r.2 ∧ r.2.inPreg = s.inPreg) := by
  unfold toSlot
  split
  · exact Oks.error
  · rename_i n t e
    obtain ⟨k1, k2, k3, _⟩ := getSpillslot_dead h v _ e
    exact Oks.ok ⟨k1.setAlloc hv _, k3⟩

theorem evictPlain_dead (h : Dd D s) {i : Nat} {p : PReg} {pos : InstPosition} : Oks (evictPlain cx s i p pos) (Dd D) := by
  unfold evictPlain
  split
  · exact Oks.error
  · rename_i v hv
    split
    · exact Oks.error
    · rename_i e
      have k := toSlot_dead h (h.inp p v hv) _ e
      split
      · exact Oks.error
      · exact Oks.ok (k.1.same rfl rfl rfl)

theorem ensureScratch_dead (h : Dd D s) {i : Nat} {c : RegClass} {pos : InstPosition} : Oks (ensureScratch cx s i c pos) (Dd D) := by
  unfold ensureScratch
  split
  · exact Oks.ok h
  · split
    · exact Oks.error
    · rename_i t e
      have : Dd D t := by
        unfold allocScratch at e
        split at e
        · cases e
        · cases e
        · split at e
          · cases e
          · rename_i u hu
            have k : Dd D u := by
              split at hu
              · exact evictPlain_dead h _ hu
              · cases hu; exact h
            cases e
            exact k.same rfl rfl rfl
      exact Oks.ok (this.same rfl rfl rfl)

theorem addMove_dead (h : Dd D s) {i : Nat} {src dst : Allocation} {c : RegClass} {pos : InstPosition} : Oks (addMove cx s i src dst c pos) (Dd D) := by
  unfold addMove
  split
  · split
    · exact Oks.error
    · rename_i t e
      have k : Dd D t := ensureScratch_dead h _ e
      split
      · exact Oks.error
      · exact Oks.ok (k.same rfl rfl rfl)
  · exact Oks.ok (h.same rfl rfl rfl)

theorem evict_dead (h : Dd D s) {i : Nat} {p : PReg} {pos : InstPosition} : Oks (evict cx s i p pos) (Dd D) := by
  unfold evict
  split
  · exact Oks.error
  · rename_i v hv
    split
    · exact Oks.error
    · rename_i e
      exact addMove_dead (toSlot_dead h (h.inp p v hv) _ e).1

theorem poke_dead (h : Dd D s) {c : RegClass} {p : PReg} : Oks (poke s c p) (Dd D) := by
  unfold poke
  split
  · exact Oks.error
  · exact Oks.ok (h.same rfl rfl rfl)

theorem Dd.loses (h : Dd D s) {p : PReg} (hl : Loses p s s') : Dd D s' := by
  rw [hl.1]
  exact h.same rfl rfl rfl

theorem chooseAlloc_dead (h : Dd D s) {i : Nat} {o : Op} : Oks (chooseAlloc cx s i o) (fun r => Dd D r.2) := by
  have hs : Oks (slotAlloc cx s o.vreg) (fun r => Dd D r.2) := by
    unfold slotAlloc
    split
    · exact Oks.error
    · rename_i e
      exact Oks.ok (getSpillslot_dead h _ _ e).1
  have ha : Oks (allocReg cx s i o) (fun r => Dd D r.2) := by
    unfold allocReg
    split
    · exact Oks.error
    · rename_i p hp
      unfold takeReg
      split
      · exact Oks.error
      · rename_i t e
        have k : Dd D t := by
          split at e
          · exact evict_dead h _ e
          · cases e; exact h
        split
        · exact Oks.error
        · rename_i e2
          have k2 : Dd D _ := poke_dead k _ e2
          exact Oks.ok (k2.loses (Loses.occupy _ _ _))
  unfold chooseAlloc
  split
  · split
    · exact hs
    · split
      · rename_i e
        exact Oks.ok (ha _ e)
      · exact hs
      · exact Oks.error
  · split
    · exact Oks.error
    · rename_i e
      exact Oks.ok (Dd.same (ha _ e) rfl rfl rfl)
  · exact Oks.ok h
  · exact Oks.error
  · exact hs
  · exact Oks.error

theorem keepAlloc_dead (h : Dd D s) {i idx : Nat} {o : Op} : Oks (keepAlloc cx s i o idx) (Dd D) := by
  unfold keepAlloc
  dsimp only
  have h1 : Dd D (if o.constraint = .Reg then
      { s.setAllocs i idx (s.alloc o.vreg.vreg) with numAny := bump (s.setAllocs i idx (s.alloc o.vreg.vreg)).numAny (epos o) (vcls o.vreg) (-1) }
      else s.setAllocs i idx (s.alloc o.vreg.vreg)) := by
    split
    · exact h.same rfl rfl rfl
    · exact h.same rfl rfl rfl
  generalize (if o.constraint = .Reg then
      { s.setAllocs i idx (s.alloc o.vreg.vreg) with numAny := bump (s.setAllocs i idx (s.alloc o.vreg.vreg)).numAny (epos o) (vcls o.vreg) (-1) }
      else s.setAllocs i idx (s.alloc o.vreg.vreg)) = s1 at h1 ⊢
  split
  · exact Oks.ok h1
  · rename_i p hp
    split
    · exact Oks.error
    · rename_i t e
      have k : Dd D t := by
        split at e
        · exact poke_dead h1 _ e
        · cases e; exact h1
      split
      · exact Oks.ok (k.loses ((Loses.unavail _ _ _).trans (Loses.unavail _ _ _)))
      · exact Oks.ok (k.loses ((Loses.unavail _ _ _).trans (Loses.unavail _ _ _)))
      · exact Oks.ok (k.loses (Loses.unavail _ _ _))

theorem processOperand_dead (h : Dd D s) {i idx : Nat} {o : Op} (ho : o.asFixedNonallocatable = none → ¬ D o.vreg.vreg) :
    Oks (processOperand cx s i o idx) (Dd D) := by
  unfold processOperand
  split
  · exact Oks.ok (h.same rfl rfl rfl)
  · rename_i hna
    have hd := ho hna
    split
    · exact Oks.error
    · exact keepAlloc_dead h
    · dsimp only
      split
      · exact Oks.error
      · rename_i a t e
        have k : Dd D t := by
          unfold allocOperand at e
          split at e
          · cases e
          · rename_i e1
            cases e
            exact Dd.same (chooseAlloc_dead h _ e1) rfl rfl rfl
        split
        · unfold becomeLive
          split
          · exact Oks.error
          · rename_i live _
            refine Oks.ok (Dd.setIn ?_ _ _ (fun x hx => by cases hx; exact hd))
            exact Dd.same (k.setAlloc hd a) rfl rfl rfl
        · unfold relocate
          split
          · exact Oks.error
          · rename_i u e
            have k2 : Dd D u := by
              split at e
              · exact addMove_dead k _ e
              · cases e; exact k
            exact Oks.ok (k2.setIn _ _ (fun x hx => by cases hx))

theorem freealloc_dead (h : Dd D s) (v : VReg) : Oks (freealloc s v) (Dd D) := by
  unfold freealloc
  dsimp only
  split
  · exact Oks.error
  · split
    · exact Oks.error
    · refine Oks.ok ⟨fun w hw => ?_, fun p x hx => ?_, h.slt⟩
      · show set1 s.alloc v.vreg Allocation.none w = _
        by_cases e : w = v.vreg
        · subst e; exact set1_same ..
        · rw [set1_ne _ _ e]; exact h.gone w hw
      · dsimp only at hx
        cases hr : (s.alloc v.vreg).asReg with
        | none => rw [hr] at hx; exact h.inp p x hx
        | some r =>
          rw [hr] at hx
          dsimp only at hx
          by_cases e : p = r
          · subst e; rw [set1_same] at hx; cases hx
          · rw [set1_ne _ _ e] at hx; exact h.inp p x hx

theorem storeDef_dead (h : Dd D s) {i : Nat} {v : VReg} : Oks (storeDef cx s i v) (Dd D) := by
  unfold storeDef
  split
  · exact Oks.ok h
  · split
    · exact addMove_dead h
    · exact Oks.ok h

/-! ### A definition of a register in `D` -/

/-- The operand takes a slot and nothing else. -/
theorem processOperand_idle (h : Dd D s) {i idx : Nat} {o : Op} (hk : o.kind = .Def) (hc : o.constraint = .Any) (hd : D o.vreg.vreg) :
    processOperand cx s i o idx ≠ .error .tooMany ∧ Oks (processOperand cx s i o idx) (fun s' => ∃ n, n < 2 ^ 29 ∧ s'.slot o.vreg.vreg = some n ∧
      s'.alloc = set1 s.alloc o.vreg.vreg (stk n) ∧ s'.inPreg = s.inPreg ∧ (∀ v m, s'.slot v = some m → m < 2 ^ 29) ∧
      s'.lrus = s.lrus ∧ s'.scratch = s.scratch ∧ s'.availE = s.availE ∧ s'.availL = s.availL ∧ s'.reused = s.reused) := by
  have ha := h.gone _ hd
  have hna : o.asFixedNonallocatable = none := by unfold Op.asFixedNonallocatable; rw [hc]
  have hr : Allocation.none.asReg = none := by decide
  have hn : Allocation.none.isNone = true := by decide
  have hw : withinConstraint cx s i o = .ok false := by
    unfold withinConstraint
    dsimp only
    rw [hc, ha]
    dsimp only
    rw [hr]
    dsimp only
    rw [hn]; rfl
  have hch : chooseAlloc cx s i o = slotAlloc cx s o.vreg := by
    unfold chooseAlloc
    rw [hc]
    dsimp only
    rw [if_pos (.inl ⟨hk, ha⟩)]
  unfold processOperand
  rw [hna]
  dsimp only
  rw [hw]
  dsimp only
  unfold allocOperand
  rw [hch]
  unfold slotAlloc
  have hg := getSpillslot_dead (cx := cx) h o.vreg
  have hf := getSpillslot_fit cx s o.vreg
  cases e : getSpillslot cx s o.vreg with
  | error x =>
    cases x with
    | panic => exact ⟨by simp, fun a e => by cases e⟩
    | tooMany => exact absurd e hf.1
  | ok r =>
    obtain ⟨n, t⟩ := r
    obtain ⟨k1, k2, k3, k4, k5⟩ := hg _ e
    have k6 := hf.2 _ e
    dsimp only at k1 k2 k3 k4 k5 k6 ⊢
    rw [ha, if_pos hn]
    unfold becomeLive
    split
    · exact ⟨by simp, fun a e => by cases e⟩
    · unfold FS.setIn
      rw [asReg_stk k5]
      dsimp only
      refine ⟨by simp, Oks.ok ⟨n, k5, k4, ?_, k3, k1.slt, ?_, ?_, ?_, ?_, ?_⟩⟩
      · show set1 t.alloc _ _ = _
        rw [k2]
      all_goals rw [k6]; rfl

/-- Afterwards the register is nowhere again. -/
theorem allocDef_idle {C : Nat → VReg} {F : PReg → Bool} {RR : Nat → Prop} {k : Nat} (hR : Rm cx C F RR k s) (h : Dd D s) {b i idx : Nat} {o : Op}
    (hbr : cx.f.isBranch i = true → ∀ o ∈ cx.f.operands i, o.kind = .Use) (ho : o ∈ cx.f.operands i)
    (hk : o.kind = .Def) (hc : o.constraint = .Any) (hd : D o.vreg.vreg) :
    Fit (allocDef cx s b i o idx) (fun s' => Rm cx C F RR k s' ∧ Dd D s') := by
  have hnb : cx.f.isBranch i = false := by
    rw [← Bool.not_eq_true]
    intro hb
    have := hbr hb o ho
    rw [hk] at this
    cases this
  have hdef : defOperand cx s b i o idx = processOperand cx s i o idx := by
    unfold defOperand
    rw [hc, hnb]
    dsimp only
    rw [Bool.false_and, if_neg (by simp)]
  obtain ⟨h1, h2⟩ := processOperand_idle (cx := cx) (i := i) (idx := idx) h hk hc hd
  unfold allocDef
  rw [hdef]
  cases e : processOperand cx s i o idx with
  | error x =>
    cases x with
    | panic => exact Fit.panic
    | tooMany => exact absurd e h1
  | ok t =>
    obtain ⟨n, k1, k2, k3, k4, k5, k6, k7, k8, k9, k10⟩ := h2 _ e
    dsimp only
    have hst : storeDef cx t i o.vreg = .ok t := by
      unfold storeDef
      rw [k2]
      dsimp only
      rw [k3, set1_same, if_neg (by simp)]
    rw [hst]
    dsimp only
    unfold freealloc
    dsimp only
    split
    · exact Fit.panic
    · split
      · exact Fit.panic
      · rw [k3, set1_same, asReg_stk k1]
        dsimp only
        refine Fit.ok ⟨hR.same k6 k7 k8 k9 k4 k10, ⟨fun w hw => ?_, ?_, k5⟩⟩
        · show set1 (set1 s.alloc o.vreg.vreg (stk n)) o.vreg.vreg Allocation.none w = _
          by_cases e : w = o.vreg.vreg
          · subst e; exact set1_same ..
          · rw [set1_ne _ _ e, set1_ne _ _ e]; exact h.gone w hw
        · dsimp only
          rw [k4]
          exact h.inp

/-- The other operands. -/
theorem allocOp_dead (h : Dd D s) {b i : Nat} (hbr : cx.f.isBranch i = true → ∀ o ∈ cx.f.operands i, o.kind = .Use) {x : Nat × Op}
    (hx : x.2 ∈ cx.f.operands i) (hdef : x.2.kind = .Def → x.2.asFixedNonallocatable = none) (hd : x.2.asFixedNonallocatable = none → ¬ D x.2.vreg.vreg) :
    Oks (allocOp cx b i s x) (Dd D) := by
  obtain ⟨idx, o⟩ := x
  dsimp only at hx hdef hd
  unfold allocOp
  dsimp only
  split
  · rename_i hk
    have hd' := hd (hdef hk)
    unfold allocDef
    split
    · exact Oks.error
    · rename_i t e
      have k1 : Dd D t := by
        unfold defOperand at e
        split at e
        · split at e
          · cases e
          · rename_i ro _
            exact processOperand_dead (o := ⟨o.vreg, ro.constraint, .Def, .Early⟩) h (fun _ => hd') _ e
        · split at e
          · rename_i hb
            rw [Bool.and_eq_true] at hb
            have := hbr hb.1 o hx
            rw [hk] at this
            cases this
          · exact processOperand_dead h (fun _ => hd') _ e
      split
      · exact Oks.error
      · rename_i e2
        exact freealloc_dead (storeDef_dead k1 _ e2) _
  · unfold allocUse
    split
    · split
      · exact Oks.error
      · rename_i p hp
        refine processOperand_dead h (fun hna => ?_)
        by_cases hn : o.asFixedNonallocatable = none
        · exact hd hn
        · exfalso
          unfold Op.asFixedNonallocatable at hn hna
          dsimp only at hna
          split at hn
          · rename_i q hq
            split at hn
            · rename_i hm
              rw [if_pos hm] at hna
              cases hna
            · exact hn rfl
          · exact hn rfl
    · exact processOperand_dead h hd

/-! ### Instructions -/

theorem useMoves_dead (h : Dd D s) {i : Nat} : Oks ((cx.opsOf i).foldlM (useMove cx i) s) (Dd D) := by
  refine Oks.foldlM _ (fun x _ t ht => ?_) h
  unfold useMove
  dsimp only
  split
  · exact Oks.ok ht
  · split
    · exact addMove_dead ht
    · exact Oks.ok ht

theorem processBranch_dead (h : Dd D s) {b i : Nat} (hK : ∀ x ∈ branchPairs cx.f b i, ¬ D x.1.vreg) : Oks (processBranch cx s b i) (Dd D) := by
  unfold processBranch
  split
  · exact Oks.error
  · rename_i s1 pm e1
    have h1 : Oks ((branchPairs cx.f b i).foldlM (branchArg cx i) (s, fun _ => [])) (fun st => Dd D st.1) := by
      refine Oks.foldlM (P := fun st : FS × PMoves => Dd D st.1) _ (fun x hx st ht => ?_) h
      obtain ⟨t, pm⟩ := st
      obtain ⟨v, p?⟩ := x
      have hv := hK _ hx
      dsimp only at ht hv
      unfold branchArg
      dsimp only
      split
      · exact Oks.ok ht
      · split
        · exact Oks.error
        · split
          · exact Oks.error
          · rename_i e1
            have k1 := (getSpillslot_dead ht _ _ e1).1
            split
            · exact Oks.error
            · rename_i nv t2 e2
              have k2 := (getSpillslot_dead k1 _ _ e2).1
              dsimp only at k2
              split
              · exact Oks.error
              · rename_i u e3
                have k3 : Dd D u := by
                  unfold argToSlot at e3
                  dsimp only at e3
                  split at e3
                  · split at e3
                    · cases e3
                    · cases e3
                      exact Dd.same (k2.setAlloc hv (stk nv)) rfl rfl rfl
                  · split at e3
                    · cases e3
                    · rename_i w e4
                      have k4 : Dd D w := by
                        split at e4
                        · exact addMove_dead k2 _ e4
                        · cases e4; exact k2
                      cases e3
                      exact k4.setAlloc hv _
                exact Oks.ok k3
    have k1 : Dd D s1 := h1 _ e1
    split
    · exact Oks.error
    · rename_i s2 _ e2
      have h2 : Oks ([RegClass.Int, .Float, .Vector].foldlM (resolveClass cx i pm) (s1, s1.availE.intersectFrom s1.availL)) (fun st => Dd D st.1) := by
        refine Oks.foldlM (P := fun st : FS × PRegSet => Dd D st.1) _ (fun c _ st ht => ?_) k1
        unfold resolveClass
        dsimp only
        split
        · exact Oks.error
        · split
          · exact Oks.error
          · split
            · exact Oks.error
            · exact Oks.ok (Dd.same ht rfl rfl rfl)
      exact Oks.ok (h2 _ e2)

theorem instSetup_dead (h : Dd D s) {i : Nat} : Oks (instSetup cx s i) (fun st => Dd D st.1) := by
  unfold instSetup
  split
  · exact Oks.error
  · rename_i s1 e1
    have h1 : Oks ((cx.opsOf i).foldlM (countOp cx i) (reset cx s)) (Dd D) := by
      refine Oks.foldlM _ (fun x _ t ht => ?_) (h.same rfl rfl rfl)
      unfold countOp
      dsimp only
      split
      · split
        · exact Oks.error
        · split
          · exact Oks.ok (ht.same rfl rfl rfl)
          · exact Oks.ok (ht.same rfl rfl rfl)
      · exact Oks.ok (ht.same rfl rfl rfl)
      · exact Oks.ok ht
    have k1 : Dd D s1 := h1 _ e1
    split
    · exact Oks.error
    · rename_i s2 seen nc e2
      have h2 : Oks ((fixedOps cx i).foldlM (reserveFixed cx i) (s1, PRegSet.empty, 0)) (fun st => Dd D st.1) := by
        refine Oks.foldlM (P := fun st : FS × PRegSet × Nat => Dd D st.1) _ (fun x _ st ht => ?_) k1
        obtain ⟨t, seen, nc⟩ := st
        dsimp only at ht
        unfold reserveFixed
        dsimp only
        split
        · exact Oks.error
        · rename_i u e
          have k : Dd D u := by
            unfold reserve at e
            dsimp only at e
            split at e
            · split at e
              · cases e
              · split at e
                · split at e
                  · cases e
                  · cases e; exact ht.same rfl rfl rfl
                · cases e; exact ht.same rfl rfl rfl
            · split at e
              · cases e
              · cases e; exact ht.same rfl rfl rfl
            · split at e
              · cases e
              · cases e; exact ht.same rfl rfl rfl
          split
          · exact Oks.ok k
          · split
            · split
              · exact Oks.error
              · rename_i e3
                exact Oks.ok (Dd.same (poke_dead k _ e3) rfl rfl rfl)
            · exact Oks.ok k
      have k2 : Dd D s2 := h2 _ e2
      exact Oks.ok (k2.same rfl rfl rfl)

theorem instEvict_dead (h : Dd D s) {i nc : Nat} : Oks (instEvict cx s nc i) (Dd D) := by
  unfold instEvict
  split
  · exact Oks.error
  · rename_i s1 e1
    have h1 : Oks ((fixedOps cx i).foldlM (evictFixed cx i) s) (Dd D) := by
      refine Oks.foldlM _ (fun x _ t ht => ?_) h
      unfold evictFixed
      dsimp only
      split
      · exact Oks.ok ht
      · split
        · exact Oks.ok ht
        · split
          · exact Oks.error
          · rename_i e
            exact Oks.ok (Dd.clearIn (evict_dead ht _ e) _)
    have k1 : Dd D s1 := h1 _ e1
    split
    · exact Oks.error
    · rename_i s2 _ e2
      have h2 : Oks ((cx.clob i).toList.foldlM (evictClobber cx i) (s1, nc)) (fun st => Dd D st.1) := by
        refine Oks.foldlM (P := fun st : FS × Nat => Dd D st.1) _ (fun p _ st ht => ?_) k1
        unfold evictClobber
        split
        · exact Oks.error
        · rename_i t e
          have k : Dd D t := by
            unfold evictClobber1 at e
            split at e
            · cases e; exact ht
            · split at e
              · cases e
              · rename_i e'
                cases e
                exact Dd.clearIn (evict_dead ht _ e') _
          split
          · split
            · exact Oks.ok (Dd.same k rfl rfl rfl)
            · exact Oks.ok k
          · exact Oks.ok k
      exact Oks.ok (h2 _ e2)

/-! ### Block boundaries -/

theorem reloadParam_dead (h : Dd D s) {b : Nat} {v : VReg} : Oks (reloadParam cx b s v) (Dd D) := by
  unfold reloadParam
  dsimp only
  split
  · exact Oks.ok h
  · split
    · exact Oks.error
    · rename_i e1
      have k1 := (getSpillslot_dead h _ _ e1).1
      split
      · exact Oks.error
      · rename_i e2
        have k2 : Dd D _ := freealloc_dead k1 _ _ e2
        split
        · exact Oks.ok k2
        · exact addMove_dead k2

theorem reloadLive_dead (h : Dd D s) {b : Nat} {v : VReg} (hv : ¬ D v.vreg) : Oks (reloadLive cx b s v) (Dd D) := by
  unfold reloadLive
  dsimp only
  split
  · exact Oks.error
  · rename_i n t e1
    have k1 := (getSpillslot_dead h _ _ e1).1
    dsimp only at k1
    have k3 : Dd D (FS.setIn { t with alloc := set1 t.alloc v.vreg (stk n) } (s.alloc v.vreg) none) :=
      (k1.setAlloc hv _).setIn _ _ (fun x hx => by cases hx)
    split
    · exact Oks.ok k3
    · exact addMove_dead k3

end

end Fast
end Regalloc
