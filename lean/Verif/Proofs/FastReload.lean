import Verif.Proofs.FastSlots

/-
Single-pass allocator: the reloads at the start of a block.
-/
namespace Regalloc
namespace Fast
open Exec

variable {cx : Cx} {C : Nat → VReg} {P : Nat → Prop}

theorem Inv.congrP {P' : Nat → Prop} {s : FS} (I : Inv cx C P s) (h : ∀ w, P' w ↔ P w) : Inv cx C P' s := by
  have : P' = P := funext fun w => propext (h w)
  rw [this]; exact I

theorem Inv.growP {P' : Nat → Prop} {s : FS} (I : Inv cx C P s) {v : Nat} (hP' : ∀ w, P' w ↔ P w ∨ w = v)
    (hv : ∀ p, s.alloc v ≠ Allocation.reg p) : Inv cx C P' s := by
  refine ⟨I.alloc, I.inAvail, I.inReg, fun p x h => (I.inLive p x h).imp_right fun h => (hP' _).mpr (.inl h), ?_,
    I.inC, I.inCls, I.slotLt, I.slotInj, I.numLe, ?_, I.lru⟩
  · intro w hw p
    rcases (hP' w).mp hw with h | rfl
    · exact I.noReg w h p
    · exact hv p
  · obtain ⟨l, h1, h2, h3⟩ := I.live
    exact ⟨l, h1, h2, fun w hw => (h3 w hw).imp_right fun h => (hP' _).mpr (.inl h)⟩

theorem reset_inv {s : FS} (I : Inv cx C P s) : Inv cx C P (reset cx s) := I.of_eq rfl rfl rfl rfl rfl I.lru

theorem reset_scr (he : EnvOk cx) {s : FS} (I : Inv cx C P s) : ScrOk cx (reset cx s) := by
  intro c r hr
  have hr : cx.env.scratch c = some r := hr
  have hi := he.scratch_init hr
  refine ⟨hi, hi, ?_, fun w hw => hi (I.inAvail w r hw)⟩
  exact he.scratch_stack hr

/-- What reloading leaves alone, and how it fits the semantics. -/
structure Rld (lo : Nat) (s s' : FS) (gone : Nat → Prop) : Prop where
  slot : ∀ v n, s.slot v = some n → s'.slot v = some n
  allocs : s'.allocs = s.allocs
  reused : s'.reused = s.reused
  alloc : ∀ w, s'.alloc w = s.alloc w ∨ (∃ n, s'.slot w = some n ∧ s'.alloc w = stk n) ∨ (gone w ∧ s'.alloc w = Allocation.none)
  tr : ∃ E : List Edit, s'.edits = E.map (fun e => (pt lo .Before, e)) ++ s.edits ∧
    ∀ {Val : Type} (F : Nat → Option Nat) (L : Nat → Prop) (V : Nat → Val) (A : Allocation → Val), FOk F s' →
      Sat F s' L L (fun _ _ => False) V A → Sat F s L L (fun _ _ => False) V (execE E A)

theorem Rld.refl {lo : Nat} {s : FS} {g : Nat → Prop} : Rld lo s s g :=
  ⟨fun _ _ h => h, rfl, rfl, fun _ => .inl rfl, [], rfl, fun _ _ _ _ _ h => h⟩

theorem Rld.trans {lo : Nat} {s1 s2 s3 : FS} {g1 g2 g : Nat → Prop} (h1 : Rld lo s1 s2 g1) (h2 : Rld lo s2 s3 g2)
    (hg1 : ∀ w, g1 w → g w) (hg2 : ∀ w, g2 w → g w) : Rld lo s1 s3 g := by
  refine ⟨fun v n h => h2.slot v n (h1.slot v n h), by rw [h2.allocs, h1.allocs], by rw [h2.reused, h1.reused], ?_, ?_⟩
  · intro w
    rcases h2.alloc w with e | e | ⟨e1, e2⟩
    · rw [e]
      rcases h1.alloc w with e' | ⟨n, e1, e2⟩ | ⟨e1, e2⟩
      · exact .inl e'
      · exact .inr (.inl ⟨n, h2.slot _ _ e1, e2⟩)
      · exact .inr (.inr ⟨hg1 w e1, e2⟩)
    · exact .inr (.inl e)
    · exact .inr (.inr ⟨hg2 w e1, e2⟩)
  · obtain ⟨E1, a1, b1⟩ := h1.tr
    obtain ⟨E2, a2, b2⟩ := h2.tr
    refine ⟨E2 ++ E1, by rw [a2, a1, List.map_append, List.append_assoc], ?_⟩
    intro Val F L V A hF hS
    rw [execE_append]
    exact b1 F L V _ (hF.of_mono h2.slot) (b2 F L V A hF hS)

theorem Rld.mono {lo : Nat} {s s' : FS} {g : Nat → Prop} (h : Rld lo s s' g) (I : Inv cx C P s') {w : Nat}
    (hw : s.alloc w ≠ Allocation.none) : s'.alloc w ≠ Allocation.none ∨ g w := by
  rcases h.alloc w with e | ⟨n, e1, e2⟩ | ⟨e1, _⟩
  · rw [e]; exact .inl hw
  · rw [e2]; exact .inl (stk_ne_none (I.slot29 e1))
  · exact .inr e1

/-- Filling register `p` from the slot of `v`, which it used to hold. -/
theorem refill (he : EnvOk cx) {lo : Nat} {s t s' : FS} {v : VReg} {n : Nat} {p : PReg} {c : RegClass} {g : Nat → Prop}
    (I : Inv cx C P t) (S : ScrOk cx t) (hs : t.slot v.vreg = some n) (hp : s.alloc v.vreg = Allocation.reg p)
    (hsl : ∀ w m, s.slot w = some m → t.slot w = some m)
    (hno : ∀ w, t.alloc w ≠ Allocation.reg p) (hal : ∀ w, w ≠ v.vreg → t.alloc w = s.alloc w)
    (hv : t.alloc v.vreg = stk n ∨ (g v.vreg ∧ t.alloc v.vreg = Allocation.none))
    (ha : t.allocs = s.allocs) (hr : t.reused = s.reused) (he' : t.edits = s.edits)
    (h : addMove cx t lo (stk n) (Allocation.reg p) c .Before = .ok s') :
    Inv cx C P s' ∧ ScrOk cx s' ∧ Rld lo s s' g ∧ Fr t s' := by
  obtain ⟨I', S', fr, _, hch, E, hE, hM⟩ := addMove_spec he h I S (fun _ _ => .inl ⟨p, rfl⟩)
  refine ⟨I', S', ⟨fun w m hw => fr.slot w m (hsl w m hw), by rw [fr.allocs, ha], by rw [fr.reused, hr], ?_, E,
    by rw [hE, he'], ?_⟩, fr⟩
  · intro w
    rcases fr.alloc w with e | ⟨_, m, e1, e2⟩
    · rw [e]
      by_cases ew : w = v.vreg
      · subst ew
        rcases hv with e' | ⟨e1, e2⟩
        · exact .inr (.inl ⟨n, fr.slot _ _ hs, e'⟩)
        · exact .inr (.inr ⟨e1, e2⟩)
      · exact .inl (hal w ew)
    · exact .inr (.inl ⟨m, e1, e2⟩)
  · intro Val F L V A hF hS
    have hFt := hF.of_mono fr.slot
    have h29 := I.slot29 hs
    obtain ⟨k1, k2⟩ := hM F L L (fun _ _ => False) V A hF hS (fun _ _ h => h.elim)
      (fun w _ hw => absurd hw (hno w)) (fun w m _ hm hx => absurd hx.symm (reg_ne_stk (hF.lt w m hm)))
      (fun _ _ h => h.elim)
    refine ⟨?_, k1.slot, k1.extra⟩
    intro w hw hn
    by_cases ew : w = v.vreg
    · subst ew
      rw [hp, k2]
      exact hS.slot _ _ hw (hFt.ext _ _ hs)
    · rw [← hal w ew] at hn ⊢
      exact k1.here w hw hn

theorem reloadParam_spec (he : EnvOk cx) {b : Nat} {s s' : FS} {v : VReg} {P' : Nat → Prop} (I : Inv cx C P s)
    (S : ScrOk cx s) (hnP : ¬ P v.vreg) (hP' : ∀ w, P' w ↔ P w ∨ w = v.vreg) (h : reloadParam cx b s v = .ok s') :
    Inv cx C P' s' ∧ ScrOk cx s' ∧ Rld (cx.f.insns b).1 s s' (fun w => w = v.vreg) ∧
      (s.alloc v.vreg ≠ Allocation.none → ∃ n, s'.slot v.vreg = some n) := by
  unfold reloadParam at h
  dsimp only at h
  split at h
  · next hn =>
    have h := Except.ok.inj h
    subst h
    exact ⟨I.growP hP' (by rw [hn]; exact fun p e => reg_ne_none _ e.symm), S, Rld.refl, fun h => absurd hn h⟩
  · next hn =>
    split at h
    · cases h
    · next n s1 h1 =>
      obtain ⟨I1, hs1, e1, hm1, hw1⟩ := getSpillslot_spec he h1 I
      have S1 : ScrOk cx s1 := S.mono (by rw [e1]) (by rw [e1]; exact fun _ h => h) (by rw [e1]; exact fun _ h => h)
        (by rw [e1]; exact fun _ _ h => h)
      have ea1 : s1.alloc = s.alloc := by rw [e1]
      split at h
      · cases h
      · next s2 h2 =>
        obtain ⟨I2, S2, _, ea2, ep1, ep2, e2⟩ := freealloc_spec I1 S1 hnP hP' h2
        have es2 : s2.slot = s1.slot := by rw [e2]
        have hnone : s2.alloc v.vreg = Allocation.none := by rw [ea2, set1_same]
        have hother : ∀ w, w ≠ v.vreg → s2.alloc w = s.alloc w := fun w hw => by rw [ea2, set1_ne _ _ hw, ea1]
        split at h
        · next hx =>
          have h := Except.ok.inj h
          subst h
          refine ⟨I2, S2, ⟨fun w m hw => by rw [es2]; exact hm1 w m hw, by rw [e2, e1], by rw [e2, e1], ?_, [],
            by rw [e2, e1]; rfl, ?_⟩, fun _ => ⟨n, by rw [es2]; exact hs1⟩⟩
          · intro w
            by_cases ew : w = v.vreg
            · subst ew; exact .inr (.inr ⟨rfl, hnone⟩)
            · exact .inl (hother w ew)
          · intro Val F L V A hF hS
            refine ⟨?_, hS.slot, hS.extra⟩
            intro w hw hn'
            by_cases ew : w = v.vreg
            · subst ew
              rw [← hx]
              exact hS.slot _ _ hw (hF.ext _ _ (by rw [es2]; exact hs1))
            · rw [← hother w ew] at hn' ⊢
              exact hS.here w hw hn'
        · next hx =>
          obtain ⟨p, hp⟩ : ∃ p, s.alloc v.vreg = Allocation.reg p := by
            have := I1.alloc v.vreg
            rw [ea1, hs1] at this
            rcases this with h' | ⟨q, x, h', _⟩ | ⟨m, hm, h'⟩
            · exact absurd h' hn
            · exact ⟨q, h'⟩
            · cases hm; exact absurd h'.symm hx
          rw [hp] at h
          have r := refill (g := fun w => w = v.vreg) he I2 S2 (by rw [es2]; exact hs1) hp
            (fun w m hw => by rw [es2]; exact hm1 w m hw) ?_ hother (.inr ⟨rfl, hnone⟩) (by rw [e2, e1]) (by rw [e2, e1])
            (by rw [e2, e1]) h
          · exact ⟨r.1, r.2.1, r.2.2.1, fun _ => ⟨n, r.2.2.2.slot _ _ (by rw [es2]; exact hs1)⟩⟩
          · intro w hw
            by_cases ew : w = v.vreg
            · subst ew; rw [hnone] at hw; exact reg_ne_none _ hw.symm
            · rw [hother w ew] at hw
              exact ew (I.reg_uniq hw hp)

theorem reloadLive_spec (he : EnvOk cx) {b : Nat} {s s' : FS} {v : VReg} (I : Inv cx C P s) (S : ScrOk cx s)
    (hn : s.alloc v.vreg ≠ Allocation.none) (h : reloadLive cx b s v = .ok s') :
    Inv cx C P s' ∧ ScrOk cx s' ∧ Rld (cx.f.insns b).1 s s' (fun _ => False) ∧
      ∃ n, s'.slot v.vreg = some n ∧ s'.alloc v.vreg = stk n := by
  unfold reloadLive at h
  dsimp only at h
  split at h
  · cases h
  · next n s1 h1 =>
    obtain ⟨I1, hs1, e1, hm1, hw1⟩ := getSpillslot_spec he h1 I
    have ea1 : s1.alloc = s.alloc := by rw [e1]
    have h29 := I1.slot29 hs1
    have S1 : ScrOk cx s1 := S.mono (by rw [e1]) (by rw [e1]; exact fun _ h => h) (by rw [e1]; exact fun _ h => h)
      (by rw [e1]; exact fun _ _ h => h)
    by_cases hx : stk n = s.alloc v.vreg
    · rw [if_pos hx] at h
      have h := Except.ok.inj h
      have hset : FS.setIn { s1 with alloc := set1 s1.alloc v.vreg (stk n) } (s.alloc v.vreg) none = s1 := by
        rw [← hx]
        have : set1 s1.alloc v.vreg (stk n) = s1.alloc := by
          funext w
          by_cases e : w = v.vreg
          · subst e; rw [set1_same, ea1, hx]
          · rw [set1_ne _ _ e]
        rw [this]
        unfold FS.setIn
        rw [asReg_stk h29]
      rw [hset] at h
      subst h
      refine ⟨I1, S1, ⟨hm1, by rw [e1], by rw [e1], fun w => .inl (by rw [ea1]), [], by rw [e1]; rfl, ?_⟩, n, hs1, by rw [ea1, hx]⟩
      intro Val F L V A hF hS
      exact hS.of_eq ea1.symm
    · rw [if_neg hx] at h
      obtain ⟨p, hp⟩ : ∃ p, s.alloc v.vreg = Allocation.reg p := by
        have := I1.alloc v.vreg
        rw [ea1, hs1] at this
        rcases this with h' | ⟨q, x, h', _⟩ | ⟨m, hm, h'⟩
        · exact absurd h' hn
        · exact ⟨q, h'⟩
        · cases hm; exact absurd h'.symm hx
      rw [hp] at h
      generalize ht : FS.setIn { s1 with alloc := set1 s1.alloc v.vreg (stk n) } (Allocation.reg p) none = t at h
      unfold FS.setIn at ht
      rw [asReg_reg] at ht
      dsimp only at ht
      have hat : t.alloc = set1 s.alloc v.vreg (stk n) := by rw [← ht, ea1]
      have hvt : t.alloc v.vreg = stk n := by rw [hat, set1_same]
      have hot : ∀ w, w ≠ v.vreg → t.alloc w = s.alloc w := fun w hw => by rw [hat, set1_ne _ _ hw]
      have hst : t.slot = s1.slot := by rw [← ht]
      have hno : ∀ w, set1 s1.alloc v.vreg (stk n) w ≠ Allocation.reg p := by
        intro w hw
        by_cases ew : w = v.vreg
        · subst ew; rw [set1_same] at hw; exact reg_ne_stk h29 hw.symm
        · rw [set1_ne _ _ ew, ea1] at hw
          exact ew (I.reg_uniq hw hp)
      have hIa := I1.setStk hs1 (by rw [ea1]; exact hn) rfl
      have hIt : Inv cx C P t := by
        rw [← ht]
        exact hIa.clearIn hno
      have hSt : ScrOk cx t := by
        refine S1.mono (by rw [← ht]) (by rw [← ht]; exact fun _ h => h) (by rw [← ht]; exact fun _ h => h) ?_
        intro w r hw
        by_cases ew : w = v.vreg
        · subst ew; rw [hvt] at hw; exact absurd hw.symm (reg_ne_stk h29)
        · rw [hot w ew] at hw; rw [ea1]; exact hw
      obtain ⟨I', S', R', fr⟩ := refill (g := fun _ => False) he hIt hSt (by rw [hst]; exact hs1) hp
        (fun w m hw => by rw [hst]; exact hm1 w m hw) (by rw [hat, ← ea1]; exact hno) hot (.inl hvt)
        (by rw [← ht, e1]) (by rw [← ht, e1]) (by rw [← ht, e1]) h
      refine ⟨I', S', R', ?_⟩
      rcases fr.alloc v.vreg with e | ⟨_, m, e1', e2'⟩
      · exact ⟨n, fr.slot _ _ (by rw [hst]; exact hs1), by rw [e, hvt]⟩
      · exact ⟨m, e1', e2'⟩

theorem branchDefReg_none {b : Nat} {v : VReg} {ops : List Op} (h : ∀ o ∈ ops, o.kind = .Use) :
    branchDefReg cx.f b v ops = .ok none := by
  induction ops with
  | nil => rfl
  | cons o os ih =>
    unfold branchDefReg
    rw [if_neg (by rw [h o (by simp)]; rintro ⟨e, _⟩; cases e)]
    exact ih (fun o' ho' => h o' (by simp [ho']))

theorem foldlM_const {α : Type} {f : FS → α → R FS} {l : List α} {s s' : FS}
    (hs : ∀ x ∈ l, ∀ t t', f t x = .ok t' → t' = t) (h : l.foldlM f s = .ok s') : s' = s :=
  foldlM_inv (fun _ t => t = s) rfl
    (fun pre x post t t' hl ht hf => by rw [hs x (by rw [hl]; simp) t t' hf, ht]) h

/-- Whether a register is kept in its slot only. -/
def BB (s : FS) : Prop := ∀ w, s.alloc w = Allocation.none ∨ ∃ n, s.slot w = some n ∧ s.alloc w = stk n

theorem reloadAtBegin_spec (he : EnvOk cx) {b : Nat} {s s' : FS} {P' : Nat → Prop} (I : Inv cx C P s)
    (hnd : ((cx.f.params b).map VReg.vreg).Nodup) (hnP : ∀ v ∈ cx.f.params b, ¬ P v.vreg)
    (hP' : ∀ w, P' w ↔ P w ∨ ∃ v ∈ cx.f.params b, v.vreg = w)
    (hpred : ∀ q ∈ cx.f.preds b, ∀ o ∈ cx.f.operands (cx.f.lastInst q), o.kind = .Use)
    (h : reloadAtBegin cx s b = .ok s') :
    Inv cx C P' s' ∧ BB s' ∧ Rld (cx.f.insns b).1 s s' (fun w => ∃ v ∈ cx.f.params b, v.vreg = w) ∧
      ∀ s1, (cx.f.params b).foldlM (reloadParam cx b) (reset cx s) = .ok s1 → ∀ v n, s1.slot v = some n → s'.slot v = some n := by
  unfold reloadAtBegin at h
  split at h
  · cases h
  · next s1 h1 =>
    have key1 : Inv cx C P' s1 ∧ ScrOk cx s1 ∧ Rld (cx.f.insns b).1 (reset cx s) s1 (fun w => ∃ v ∈ cx.f.params b, v.vreg = w) := by
      have := foldlM_inv (fun pre t => Inv cx C (fun w => P w ∨ ∃ v ∈ pre, v.vreg = w) t ∧ ScrOk cx t ∧
          Rld (cx.f.insns b).1 (reset cx s) t (fun w => ∃ v ∈ cx.f.params b, v.vreg = w))
        ⟨(reset_inv I).congrP (by simp), reset_scr he I, Rld.refl⟩ ?_ h1
      · exact ⟨this.1.congrP hP', this.2⟩
      · rintro pre v post t t' hl ⟨It, St, Rt⟩ hf
        have hvm : v ∈ cx.f.params b := by rw [hl]; simp
        have hA : ¬ (P v.vreg ∨ ∃ x ∈ pre, x.vreg = v.vreg) := by
          rintro (hp | ⟨x, hx, e⟩)
          · exact hnP v hvm hp
          · rw [hl, List.map_append, List.map_cons] at hnd
            have := (List.nodup_append.mp hnd).2.2 x.vreg (List.mem_map_of_mem hx) v.vreg (by simp)
            exact this e
        have hB : ∀ w, (P w ∨ ∃ x ∈ pre ++ [v], x.vreg = w) ↔ (P w ∨ ∃ x ∈ pre, x.vreg = w) ∨ w = v.vreg := by
          intro w
          simp only [List.mem_append, List.mem_singleton]
          constructor
          · rintro (hp | ⟨x, hx | rfl, e⟩)
            · exact .inl (.inl hp)
            · exact .inl (.inr ⟨x, hx, e⟩)
            · exact .inr e.symm
          · rintro ((hp | ⟨x, hx, e⟩) | e)
            · exact .inl hp
            · exact .inr ⟨x, .inl hx, e⟩
            · exact .inr ⟨v, .inr rfl, e.symm⟩
        obtain ⟨a1, a2, a3, _⟩ := reloadParam_spec he It St hA hB hf
        exact ⟨a1, a2, Rt.trans a3 (fun _ h => h) (by rintro w rfl; exact ⟨v, hvm, rfl⟩)⟩
    obtain ⟨I1, S1, R1⟩ := key1
    obtain ⟨l, hl1, hl2, hl3⟩ := I1.live
    have htl := VRegSet.toList_ok hl1
    rw [htl] at h
    dsimp only at h
    split at h
    · cases h
    · next s2 h2 =>
      have key2 := foldlM_inv (fun pre t => Inv cx C P' t ∧ ScrOk cx t ∧ Rld (cx.f.insns b).1 s1 t (fun _ => False) ∧
          ∀ x ∈ pre, ∃ n, t.slot x.vreg = some n ∧ t.alloc x.vreg = stk n)
        ⟨I1, S1, Rld.refl, by simp⟩ (by
          rintro pre v post t t' hl ⟨It, St, Rt, ht⟩ hf
          have hvm : v ∈ l := by rw [hl]; simp
          have hnn : t.alloc v.vreg ≠ Allocation.none := (Rt.mono It (hl2 v hvm).2).resolve_right id
          obtain ⟨a1, a2, a3, a4⟩ := reloadLive_spec he It St hnn hf
          refine ⟨a1, a2, Rt.trans a3 (fun _ h => h) (fun _ h => h), ?_⟩
          intro x hx
          rcases List.mem_append.mp hx with hx | hx
          · obtain ⟨n, e1, e2⟩ := ht x hx
            rcases a3.alloc x.vreg with e | e | ⟨e, _⟩
            · exact ⟨n, a3.slot _ _ e1, by rw [e, e2]⟩
            · exact e
            · exact e.elim
          · rw [List.mem_singleton] at hx; subst hx; exact a4) h2
      obtain ⟨I2, S2, R2, hb2⟩ := key2
      have hmv : ∀ q ∈ cx.f.preds b, ∀ v n t t', moveIfDefPredBranch cx t b q v n = .ok t' → t' = t := by
        intro q hq v n t t' hm
        unfold moveIfDefPredBranch at hm
        rw [branchDefReg_none (hpred q hq)] at hm
        exact (Except.ok.inj hm).symm
      split at h
      · cases h
      · next s3 h3 =>
        have e3 : s3 = { s2 with scratch := cx.env.scratch } := by
          refine foldlM_const (fun x _ t t' hx => ?_) h3
          unfold predParams at hx
          split at hx
          · exact (Except.ok.inj hx).symm
          · refine foldlM_const (fun q hq u u' hu => ?_) hx
            unfold predParam at hu
            split at hu
            · cases hu
            · split at hu
              · cases hu
              · exact hmv q hq _ _ _ _ hu
        have e4 : s' = s3 := by
          refine foldlM_const (fun x _ t t' hx => ?_) h
          unfold predLive at hx
          exact foldlM_const (fun q hq u u' hu => hmv q hq _ _ _ _ hu) hx
        rw [e3] at e4
        have R12 := R1.trans (g := fun w => ∃ v ∈ cx.f.params b, v.vreg = w) R2 (fun _ h => h) (fun _ h => h.elim)
        have Rlast : Rld (cx.f.insns b).1 s2 s' (fun w => ∃ v ∈ cx.f.params b, v.vreg = w) := by
          rw [e4]
          exact ⟨fun _ _ h => h, rfl, rfl, fun _ => .inl rfl, [], rfl, fun F L V A _ hS => hS.of_eq rfl⟩
        have Rfirst : Rld (cx.f.insns b).1 s (reset cx s) (fun w => ∃ v ∈ cx.f.params b, v.vreg = w) :=
          ⟨fun _ _ h => h, rfl, rfl, fun _ => .inl rfl, [], rfl, fun F L V A _ hS => hS.of_eq rfl⟩
        refine ⟨by rw [e4]; exact I2.of_eq rfl rfl rfl rfl rfl I2.lru, ?_,
          (Rfirst.trans R12 (fun _ h => h) (fun _ h => h)).trans Rlast (fun _ h => h) (fun _ h => h), fun s1' h1' v n hv => by
            rw [h1] at h1'
            cases h1'
            exact Rlast.slot v n (R2.slot v n hv)⟩
        have hbb : BB s2 := by
          intro w
          by_cases hw1 : s1.alloc w = Allocation.none
          · rcases R2.alloc w with e | e | ⟨e, _⟩
            · exact .inl (by rw [e, hw1])
            · exact .inr e
            · exact e.elim
          · rcases hl3 w hw1 with ⟨x, hx, rfl⟩ | hp
            · exact .inr (hb2 x hx)
            · rcases I2.alloc w with h' | ⟨q, x, h', _⟩ | h'
              · exact .inl h'
              · exact absurd h' (I2.noReg w hp q)
              · exact .inr h'
        rw [e4]
        exact hbb

end Fast
end Regalloc
