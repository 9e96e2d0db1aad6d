import Verif.Proofs.FastDebugEnd
import Verif.Proofs.FastDebugRun

/-
Single-pass allocator: the end recorded for a register is that of its last access, along the run.
-/
namespace Regalloc
namespace Fast
open Exec Debug FastDebug

variable {cx : Cx} {C : Nat → VReg} {w : Nat}

/-- `A` holds of the ends of the accesses to the register that have been processed, `Dn` says that
its definition has been. Whatever was recorded is at least `B`. -/
structure En (w B : Nat) (A : Nat → Prop) (Dn : Prop) (st : FS × Dbg) : Prop where
  sv : Sv w st.1
  occ : Occ w st.1 → ∃ t, (st.2 w).2.1 = some t ∧ B ≤ t
  acc : ∀ p, A p → ∃ t, (st.2 w).2.1 = some t ∧ p ≤ t
  live : (∃ p, A p) → st.1.alloc w ≠ Allocation.none ∨ Dn
  start : Dn → (∃ p, A p) → (st.2 w).1 ≠ none

theorem En.step {B : Nat} {A : Nat → Prop} {Dn : Prop} {st st' : FS × Dbg} (h : En w B A Dn st) (k : Ov w st.1 st'.1)
    (hd : (st'.2 w).2.1 = (st.2 w).2.1) (hs : (st.2 w).1 ≠ none → (st'.2 w).1 ≠ none) : En w B A Dn st' := by
  refine ⟨k.sv h.sv, fun o => ?_, fun p hp => ?_, fun hp => ?_, fun hd' hp => hs (h.start hd' hp)⟩
  · rw [hd]; exact h.occ (k.occ h.sv o)
  · rw [hd]; exact h.acc p hp
  · exact (h.live hp).imp_left (k.keep h.sv)

theorem En.congr {B B' : Nat} {A A' : Nat → Prop} {Dn Dn' : Prop} {st : FS × Dbg} (h : En w B A Dn st) (hB : B' ≤ B)
    (hA : ∀ p, A' p ↔ A p) (hD : Dn' ↔ Dn) : En w B' A' Dn' st := by
  have e : A' = A := funext fun p => propext (hA p)
  subst e
  refine ⟨h.sv, fun o => ?_, h.acc, fun hp => (h.live hp).imp_right hD.mpr, fun hd hp => h.start (hD.mp hd) hp⟩
  obtain ⟨t, h1, h2⟩ := h.occ o
  exact ⟨t, h1, by omega⟩

/-- Where the access by an operand of instruction `i` ends. -/
def opPt (i : Nat) (o : Op) : Nat := match o.pos, o.kind with
  | .Early, .Use => ptAfter i
  | _, _ => ptBefore (i + 1)

theorem opPt_late {i : Nat} {o : Op} (h : o.pos = .Late) : opPt i o = 2 * (i + 1) := by unfold opPt; rw [h]
theorem opPt_def {i : Nat} {o : Op} (h : o.kind = .Def) : opPt i o = 2 * (i + 1) := by
  unfold opPt; rw [h]; cases o.pos <;> first | done | rfl
theorem opPt_early {i : Nat} {o : Op} (h : o.pos = .Early) (hk : o.kind = .Use) : opPt i o = 2 * i + 1 := by
  unfold opPt; rw [h, hk]

theorem opPt_bound (i : Nat) (o : Op) : 2 * i + 1 ≤ opPt i o ∧ opPt i o ≤ 2 * (i + 1) := by
  have hA : ptAfter i = 2 * i + 1 := rfl
  have hB : ptBefore (i + 1) = 2 * (i + 1) := rfl
  unfold opPt
  cases o.pos <;> cases o.kind <;> dsimp only <;> omega

/-- The end after an operand of the register. -/
theorem dbgOperand_end {d : Dbg} {s s' : FS} {i k : Nat} {o : Op} (hna : o.asFixedNonallocatable = none) :
    (dbgOperand d s s' i k o o.vreg.vreg).1 = (d o.vreg.vreg).1 ∧
    (s.alloc o.vreg.vreg = Allocation.none → (dbgOperand d s s' i k o o.vreg.vreg).2.1 = some (opPt i o)) ∧
    (s.alloc o.vreg.vreg ≠ Allocation.none → (dbgOperand d s s' i k o o.vreg.vreg).2.1 = (d o.vreg.vreg).2.1) := by
  unfold dbgOperand
  by_cases ha : s.alloc o.vreg.vreg = Allocation.none
  · rw [if_neg (by rw [hna]; simp [ha]), set1_same]
    exact ⟨rfl, fun _ => rfl, fun h => absurd ha h⟩
  · rw [if_pos (.inr ha)]
    exact ⟨rfl, fun h => absurd h ha, fun _ => rfl⟩

theorem opEnd_use {B : Nat} {A : Nat → Prop} {Dn : Prop} {b i : Nat} {x : Nat × Op} (hwm : x.2.vreg.vreg ≠ VReg.MAX)
    (hk : x.2.kind = .Use) (hD : ¬ Dn) (hB : opPt i x.2 ≤ B) {st st' : FS × Dbg} (h : En x.2.vreg.vreg B A Dn st)
    (hs : stepD (allocOp cx b i) (dbgOp i) st x = .ok st') :
    En x.2.vreg.vreg (opPt i x.2) (fun p => A p ∨ p = opPt i x.2) Dn st' := by
  unfold stepD at hs
  split at hs
  · cases hs
  · next s1 h1 =>
    have hs := Except.ok.inj hs
    subst hs
    obtain ⟨q, ha'⟩ := allocOp_use hwm hk h.sv h1
    have hd : dbgOp i st.2 st.1 s1 x = dbgOperand st.2 st.1 s1 i x.1 x.2 := by unfold dbgOp; rw [hk]
    obtain ⟨e1, e2, e3⟩ := dbgOperand_end (d := st.2) (s := st.1) (s' := s1) (i := i) (k := x.1) (na_none hwm)
    have key : ∃ t, (dbgOp i st.2 st.1 s1 x x.2.vreg.vreg).2.1 = some t ∧ opPt i x.2 ≤ t ∧ ∀ p, A p → p ≤ t := by
      rw [hd]
      by_cases ha : st.1.alloc x.2.vreg.vreg = Allocation.none
      · refine ⟨_, e2 ha, Nat.le_refl _, fun p hp => ?_⟩
        rcases h.live ⟨p, hp⟩ with h2 | h2
        · exact absurd ha h2
        · exact absurd h2 hD
      · obtain ⟨t, h2, h3⟩ := h.occ (.inl ha)
        refine ⟨t, by rw [e3 ha]; exact h2, by omega, fun p hp => ?_⟩
        obtain ⟨t', h4, h5⟩ := h.acc p hp
        rw [h2] at h4
        cases h4
        exact h5
    obtain ⟨t, k1, k2, k3⟩ := key
    refine ⟨q, fun _ => ⟨t, k1, k2⟩, ?_, fun _ => .inl ha', fun hd => absurd hd hD⟩
    rintro p (hp | rfl)
    · exact ⟨t, k1, k3 p hp⟩
    · exact ⟨t, k1, k2⟩

theorem opEnd_def {B : Nat} {A : Nat → Prop} {Dn : Prop} {b i : Nat} {x : Nat × Op} (hwm : x.2.vreg.vreg ≠ VReg.MAX)
    (hk : x.2.kind = .Def) (hc : x.2.constraint ≠ .Any ∧ x.2.constraint ≠ .Stack) (hD : ¬ Dn) (hB : 2 * (i + 1) ≤ B)
    {st st' : FS × Dbg} (h : En x.2.vreg.vreg B A Dn st) (hs : stepD (allocOp cx b i) (dbgOp i) st x = .ok st') :
    En x.2.vreg.vreg (2 * (i + 1)) (fun p => A p ∨ p = opPt i x.2) True st' := by
  unfold stepD at hs
  split at hs
  · cases hs
  · next s1 h1 =>
    have hs := Except.ok.inj hs
    subst hs
    have q := allocOp_def hwm hk hc h.sv h1
    have hd : dbgOp i st.2 st.1 s1 x = dbgDef (dbgOperand st.2 st.1 s1 i x.1 x.2) s1 i x.2.vreg := by unfold dbgOp; rw [hk]
    have hpt := opPt_def (i := i) hk
    obtain ⟨e1, e2, e3⟩ := dbgOperand_end (d := st.2) (s := st.1) (s' := s1) (i := i) (k := x.1) (na_none hwm)
    have hd1 : (dbgOp i st.2 st.1 s1 x x.2.vreg.vreg).1 ≠ none := by
      rw [hd]; unfold dbgDef; rw [set1_same]; simp
    have hd2 : (dbgOp i st.2 st.1 s1 x x.2.vreg.vreg).2.1 = (dbgOperand st.2 st.1 s1 i x.1 x.2 x.2.vreg.vreg).2.1 := by
      rw [hd]; unfold dbgDef; rw [set1_same]
    have key : ∃ t, (dbgOp i st.2 st.1 s1 x x.2.vreg.vreg).2.1 = some t ∧ 2 * (i + 1) ≤ t ∧ ∀ p, A p → p ≤ t := by
      rw [hd2]
      by_cases ha : st.1.alloc x.2.vreg.vreg = Allocation.none
      · refine ⟨_, e2 ha, by omega, fun p hp => ?_⟩
        rcases h.live ⟨p, hp⟩ with h2 | h2
        · exact absurd ha h2
        · exact absurd h2 hD
      · obtain ⟨t, h2, h3⟩ := h.occ (.inl ha)
        refine ⟨t, by rw [e3 ha]; exact h2, by omega, fun p hp => ?_⟩
        obtain ⟨t', h4, h5⟩ := h.acc p hp
        rw [h2] at h4
        cases h4
        exact h5
    obtain ⟨t, k1, k2, k3⟩ := key
    refine ⟨q, fun _ => ⟨t, k1, k2⟩, ?_, fun _ => .inr trivial, fun _ _ => hd1⟩
    rintro p (hp | rfl)
    · exact ⟨t, k1, k3 p hp⟩
    · exact ⟨t, k1, by omega⟩

/-- The operands `l` of instruction `i` access the register up to `p`. -/
def AccOps (w i : Nat) (l : List (Nat × Op)) (p : Nat) : Prop := ∃ x ∈ l, x.2.vreg.vreg = w ∧ p = opPt i x.2

theorem AccOps_snoc {i p : Nat} {l : List (Nat × Op)} {x : Nat × Op} :
    AccOps w i (l ++ [x]) p ↔ AccOps w i l p ∨ (x.2.vreg.vreg = w ∧ p = opPt i x.2) := by
  unfold AccOps
  simp only [List.mem_append, List.mem_singleton]
  constructor
  · rintro ⟨y, hy | rfl, h⟩
    · exact .inl ⟨y, hy, h⟩
    · exact .inr h
  · rintro (⟨y, hy, h⟩ | h)
    · exact ⟨y, .inl hy, h⟩
    · exact ⟨x, .inr rfl, h⟩

theorem opsEnd {B : Nat} {A : Nat → Prop} {Dn : Prop} {b i : Nat} (hwm : w ≠ VReg.MAX) (hi : IOk cx C i)
    (hD : UU cx i w ∨ DDi cx i w → ¬ Dn) (hB : 2 * (i + 1) ≤ B) {st st' : FS × Dbg} (h : En w B A Dn st)
    (hs : (opsAt cx i .Late ++ opsAt cx i .Early).foldlM (stepD (allocOp cx b i) (dbgOp i)) st = .ok st') :
    En w (2 * i + 1) (fun p => A p ∨ AccOps w i (opsAt cx i .Late ++ opsAt cx i .Early) p)
      (Dn ∨ ∃ x ∈ opsAt cx i .Late ++ opsAt cx i .Early, x.2.kind = .Def ∧ x.2.vreg.vreg = w) st' := by
  have key := foldlM_inv (fun pre (t : FS × Dbg) => ∃ B', En w B' (fun p => A p ∨ AccOps w i pre p)
      (Dn ∨ ∃ x ∈ pre, x.2.kind = .Def ∧ x.2.vreg.vreg = w) t ∧ 2 * i + 1 ≤ B' ∧
      ((∀ x ∈ pre, x.2.vreg.vreg = w → opPt i x.2 = 2 * (i + 1)) → 2 * (i + 1) ≤ B'))
    ⟨B, h.congr (Nat.le_refl _) (fun p => by simp [AccOps]) (by simp), by omega, fun _ => hB⟩ ?_ hs
  · obtain ⟨B', h1, h2, _⟩ := key
    exact h1.congr h2 (fun _ => Iff.rfl) Iff.rfl
  rintro pre x post t t' hl ⟨B', h1, h2, h3⟩ hx
  obtain ⟨o1, o2, o3, o4, o5⟩ := ops_order hl
  by_cases e : x.2.vreg.vreg = w
  · have hna : x.2.asFixedNonallocatable = none := na_none (by rw [e]; exact hwm)
    have hne : ∀ y ∈ pre, y.1 ≠ x.1 := fun y hy e' => o2 ⟨y.2, by rw [← e']; exact hy⟩
    have hpd : ¬ ∃ y ∈ pre, y.2.kind = .Def ∧ y.2.vreg.vreg = w := by
      rintro ⟨y, hy, hk, ey⟩
      exact hi.defUniq y.1 x.1 y.2 x.2 (o3 y.1 y.2 hy) o1 (hne y hy) hk hna (ey.trans e.symm)
    have hAiff : ∀ p, (A p ∨ AccOps w i (pre ++ [x]) p) ↔ ((A p ∨ AccOps w i pre p) ∨ p = opPt i x.2) := by
      intro p
      rw [AccOps_snoc, or_assoc]
      simp [e]
    cases hk : x.2.kind with
    | Use =>
      have hnD : ¬ (Dn ∨ ∃ y ∈ pre, y.2.kind = .Def ∧ y.2.vreg.vreg = w) := by
        rintro (hd | hd)
        · exact hD (.inl ⟨x.1, x.2, o1, hk, hna, e⟩) hd
        · exact hpd hd
      have hle : opPt i x.2 ≤ B' := by
        cases hp : x.2.pos with
        | Early => rw [opPt_early hp hk]; exact h2
        | Late =>
          rw [opPt_late hp]
          exact h3 (fun y hy _ => opPt_late (o4 hp y.1 y.2 hy))
      subst e
      have h4 := opEnd_use hwm hk hnD hle h1 hx
      refine ⟨opPt i x.2, h4.congr (Nat.le_refl _) hAiff ?_, (opPt_bound i x.2).1, fun h5 => ?_⟩
      · simp only [List.mem_append, List.mem_singleton]
        constructor
        · rintro (hd | ⟨y, hy | rfl, h6⟩)
          · exact .inl hd
          · exact .inr ⟨y, hy, h6⟩
          · rw [hk] at h6; exact absurd h6.1 (by simp)
        · rintro (hd | ⟨y, hy, h6⟩)
          · exact .inl hd
          · exact .inr ⟨y, .inl hy, h6⟩
      · have := h5 x (by simp) rfl
        omega
    | Def =>
      have hnone : ∀ y ∈ pre, y.2.vreg.vreg ≠ w := by
        intro y hy ey
        exact hi.defUniq x.1 y.1 x.2 y.2 o1 (o3 y.1 y.2 hy) (fun e' => hne y hy e'.symm) hk
          (na_none (by rw [ey]; exact hwm)) (e.trans ey.symm)
      have hnD : ¬ (Dn ∨ ∃ y ∈ pre, y.2.kind = .Def ∧ y.2.vreg.vreg = w) := by
        rintro (hd | hd)
        · exact hD (.inr ⟨x.1, x.2, o1, ⟨x.2, o1⟩, hk, e⟩) hd
        · exact hpd hd
      have hle : 2 * (i + 1) ≤ B' := h3 (fun y hy ey => absurd ey (hnone y hy))
      have hc := hi.defsConstr x (mem_opsOf.mpr o1) hk
      subst e
      have h4 := opEnd_def hwm hk hc hnD hle h1 hx
      refine ⟨2 * (i + 1), h4.congr (Nat.le_refl _) hAiff ?_, by omega, fun _ => Nat.le_refl _⟩
      constructor
      · intro _; trivial
      · intro _; exact .inr ⟨x, by simp, hk, rfl⟩
  · refine ⟨B', ?_, h2, fun h4 => h3 (fun y hy => h4 y (List.mem_append_left _ hy))⟩
    refine En.congr (B := B') (A := fun p => A p ∨ AccOps w i pre p)
      (Dn := Dn ∨ ∃ x ∈ pre, x.2.kind = .Def ∧ x.2.vreg.vreg = w) ?_ (Nat.le_refl _) (fun p => ?_) ?_
    · unfold stepD at hx
      split at hx
      · cases hx
      · next s1 g1 =>
        have hx := Except.ok.inj hx
        subst hx
        have hne : dbgOp i t.2 t.1 s1 x w = t.2 w := dbgOp_ne (fun _ => e)
        have hov : Ov w t.1 s1 := allocOp_ov (fun hk => hi.defsConstr x (mem_opsOf.mpr o1) hk) e g1
        refine h1.step (st' := (s1, dbgOp i t.2 t.1 s1 x)) hov ?_ ?_
        · show (dbgOp i t.2 t.1 s1 x w).2.1 = _
          rw [hne]
        · show _ → (dbgOp i t.2 t.1 s1 x w).1 ≠ none
          rw [hne]; exact id
    · rw [AccOps_snoc]; simp [e]
    · simp only [List.mem_append, List.mem_singleton]
      constructor
      · rintro (hd | ⟨y, hy | rfl, h6⟩)
        · exact .inl hd
        · exact .inr ⟨y, hy, h6⟩
        · exact absurd h6.2 e
      · rintro (hd | ⟨y, hy, h6⟩)
        · exact .inl hd
        · exact .inr ⟨y, .inl hy, h6⟩

/-- Arguments of a branch. -/
theorem argsEnd {B : Nat} {A : Nat → Prop} {Dn : Prop} {i : Nat} {l : List (VReg × Option VReg)}
    (hD : ∀ x ∈ l, x.1.vreg = w → ¬ Dn ∧ ¬ DDi cx i w) (hB : 2 * i ≤ B) {st st' : (FS × PMoves) × Dbg}
    (h : En w B A Dn (st.1.1, st.2)) (hs : l.foldlM (branchArgD cx i) st = .ok st') :
    En w (2 * i) (fun p => A p ∨ ∃ x ∈ l, x.1.vreg = w ∧ p = 2 * i) Dn (st'.1.1, st'.2) := by
  refine foldlM_inv (fun pre (t : (FS × PMoves) × Dbg) => En w (2 * i) (fun p => A p ∨ ∃ x ∈ pre, x.1.vreg = w ∧ p = 2 * i) Dn (t.1.1, t.2))
    (h.congr hB (fun p => by simp) Iff.rfl) ?_ hs
  rintro pre x post t t' hl h1 hx
  unfold branchArgD at hx
  split at hx
  · cases hx
  next s1 g1 =>
  have hx := Except.ok.inj hx
  subst hx
  by_cases e : x.1.vreg = w
  · obtain ⟨d1, d2⟩ := hD x (by rw [hl]; simp) e
    have hany : (cx.f.operands i).any (fun o => o.vreg = x.1 ∧ o.kind = .Def) = false := by
      rw [List.any_eq_false]
      rintro o ho hc
      rw [decide_eq_true_eq] at hc
      obtain ⟨k, hk⟩ := List.mem_iff_getElem?.mp ho
      exact d2 ⟨k, o, hk, ⟨o, hk⟩, hc.2, by rw [hc.1]; exact e⟩
    subst e
    obtain ⟨q, ha'⟩ := branchArg_own h1.sv hany g1
    have key : ∃ u, (dbgArg cx i t.2 t.1.1 x x.1.vreg).2.1 = some u ∧ 2 * i ≤ u ∧
        ∀ p, (A p ∨ ∃ y ∈ pre, y.1.vreg = x.1.vreg ∧ p = 2 * i) → p ≤ u := by
      unfold dbgArg
      by_cases ha : t.1.1.alloc x.1.vreg = Allocation.none
      · rw [if_neg (by rw [hany]; simp [ha]), set1_same]
        refine ⟨_, rfl, Nat.le_refl _, fun p hp => ?_⟩
        rcases h1.live ⟨p, hp⟩ with h2 | h2
        · exact absurd ha h2
        · exact absurd h2 d1
      · rw [if_pos (.inr ha)]
        obtain ⟨u, h2, h3⟩ := h1.occ (.inl ha)
        refine ⟨u, h2, h3, fun p hp => ?_⟩
        obtain ⟨u', h4, h5⟩ := h1.acc p hp
        dsimp only at h2 h4
        rw [h2] at h4
        cases h4
        exact h5
    obtain ⟨u, k1, k2, k3⟩ := key
    refine ⟨q, fun _ => ⟨u, k1, k2⟩, ?_, fun _ => .inl ha', fun hd => absurd hd d1⟩
    rintro p (hp | ⟨y, hy, ey, rfl⟩)
    · exact ⟨u, k1, k3 p (.inl hp)⟩
    · exact ⟨u, k1, k2⟩
  · have hne : dbgArg cx i t.2 t.1.1 x w = t.2 w := by
      unfold dbgArg
      split
      · rfl
      · exact set1_ne _ _ (fun e' => e e'.symm)
    refine En.congr (B := 2 * i) (A := fun p => A p ∨ ∃ x ∈ pre, x.1.vreg = w ∧ p = 2 * i) (Dn := Dn) ?_ (Nat.le_refl _) (fun p => ?_) Iff.rfl
    · refine h1.step (st' := (s1.1, dbgArg cx i t.2 t.1.1 x)) (branchArg_ov e g1) ?_ ?_
      · show (dbgArg cx i t.2 t.1.1 x w).2.1 = _
        rw [hne]
      · show _ → (dbgArg cx i t.2 t.1.1 x w).1 ≠ none
        rw [hne]; exact id
    · simp only [List.mem_append, List.mem_singleton]
      constructor
      · rintro (hp | ⟨y, hy | rfl, h6⟩)
        · exact .inl hp
        · exact .inr ⟨y, hy, h6⟩
        · exact absurd h6.1 e
      · rintro (hp | ⟨y, hy, h6⟩)
        · exact .inl hp
        · exact .inr ⟨y, .inl hy, h6⟩

/-- Instruction `i` of block `b` accesses the register up to `p`. -/
def AccI (cx : Cx) (w b i p : Nat) : Prop :=
  AccOps w i (cx.opsOf i) p ∨ (cx.f.isBranch i = true ∧ ∃ x ∈ branchPairs cx.f b i, x.1.vreg = w ∧ p = 2 * i)

theorem mem_opsAt_iff {i : Nat} {x : Nat × Op} : x ∈ opsAt cx i .Late ++ opsAt cx i .Early ↔ x ∈ cx.opsOf i := by
  refine ⟨mem_opsAt_all, fun hm => ?_⟩
  cases hp : x.2.pos with
  | Late => exact List.mem_append_left _ (List.mem_filter.mpr ⟨hm, by simp [hp]⟩)
  | Early => exact List.mem_append_right _ (List.mem_filter.mpr ⟨hm, by simp [hp]⟩)

theorem instEnd (he : EnvOk cx) {B : Nat} {A : Nat → Prop} {Dn : Prop} {b i : Nat} (hwm : w ≠ VReg.MAX) (hi : IOk cx C i)
    (hD : UU cx i w ∨ DDi cx i w → ¬ Dn)
    (hA : cx.f.isBranch i = true → ∀ x ∈ branchPairs cx.f b i, x.1.vreg = w → ¬ Dn ∧ ¬ DDi cx i w)
    (hB : 2 * (i + 1) ≤ B) {st st' : FS × Dbg} (h : En w B A Dn st) (hs : allocInstD cx b st i = .ok st') :
    En w (2 * i) (fun p => A p ∨ AccI cx w b i p) (Dn ∨ DDi cx i w) st' := by
  unfold allocInstD at hs
  split at hs
  · cases hs
  next s1 nc h1 =>
  split at hs
  · cases hs
  next s2 h2 =>
  split at hs
  · cases hs
  next s3 d3 h3 =>
  split at hs
  · cases hs
  next s4 h4 =>
  split at hs
  · cases hs
  next s5 d5 h5 =>
  have hs := Except.ok.inj hs
  subst hs
  have a2 : En w B A Dn (s2, st.2) := h.step (st' := (s2, st.2)) ((instSetup_ov h1).trans (instEvict_ov h2)) rfl id
  rw [instOpsD_eq] at h3
  have a3 : En w (2 * i + 1) (fun p => A p ∨ AccOps w i (cx.opsOf i) p) (Dn ∨ DDi cx i w) (s3, d3) := by
    refine (opsEnd hwm hi hD hB a2 h3).congr (Nat.le_refl _) (fun p => ?_) ?_
    · refine or_congr_right ?_
      unfold AccOps
      simp only [mem_opsAt_iff]
    · refine or_congr_right ?_
      constructor
      · rintro ⟨k, o, ho, _, hk, e⟩
        exact ⟨(k, o), mem_opsAt_iff.mpr (mem_opsOf.mpr ho), hk, e⟩
      · rintro ⟨x, hx, hk, e⟩
        exact DDi_of (mem_opsAt_iff.mp hx) hk e
  have a4 := a3.step (st' := (s4, d3)) (foldlM_ov (fun x _ t t' => useMove_ov) h4) rfl id
  have a5 : En w (2 * i) (fun p => A p ∨ AccI cx w b i p) (Dn ∨ DDi cx i w) (s5, d5) := by
    by_cases hb : cx.f.isBranch i = true
    · rw [if_pos hb] at h5
      have hp : processBranch cx s4 b i = .ok s5 := by rw [← processBranchD_fst (s4, d3), h5]; rfl
      unfold processBranchD at h5
      split at h5
      · cases h5
      next r d hr =>
      split at h5
      · cases h5
      have h5 := Except.ok.inj h5
      have e1 : d = d5 := congrArg Prod.snd h5
      subst e1
      have b1 := argsEnd (fun x hx e => by
        obtain ⟨c1, c2⟩ := hA hb x hx e
        exact ⟨fun hd => hd.elim c1 c2, c2⟩) (by omega) a4 hr
      have hfst : (branchPairs cx.f b i).foldlM (branchArg cx i) (s4, fun _ => []) = .ok r := by
        have := foldlM_fst (branchArgD_fst (cx := cx) (i := i)) (branchPairs cx.f b i) ((s4, fun _ => []), d3)
        rw [hr] at this
        exact this.symm
      unfold processBranch at hp
      rw [hfst] at hp
      dsimp only at hp
      split at hp
      · cases hp
      next s6 av h6 =>
      have hp := Except.ok.inj hp
      subst hp
      have n2 : Ov w r.1 s6 := foldlM_inv (fun _ (t : FS × PRegSet) => Ov w r.1 t.1) (Ov.refl _ _)
        (fun pre x post t t' _ ht hf => ht.trans (resolveClass_ov he hf)) h6
      refine (b1.step (st' := (s6, d)) n2 rfl id).congr (Nat.le_refl _) (fun p => ?_) Iff.rfl
      unfold AccI
      simp [hb, or_assoc]
    · rw [if_neg hb] at h5
      have h5 := Except.ok.inj h5
      cases h5
      refine a4.congr (by omega) (fun p => ?_) Iff.rfl
      unfold AccI
      simp [hb]
  exact a5.step (Ov.of_eq rfl rfl rfl) rfl id

/-- The instructions of a block. -/
theorem instsEnd (he : EnvOk cx) {B : Nat} {A : Nat → Prop} {Dn : Prop} {b : Nat} (hwm : w ≠ VReg.MAX)
    (hi : ∀ i ∈ cx.f.blockInsts b, IOk cx C i)
    (hD : ∀ i ∈ cx.f.blockInsts b, UU cx i w ∨ DDi cx i w → ¬ Dn ∧ ∀ j ∈ cx.f.blockInsts b, i < j → ¬ DDi cx j w)
    (hA : ∀ i ∈ cx.f.blockInsts b, cx.f.isBranch i = true → ∀ x ∈ branchPairs cx.f b i, x.1.vreg = w →
      ¬ Dn ∧ ∀ j ∈ cx.f.blockInsts b, i ≤ j → ¬ DDi cx j w)
    (hle : (cx.f.insns b).1 ≤ (cx.f.insns b).2) (hB : 2 * (cx.f.insns b).2 ≤ B) {st st' : FS × Dbg} (h : En w B A Dn st)
    (hs : (cx.f.blockInsts b).reverse.foldlM (allocInstD cx b) st = .ok st') :
    En w (2 * (cx.f.insns b).1) (fun p => A p ∨ ∃ i ∈ cx.f.blockInsts b, AccI cx w b i p)
      (Dn ∨ ∃ i ∈ cx.f.blockInsts b, DDi cx i w) st' := by
  have key := foldlM_inv (fun pre (t : FS × Dbg) => ∃ B', En w B' (fun p => A p ∨ ∃ i ∈ pre, AccI cx w b i p)
      (Dn ∨ ∃ i ∈ pre, DDi cx i w) t ∧ 2 * (cx.f.insns b).1 ≤ B' ∧ ∀ j ∈ cx.f.blockInsts b, j ∉ pre → 2 * (j + 1) ≤ B')
    ⟨B, h.congr (Nat.le_refl _) (fun p => by simp) (by simp), by omega, ?_⟩ ?_ hs
  · obtain ⟨B', h1, h2, _⟩ := key
    refine h1.congr h2 (fun p => ?_) ?_
    · simp
    · simp
  · intro j hj _
    rw [mem_blockInsts] at hj
    omega
  rintro pre i post t t' hl ⟨B', h1, h2, h3⟩ hx
  have hsort : (cx.f.blockInsts b).Pairwise (· < ·) := List.pairwise_lt_range'
  have hl' : cx.f.blockInsts b = post.reverse ++ i :: pre.reverse := by
    have := congrArg List.reverse hl
    simpa using this
  rw [hl', List.pairwise_append, List.pairwise_cons] at hsort
  have him : i ∈ cx.f.blockInsts b := by rw [hl']; simp
  have hpre : ∀ j ∈ pre, j ∈ cx.f.blockInsts b ∧ i < j := fun j hj =>
    ⟨by rw [hl']; simp [hj], hsort.2.1.1 j (List.mem_reverse.mpr hj)⟩
  have hnp : i ∉ pre := fun hp => absurd (hpre i hp).2 (by omega)
  have h4 := instEnd (A := fun p => A p ∨ ∃ i ∈ pre, AccI cx w b i p) (Dn := Dn ∨ ∃ i ∈ pre, DDi cx i w) he hwm (hi i him) ?_ ?_ (h3 i him hnp) h1 hx
  · refine ⟨2 * i, h4.congr (Nat.le_refl _) (fun p => ?_) ?_, ?_, ?_⟩
    · simp only [List.mem_append, List.mem_singleton]
      constructor
      · rintro (hp | ⟨y, hy | rfl, h6⟩)
        · exact .inl (.inl hp)
        · exact .inl (.inr ⟨y, hy, h6⟩)
        · exact .inr h6
      · rintro ((hp | ⟨y, hy, h6⟩) | h6)
        · exact .inl hp
        · exact .inr ⟨y, .inl hy, h6⟩
        · exact .inr ⟨i, .inr rfl, h6⟩
    · simp only [List.mem_append, List.mem_singleton]
      constructor
      · rintro (hp | ⟨y, hy | rfl, h6⟩)
        · exact .inl (.inl hp)
        · exact .inl (.inr ⟨y, hy, h6⟩)
        · exact .inr h6
      · rintro ((hp | ⟨y, hy, h6⟩) | h6)
        · exact .inl hp
        · exact .inr ⟨y, .inl hy, h6⟩
        · exact .inr ⟨i, .inr rfl, h6⟩
    · rw [mem_blockInsts] at him; omega
    · intro j hj hnj
      rw [hl'] at hj
      simp only [List.mem_append, List.mem_cons, List.mem_reverse] at hj hnj
      rcases hj with hj | rfl | hj
      · have := hsort.2.2 j (List.mem_reverse.mpr hj) i (by simp)
        omega
      · exact absurd (.inr (.inl rfl)) hnj
      · exact absurd (.inl hj) hnj
  · rintro hu (hd | ⟨j, hj, hd⟩)
    · exact (hD i him hu).1 hd
    · exact (hD i him hu).2 j (hpre j hj).1 (hpre j hj).2 hd
  · intro hb x hx' e
    obtain ⟨c1, c2⟩ := hA i him hb x hx' e
    refine ⟨?_, c2 i him (Nat.le_refl _)⟩
    rintro (hd | ⟨j, hj, hd⟩)
    · exact c1 hd
    · exact c2 j (hpre j hj).1 (by have := (hpre j hj).2; omega) hd

/-- The parameters of a block. -/
theorem paramsEnd {B : Nat} {A : Nat → Prop} {Dn : Prop} {b : Nat} (hnd : ((cx.f.params b).map VReg.vreg).Nodup)
    (hD : ∀ v ∈ cx.f.params b, v.vreg = w → ¬ Dn) {st st' : FS × Dbg} (h : En w B A Dn st)
    (hs : (cx.f.params b).foldlM (stepD (reloadParam cx b) (dbgParam cx b)) st = .ok st') :
    En w B A (Dn ∨ ∃ v ∈ cx.f.params b, v.vreg = w) st' := by
  refine foldlM_inv (fun pre (t : FS × Dbg) => En w B A (Dn ∨ ∃ v ∈ pre, v.vreg = w) t)
    (h.congr (Nat.le_refl _) (fun _ => Iff.rfl) (by simp)) ?_ hs
  rintro pre v post t t' hl h1 hx
  unfold stepD at hx
  split at hx
  · cases hx
  next s1 g1 =>
  have hx := Except.ok.inj hx
  subst hx
  have hne : w ≠ v.vreg → dbgParam cx b t.2 t.1 s1 v w = t.2 w := by
    intro hw
    unfold dbgParam
    split
    · rfl
    · exact set1_ne _ _ hw
  by_cases e : v.vreg = w
  · have hnD : ¬ (Dn ∨ ∃ x ∈ pre, x.vreg = w) := by
      rintro (hd | ⟨x, hx, ex⟩)
      · exact hD v (by rw [hl]; simp) e hd
      · rw [hl, List.map_append, List.map_cons] at hnd
        exact (List.nodup_append.mp hnd).2.2 x.vreg (List.mem_map_of_mem hx) v.vreg (by simp) (ex.trans e.symm)
    subst e
    have q := reloadParam_own h1.sv g1
    by_cases ha : t.1.alloc v.vreg = Allocation.none
    · have e1 : s1 = t.1 := by
        unfold reloadParam at g1
        dsimp only at g1
        rw [if_pos ha] at g1
        exact (Except.ok.inj g1).symm
      have e2 : dbgParam cx b t.2 t.1 s1 v = t.2 := by unfold dbgParam; rw [if_pos ha]
      subst e1
      rw [e2]
      have hno : ¬ ∃ p, A p := fun hp => (h1.live hp).elim (fun k => k ha) hnD
      exact ⟨h1.sv, h1.occ, h1.acc, fun hp => absurd hp hno, fun _ hp => absurd hp hno⟩
    · obtain ⟨u, h2, h3⟩ := h1.occ (.inl ha)
      have e3 : dbgParam cx b t.2 t.1 s1 v v.vreg = (some (ptBefore (cx.f.insns b).1), (t.2 v.vreg).2.1,
          match s1.slot v.vreg with | some n => stk n | none => (t.2 v.vreg).2.2) := by
        unfold dbgParam; rw [if_neg ha, set1_same]
        cases s1.slot v.vreg <;> rfl
      refine ⟨q, fun _ => ⟨u, ?_, h3⟩, fun p hp => ?_, fun _ => .inr (.inr ⟨v, by simp, rfl⟩), fun _ _ => ?_⟩
      · show (dbgParam cx b t.2 t.1 s1 v v.vreg).2.1 = _
        rw [e3]; exact h2
      · show ∃ u, (dbgParam cx b t.2 t.1 s1 v v.vreg).2.1 = some u ∧ _
        rw [e3]; exact h1.acc p hp
      · show (dbgParam cx b t.2 t.1 s1 v v.vreg).1 ≠ none
        rw [e3]; simp
  · refine En.congr (B := B) (A := A) (Dn := Dn ∨ ∃ x ∈ pre, x.vreg = w) ?_ (Nat.le_refl _) (fun _ => Iff.rfl) ?_
    · refine h1.step (st' := (s1, dbgParam cx b t.2 t.1 s1 v)) (reloadParam_ov e g1) ?_ ?_
      · show (dbgParam cx b t.2 t.1 s1 v w).2.1 = _
        rw [hne (fun e' => e e'.symm)]
      · show _ → (dbgParam cx b t.2 t.1 s1 v w).1 ≠ none
        rw [hne (fun e' => e e'.symm)]; exact id
    · simp only [List.mem_append, List.mem_singleton]
      constructor
      · rintro (hd | ⟨y, hy | rfl, h6⟩)
        · exact .inl hd
        · exact .inr ⟨y, hy, h6⟩
        · exact absurd h6 e
      · rintro (hd | ⟨y, hy, h6⟩)
        · exact .inl hd
        · exact .inr ⟨y, .inl hy, h6⟩

/-- Some block of `bs` accesses the register up to `p`. -/
def AccB (cx : Cx) (w : Nat) (bs : List Nat) (p : Nat) : Prop := ∃ b ∈ bs, ∃ i ∈ cx.f.blockInsts b, AccI cx w b i p

section
variable (he : EnvOk cx) (hf : FuncOk cx.f C)
include he hf

theorem blockEnd {B b : Nat} {bs : List Nat} {st st' : FS × Dbg} {eb ea : Nat → List Edit} (hwm : w ≠ VReg.MAX)
    (hbn : b < cx.f.numBlocks) (hbs : ∀ b', b' ∈ bs ↔ b < b' ∧ b' < cx.f.numBlocks) (G : Glob cx C bs st.1 eb ea)
    (hBd : 2 * (cx.f.insns b).2 ≤ B) (D : En w B (AccB cx w bs) (DefIn cx bs w) st) (h : allocBlockD cx st b = .ok st') :
    En w (2 * (cx.f.insns b).1) (AccB cx w (b :: bs)) (DefIn cx (b :: bs) w) st' := by
  have H := fnOk he hf
  have hnin : ∀ i ∈ cx.f.blockInsts b, ∀ b' ∈ bs, i ∉ cx.f.blockInsts b' := by
    intro i hi b' hb' hi'
    have := H.apart b b' i hbn ((hbs b').mp hb').2 hi hi'
    have := ((hbs b').mp hb').1
    omega
  have hB : BOk cx C (DefIn cx bs) b := by
    refine ⟨H.ne b hbn, H.iok b hbn, H.last b hbn, H.br b hbn, ?_, H.defUse b hbn, H.defDef b hbn⟩
    rintro i hi w hud hd
    obtain ⟨b', hb', hd⟩ := hd.single
    have hb'' := (hbs b').mp hb'
    rcases hud with hu | hd'
    · have := H.useOrder b b' i w hbn hb''.2 hi hu hd; omega
    · have := H.defOnce b b' w hbn hb''.2 ⟨b, by simp, .inr ⟨i, hi, hd'⟩⟩ hd; omega
  unfold allocBlockD at h
  split at h
  · cases h
  next stm hm =>
  have ht : (cx.f.blockInsts b).reverse.foldlM (allocInst cx b) st.1 = .ok stm.1 := by
    rw [← foldlM_fst (allocInstD_fst (cx := cx) (b := b)) _ st, hm]; rfl
  have hre : reloadAtBegin cx stm.1 b = .ok st'.1 := by rw [← reloadAtBeginD_fst, h]; rfl
  obtain ⟨ebB, eaB, Bd⟩ := body_spec (K := fun w => (¬ ∃ i ∈ cx.f.blockInsts b, DDi cx i w) ∨ st.1.alloc w ≠ Allocation.none)
    he hB G.bb (fun i hi => G.allocs i (hnin i hi))
    (fun i hi w hd hK => hK.resolve_left (fun hn => hn ⟨i, hi, hd⟩)) G.inv G.reused ht
  have hnb : ∀ w, DefIn cx [b] w → ¬ DefIn cx bs w := by
    intro w h1 h2
    obtain ⟨b', hb', hd⟩ := h2.single
    have hb'' := (hbs b').mp hb'
    have := H.defOnce b b' w hbn hb''.2 h1 hd
    omega
  have hpar : ∀ v ∈ cx.f.params b, ¬ (DefIn cx bs v.vreg ∨ ∃ i ∈ cx.f.blockInsts b, DDi cx i v.vreg) := by
    rintro v hv (hd | ⟨i, hi, hd⟩)
    · exact hnb _ ⟨b, by simp, .inl ⟨v, hv, rfl⟩⟩ hd
    · exact H.parDef b hbn v hv i hi hd
  have a1 := instsEnd he hwm (H.iok b hbn) (fun i hi hu => ⟨hB.pend i hi w hu, fun j hj hij hd => by
      rcases hu with hu | hu
      · have := H.defUse b hbn j hj i hi w hd hu; omega
      · have := H.defDef b hbn j hj i hi w hd hu; omega⟩)
    (fun i hi hbr x hx e => by
      have hil := H.last b hbn i hi hbr
      subst hil
      refine ⟨fun hd => ?_, fun j hj hij hd => ?_⟩
      · obtain ⟨b', hb', hd⟩ := hd.single
        have hb'' := (hbs b').mp hb'
        have := readOrder he hf hb''.2 hbn (.inr ⟨hbr, x, hx, e⟩) hd
        omega
      · obtain ⟨k, s, jj, v, hs, hv, rfl⟩ := mem_pairs.mp hx
        obtain ⟨v', hv', e'⟩ := DDi_iff.mp hd
        have := hf.arg_after_def j b k s (inst_lt hf hbn hj) hbn hs v' hv' v (List.mem_of_getElem? hv) (e'.trans e.symm)
        omega)
    (Nat.le_of_lt (H.ne b hbn)) hBd D hm
  unfold reloadAtBeginD at h
  split at h
  · cases h
  next s1 d1 h1 =>
  split at h
  · cases h
  next s2 h2 =>
  have h := Except.ok.inj h
  subst h
  obtain ⟨-, -, I1⟩ := paramsD he Bd.inv (H.parNodup b hbn) hpar h1
  have hs1 : (cx.f.params b).foldlM (reloadParam cx b) (reset cx stm.1) = .ok s1 := by
    rw [← foldlM_fst (stepD_fst (reloadParam cx b) (dbgParam cx b)) _ (reset cx stm.1, stm.2), h1]; rfl
  have a2 := paramsEnd (H.parNodup b hbn) (fun v hv e => by rw [← e]; exact hpar v hv)
    (a1.step (st' := (reset cx stm.1, stm.2)) (Ov.of_eq rfl rfl rfl) rfl id) h1
  have a3 := a2.step (st' := (s2, d1)) (reloadRest_ov a2.sv hs1 (fun l hl v hv => by
    obtain ⟨l', hl1, hl2, hl3⟩ := I1.live
    have hl' := VRegSet.toList_ok hl1
    dsimp only at hl'
    rw [hl'] at hl
    cases hl
    exact (hl2 v hv).2) hre) rfl id
  refine a3.congr (Nat.le_refl _) (fun p => ?_) ?_
  · unfold AccB
    simp only [List.mem_cons]
    constructor
    · rintro ⟨b', rfl | hb', h⟩
      · exact .inr h
      · exact .inl ⟨b', hb', h⟩
    · rintro (⟨b', hb', h⟩ | h)
      · exact ⟨b', .inr hb', h⟩
      · exact ⟨b, .inl rfl, h⟩
  · unfold DefIn
    simp only [List.mem_cons]
    constructor
    · rintro ⟨b', rfl | hb', h | h⟩
      · exact .inr h
      · exact .inl (.inr h)
      · exact .inl (.inl ⟨b', hb', .inl h⟩)
      · exact .inl (.inl ⟨b', hb', .inr h⟩)
    · rintro ((⟨b', hb', h⟩ | h) | h)
      · exact ⟨b', .inr hb', h⟩
      · exact ⟨b, .inl rfl, .inr h⟩
      · exact ⟨b, .inl rfl, .inl h⟩

theorem init_end (B : Nat) : En w B (AccB cx w []) (DefIn cx [] w) (FS.init cx, Dbg.init) := by
  have hno : ∀ p, ¬ AccB cx w [] p := by rintro p ⟨b, hb, _⟩; simp at hb
  refine ⟨⟨fun n hn => ?_, fun _ => rfl⟩, ?_, fun p hp => absurd hp (hno p), fun ⟨p, hp⟩ => absurd hp (hno p), fun _ ⟨p, hp⟩ => absurd hp (hno p)⟩
  · cases hn
  · rintro (h | ⟨p, x, h, _⟩)
    · exact absurd rfl h
    · cases h

theorem runEnd {t : FS} {d : Dbg} (hwm : w ≠ VReg.MAX) (h : runEnvD cx = .ok (t, d)) :
    ∃ B, En w B (AccB cx w (List.range cx.f.numBlocks)) (DefIn cx (List.range cx.f.numBlocks) w) (t, d) := by
  unfold runEnvD at h
  have H := fnOk he hf
  have hmax : ∀ b, b < cx.f.numBlocks → 2 * (cx.f.insns b).2 ≤ 2 * (cx.f.insns (cx.f.numBlocks - 1)).2 := by
    intro b hb
    by_cases e : b = cx.f.numBlocks - 1
    · rw [← e]; exact Nat.le_refl _
    · have := insns_mono hf (b := b) (b' := cx.f.numBlocks - 1) (by omega) (by omega)
      have := H.ne (cx.f.numBlocks - 1) (by omega)
      omega
  have h0 : ([] : List Nat).foldlM (allocBlock cx) (FS.init cx) = .ok (FS.init cx, Dbg.init).1 ∧
      (∃ eb ea, Glob cx C ([] : List Nat).reverse (FS.init cx, Dbg.init).1 eb ea) ∧
      ∃ B, En w B (AccB cx w ([] : List Nat).reverse) (DefIn cx ([] : List Nat).reverse w) (FS.init cx, Dbg.init) ∧
        ∀ b, b < cx.f.numBlocks → b ∉ ([] : List Nat) → 2 * (cx.f.insns b).2 ≤ B :=
    ⟨rfl, ⟨_, _, init_glob H⟩, 2 * (cx.f.insns (cx.f.numBlocks - 1)).2, init_end he hf _, fun b hb _ => hmax b hb⟩
  have key := foldlM_inv (fun pre (t : FS × Dbg) => pre.foldlM (allocBlock cx) (FS.init cx) = .ok t.1 ∧
      (∃ eb ea, Glob cx C pre.reverse t.1 eb ea) ∧
      ∃ B, En w B (AccB cx w pre.reverse) (DefIn cx pre.reverse w) t ∧
        ∀ b, b < cx.f.numBlocks → b ∉ pre → 2 * (cx.f.insns b).2 ≤ B)
    h0 (by
    rintro pre b post s s' hl ⟨hrun, ⟨eb, ea, G⟩, B, D, hBd⟩ hs
    rw [List.reverse_append, List.reverse_singleton, List.singleton_append]
    have hl' : List.range cx.f.numBlocks = post.reverse ++ b :: pre.reverse := by
      have := congrArg List.reverse hl
      simpa using this
    have hpw : (List.range cx.f.numBlocks).Pairwise (· < ·) := List.pairwise_lt_range
    rw [hl', List.pairwise_append] at hpw
    have hbn : b < cx.f.numBlocks := by rw [← List.mem_range, hl']; simp
    have hbs : ∀ b', b' ∈ pre.reverse ↔ b < b' ∧ b' < cx.f.numBlocks := by
      intro b'
      constructor
      · intro hb'
        refine ⟨(List.pairwise_cons.mp hpw.2.1).1 b' hb', ?_⟩
        rw [← List.mem_range, hl']
        simp only [List.mem_append, List.mem_cons]
        exact .inr (.inr hb')
      · rintro ⟨h1, h2⟩
        rw [← List.mem_range, hl'] at h2
        simp only [List.mem_append, List.mem_cons] at h2
        rcases h2 with h2 | rfl | h2
        · have := hpw.2.2 b' h2 b (by simp)
          omega
        · omega
        · exact h2
    have hs' : allocBlock cx s.1 b = .ok s'.1 := by rw [← allocBlockD_fst, hs]; rfl
    obtain ⟨eb', ea', G'⟩ := glob_step H hbn hbs G (atEnd_of hl hrun) hs'
    have hnp : b ∉ pre := fun hp => by
      have := (hbs b).mp (List.mem_reverse.mpr hp); omega
    refine ⟨foldlM_snoc hrun hs', ⟨eb', ea', G'⟩, _, blockEnd he hf hwm hbn hbs G (hBd b hbn hnp) D hs, ?_⟩
    intro b' hb' hnb'
    simp only [List.mem_append, List.mem_singleton, not_or] at hnb'
    have hlt : b' < b := by
      rcases Nat.lt_trichotomy b' b with h3 | h3 | h3
      · exact h3
      · exact absurd h3 hnb'.2
      · exact absurd (List.mem_reverse.mp ((hbs b').mpr ⟨h3, hb'⟩)) hnb'.1
    have := insns_mono hf hlt hbn
    omega) h
  rw [List.reverse_reverse] at key
  obtain ⟨_, _, B, hE, _⟩ := key
  exact ⟨B, hE⟩

omit he in
/-- Accesses are to registers of the function. -/
theorem access_ne {p : Nat} (h : AccessEnds cx.f w p) : w ≠ VReg.MAX := by
  have hv := hf.vregs
  suffices w < cx.f.numVregs by omega
  obtain ⟨b, hb, i, hi, h⟩ := h
  have ho := hf.operands i (inst_lt hf hb hi)
  have hr : ∀ k q, w ∈ Liveness.regsAt (cx.f.operands i) k q → w < cx.f.numVregs := by
    intro k q hm
    obtain ⟨o, hm', rfl⟩ := List.mem_map.mp hm
    obtain ⟨h1, h2⟩ := List.mem_filter.mp hm'
    exact (ho.regs o h1 (of_decide_eq_true h2).2.2).2
  rcases h with ⟨hm, _⟩ | ⟨hm | ⟨r, hm, rfl⟩, _⟩ | ⟨k, s, hs, ⟨r, hm, rfl⟩, _⟩
  · exact hr _ _ hm
  · exact hr _ _ hm
  · obtain ⟨o, hm', rfl⟩ := List.mem_map.mp hm
    obtain ⟨h1, h2⟩ := List.mem_filter.mp hm'
    have hk : o.kind = .Def := by simpa using h2
    exact (ho.regs o h1 (ho.defs o h1 hk).1).2
  · exact ((hf.args b hb k s hs).2.1 r hm).2

omit he in
theorem access_acc {p : Nat} (h : AccessEnds cx.f w p) : AccB cx w (List.range cx.f.numBlocks) p := by
  obtain ⟨b, hb, i, hi, h⟩ := h
  refine ⟨b, List.mem_range.mpr hb, i, hi, ?_⟩
  have hop : ∀ o ∈ cx.f.operands i, ∃ k, (k, o) ∈ cx.opsOf i := by
    intro o ho
    obtain ⟨k, hk⟩ := List.mem_iff_getElem?.mp ho
    exact ⟨k, mem_opsOf.mpr hk⟩
  rcases h with ⟨hm, rfl⟩ | ⟨hm | ⟨r, hm, rfl⟩, rfl⟩ | ⟨k, s, hs, ⟨r, hm, rfl⟩, rfl, rfl⟩
  · obtain ⟨o, hm', rfl⟩ := List.mem_map.mp hm
    obtain ⟨h1, h2⟩ := List.mem_filter.mp hm'
    have h2 := of_decide_eq_true h2
    obtain ⟨k, hk⟩ := hop o h1
    exact .inl ⟨(k, o), hk, rfl, (opPt_early h2.2.1 h2.1).symm⟩
  · obtain ⟨o, hm', rfl⟩ := List.mem_map.mp hm
    obtain ⟨h1, h2⟩ := List.mem_filter.mp hm'
    have h2 := of_decide_eq_true h2
    obtain ⟨k, hk⟩ := hop o h1
    exact .inl ⟨(k, o), hk, rfl, (opPt_late h2.2.1).symm⟩
  · obtain ⟨o, hm', rfl⟩ := List.mem_map.mp hm
    obtain ⟨h1, h2⟩ := List.mem_filter.mp hm'
    have hk : o.kind = .Def := by simpa using h2
    obtain ⟨k, hk'⟩ := hop o h1
    exact .inl ⟨(k, o), hk', rfl, (opPt_def hk).symm⟩
  · have hbr := hf.succs_branch b hb (by intro e; rw [e] at hs; cases hs)
    obtain ⟨j, hj⟩ := List.mem_iff_getElem?.mp hm
    exact .inr ⟨hbr, (r, (cx.f.params s)[j]?), mem_pairs.mpr ⟨k, s, j, r, hs, hj, rfl⟩, rfl, rfl⟩

/-- A register gets its value at one point. -/
theorem starts_unique {s s' : Nat} (h : ValueStarts cx.f w s) (h' : ValueStarts cx.f w s') : s = s' := by
  have H := fnOk he hf
  obtain ⟨b, hb, h⟩ := h
  obtain ⟨b', hb', h'⟩ := h'
  have hmem : ∀ b s, ((∃ q ∈ cx.f.params b, q.vreg = w ∧ s = 2 * (cx.f.insns b).1) ∨
      ∃ i ∈ cx.f.blockInsts b, (∃ r ∈ opWrites (cx.f.operands i), r.vreg = w) ∧ s = 2 * i + 1) → DefIn cx [b] w := by
    intro b s h
    rcases h with ⟨q, hq, e, _⟩ | ⟨i, hi, hr, _⟩
    · exact ⟨b, by simp, .inl ⟨q, hq, e⟩⟩
    · exact ⟨b, by simp, .inr ⟨i, hi, DDi_iff.mpr hr⟩⟩
  have e := H.defOnce b b' w hb hb' (hmem b s h) (hmem b' s' h')
  subst e
  rcases h with ⟨q, hq, e, rfl⟩ | ⟨i, hi, hr, rfl⟩ <;> rcases h' with ⟨q', hq', e', rfl⟩ | ⟨i', hi', hr', rfl⟩
  · rfl
  · exact absurd (DDi_iff.mpr (by rw [e]; exact hr')) (H.parDef b hb q hq i' hi')
  · exact absurd (DDi_iff.mpr (by rw [e']; exact hr)) (H.parDef b hb q' hq' i hi)
  · rw [H.defDef b hb i hi i' hi' w (DDi_iff.mpr hr) (DDi_iff.mpr hr')]

/-- What is recorded for a register that has a value and is accessed. -/
theorem recorded {t : FS} {d : Dbg} (h : runEnvD cx = .ok (t, d)) {s p : Nat} (hs : ValueStarts cx.f w s)
    (hp : AccessEnds cx.f w p) : (d w).1 = some s ∧ ∃ u, (d w).2.1 = some u ∧ p ≤ u := by
  obtain ⟨B, E⟩ := runEnd he hf (access_ne hf hp) h
  refine ⟨?_, E.acc p (access_acc hf hp)⟩
  have h1 := E.start (starts_def hs) ⟨p, access_acc hf hp⟩
  cases h2 : (d w).1 with
  | none => exact absurd h2 h1
  | some s' => rw [starts_unique he hf hs ((points_run hf h w).1 s' h2)]

end

end Fast
end Regalloc
