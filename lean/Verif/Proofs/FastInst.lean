import Verif.Proofs.FastSetup
import Verif.Proofs.CheckerSound

/-
Single-pass allocator: all the operands of an instruction, the moves into the used
registers, and the execution of the instruction.
-/
namespace Regalloc
namespace Fast
open Exec

theorem OpFr.trans {cx : Cx} {i : Nat} {W K : Nat → Prop} {s1 s2 s3 : FS} {loc1 loc2 loc3 : Nat → Option Allocation}
    {d1 d2 d3 : Nat → Prop} (h : OpFr cx i W K s1 loc1 d1 s2 loc2 d2) (g : OpFr cx i W K s2 loc2 d2 s3 loc3 d3)
    (hd : ∀ k, d2 k → d3 k) : OpFr cx i W K s1 loc1 d1 s3 loc3 d3 := by
  have mono : ∀ w, DD cx i d2 w → DD cx i d3 w := by
    rintro w ⟨k, o, q1, q2, q3⟩
    exact ⟨k, o, q1, hd k q2, q3⟩
  refine ⟨fun v n e => g.slot v n (h.slot v n e), fun i' e => (g.allocs i' e).trans (h.allocs i' e), ?_, ?_, ?_⟩
  · intro w hw
    rcases h.allocMono w hw with e | e
    · exact g.allocMono w e
    · exact .inr (mono w e)
  · intro w n h1 h2
    rcases h.stkMono w n h1 h2 with e | e
    · exact g.stkMono w n (h.slot w n h1) e
    · exact .inr (mono w e)
  · obtain ⟨E1, hE1, hS1⟩ := h.sat
    obtain ⟨E2, hE2, hS2⟩ := g.sat
    refine ⟨E2 ++ E1, by rw [hE2, hE1, List.map_append, List.append_assoc], ?_⟩
    intro Val F L1 L2 V A hF hL1 hL2 hS
    rw [execE_append]
    exact hS1 F L1 L2 V _ (hF.of_mono g.slot) hL1 hL2 (hS2 F L1 L2 V A hF hL1 hL2 hS)

theorem OpFr.refl {cx : Cx} {i : Nat} {W K : Nat → Prop} {s : FS} {loc : Nat → Option Allocation} {d : Nat → Prop} :
    OpFr cx i W K s loc d s loc d :=
  ⟨fun _ _ h => h, fun _ _ => rfl, fun _ h => .inl h, fun _ _ _ h => .inl h, [], rfl, fun _ _ _ _ _ _ _ _ h => h⟩

/-- Every operand. -/
def AllOps (cx : Cx) (i : Nat) (k : Nat) : Prop := ∃ o, (cx.f.operands i)[k]? = some o

section
variable {cx : Cx} {C : Nat → VReg} {P0 : Nat → Prop} {i : Nat} {W K : Nat → Prop}

theorem mem_opsAt {pos : OperandPos} {k : Nat} {o : Op} :
    (k, o) ∈ opsAt cx i pos ↔ (cx.f.operands i)[k]? = some o ∧ o.pos = pos := by
  unfold opsAt
  rw [List.mem_filter, mem_opsOf]
  simp

theorem opsAt_nodup (pos : OperandPos) : ((opsAt cx i pos).map Prod.fst).Nodup :=
  List.Nodup.sublist (List.Sublist.map _ (List.filter_sublist)) (opsOf_nodup cx i)

theorem foldlM_snoc {α σ : Type} {f : σ → α → R σ} {l : List α} {x : α} {s t t' : σ} (h : l.foldlM f s = .ok t)
    (hx : f t x = .ok t') : (l ++ [x]).foldlM f s = .ok t' := by
  rw [List.foldlM_append, h]
  show (List.foldlM f t [x] : R σ) = _
  rw [List.foldlM_cons, hx]
  rfl

/-- The order in which operands are processed. -/
theorem ops_order {pre post : List (Nat × Op)} {x : Nat × Op} (hl : opsAt cx i .Late ++ opsAt cx i .Early = pre ++ x :: post) :
    (cx.f.operands i)[x.1]? = some x.2 ∧ (¬ ∃ o, (x.1, o) ∈ pre) ∧
    (∀ k o, (k, o) ∈ pre → (cx.f.operands i)[k]? = some o) ∧
    (x.2.pos = .Late → ∀ k o, (k, o) ∈ pre → o.pos = .Late) ∧
    (x.2.pos = .Early → ∀ (k : Nat) o, (cx.f.operands i)[k]? = some o → o.pos = .Late → (k, o) ∈ pre) := by
  obtain ⟨k, o⟩ := x
  have hm : ∀ y, y ∈ pre ++ (k, o) :: post → (cx.f.operands i)[y.1]? = some y.2 := by
    rintro ⟨k', o'⟩ hy
    rw [← hl] at hy
    rcases List.mem_append.mp hy with hy | hy <;> exact (mem_opsAt.mp hy).1
  have hnd : ((opsAt cx i .Late ++ opsAt cx i .Early).map Prod.fst).Nodup := by
    rw [List.map_append, List.nodup_append]
    refine ⟨opsAt_nodup _, opsAt_nodup _, ?_⟩
    rintro a ha b hb rfl
    obtain ⟨⟨k1, o1⟩, h1, rfl⟩ := List.mem_map.mp ha
    obtain ⟨⟨k2, o2⟩, h2, e⟩ := List.mem_map.mp hb
    obtain ⟨q1, q2⟩ := mem_opsAt.mp h1
    obtain ⟨q3, q4⟩ := mem_opsAt.mp h2
    have e : k2 = k1 := e
    subst e
    rw [q1] at q3; cases q3
    rw [q2] at q4; cases q4
  have hlate : o.pos = .Late → ∀ k' o', (k', o') ∈ pre → o'.pos = .Late := by
    intro hp k' o' hm'
    rcases List.append_eq_append_iff.mp hl with ⟨a, h1, h2⟩ | ⟨a, h1, h2⟩
    · have : (k, o) ∈ opsAt cx i .Early := by rw [h2]; simp
      rw [(mem_opsAt.mp this).2] at hp; cases hp
    · have : (k', o') ∈ opsAt cx i .Late := by rw [h1]; exact List.mem_append_left _ hm'
      exact (mem_opsAt.mp this).2
  refine ⟨hm (k, o) (by simp), ?_, fun k' o' h => hm (k', o') (List.mem_append_left _ h), hlate, ?_⟩
  · rintro ⟨o', h⟩
    rw [hl, List.map_append, List.map_cons] at hnd
    exact (List.nodup_append.mp hnd).2.2 k (List.mem_map.mpr ⟨_, h, rfl⟩) k (by simp) rfl
  · intro hp k' o' ho' hp'
    have hin : (k', o') ∈ opsAt cx i .Late := mem_opsAt.mpr ⟨ho', hp'⟩
    rcases List.append_eq_append_iff.mp hl with ⟨a, h1, h2⟩ | ⟨a, h1, h2⟩
    · rw [h1]; exact List.mem_append_left _ hin
    · cases a with
      | nil => rw [h1, List.append_nil] at hin; exact hin
      | cons y a =>
        rw [List.cons_append, List.cons.injEq] at h2
        have : (k, o) ∈ opsAt cx i .Late := by rw [h1, h2.1]; simp
        rw [(mem_opsAt.mp this).2] at hp; cases hp

/-- When a register in `K` is defined, it is kept in its slot. -/
def DefAtSlot (cx : Cx) (b i : Nat) (K : Nat → Prop) (s : FS) : Prop :=
  ∀ pre x post t, opsAt cx i .Late ++ opsAt cx i .Early = pre ++ x :: post → pre.foldlM (allocOp cx b i) s = .ok t →
    x.2.kind = .Def → K x.2.vreg.vreg → ∃ n, t.slot x.2.vreg.vreg = some n ∧ t.alloc x.2.vreg.vreg = stk n

/-- The first operands in the order of processing. -/
theorem opsPre_spec (he : EnvOk cx) (hi : IOk cx C i)
    (hP0 : ∀ (k : Nat) o, (cx.f.operands i)[k]? = some o → o.asFixedNonallocatable = none → ¬ P0 o.vreg.vreg)
    {s s' : FS} {loc : Nat → Option Allocation} {b : Nat} (st : Stp cx C P0 i W s loc (fun _ => False))
    (hkd : DefAtSlot cx b i K s) {l rest : List (Nat × Op)} (hl : opsAt cx i .Late ++ opsAt cx i .Early = l ++ rest)
    (h : l.foldlM (allocOp cx b i) s = .ok s') :
    ∃ loc', Stp cx C P0 i W s' loc' (fun k => ∃ o, (k, o) ∈ l) ∧
      OpFr cx i W K s loc (fun _ => False) s' loc' (fun k => ∃ o, (k, o) ∈ l) := by
  refine (foldlM_inv (fun pre t => pre.foldlM (allocOp cx b i) s = .ok t ∧ ∃ loc', Stp cx C P0 i W t loc' (fun k => ∃ o, (k, o) ∈ pre) ∧
      OpFr cx i W K s loc (fun _ => False) t loc' (fun k => ∃ o, (k, o) ∈ pre)) ?_ ?_ h).2
  · have e : (fun k => ∃ o : Op, (k, o) ∈ ([] : List (Nat × Op))) = (fun _ : Nat => False) := by
      funext k; simp
    rw [e]
    exact ⟨rfl, loc, st, OpFr.refl⟩
  · rintro pre ⟨k, o⟩ post t t' hpre ⟨ht, loc1, st1, fr1⟩ hstep
    have hl' : opsAt cx i .Late ++ opsAt cx i .Early = pre ++ (k, o) :: (post ++ rest) := by
      rw [hl, hpre, List.append_assoc, List.cons_append]
    obtain ⟨q1, q2, q3, q4, q5⟩ := ops_order hl'
    obtain ⟨loc2, st2, fr2⟩ := allocOp_spec (K := K) he hi st1 q1 q2 (by
        rintro hp k' o' ho' ⟨o2, hd⟩
        have := q3 k' o2 hd
        rw [ho'] at this; cases this
        exact q4 hp k' o' hd) (by
        intro hp k' o' ho' hp'
        exact ⟨o', q5 hp k' o' ho' hp'⟩) (hP0 k o q1) (hkd pre (k, o) _ t hl' ht) hstep
    have e : (fun x => (∃ o, (x, o) ∈ pre) ∨ x = k) = (fun x => ∃ o', (x, o') ∈ pre ++ [(k, o)]) := by
      funext x
      refine propext ⟨?_, ?_⟩
      · rintro (⟨o', h⟩ | h)
        · exact ⟨o', by simp [h]⟩
        · exact ⟨o, by simp [h]⟩
      · rintro ⟨o', h⟩
        rcases List.mem_append.mp h with h | h
        · exact .inl ⟨o', h⟩
        · simp only [List.mem_singleton, Prod.mk.injEq] at h
          exact .inr h.1
    rw [e] at st2 fr2
    refine ⟨foldlM_snoc ht hstep, loc2, st2, fr1.trans fr2 ?_⟩
    rintro x ⟨o', h⟩
    exact ⟨o', by simp [h]⟩

theorem instOps_eq {s s' : FS} {b : Nat} (h : instOps cx s b i = .ok s') :
    (opsAt cx i .Late ++ opsAt cx i .Early).foldlM (allocOp cx b i) s = .ok s' := by
  unfold instOps at h
  split at h
  · cases h
  · next s1 h1 =>
    rw [List.foldlM_append, h1]
    exact h

/-- All operands of the instruction. -/
theorem instOps_spec (he : EnvOk cx) (hi : IOk cx C i)
    (hP0 : ∀ (k : Nat) o, (cx.f.operands i)[k]? = some o → o.asFixedNonallocatable = none → ¬ P0 o.vreg.vreg)
    {s s' : FS} {loc : Nat → Option Allocation} {b : Nat} (st : Stp cx C P0 i W s loc (fun _ => False))
    (hkd : DefAtSlot cx b i K s) (h : instOps cx s b i = .ok s') :
    ∃ loc', Stp cx C P0 i W s' loc' (AllOps cx i) ∧ OpFr cx i W K s loc (fun _ => False) s' loc' (AllOps cx i) := by
  obtain ⟨loc', st', fr'⟩ := opsPre_spec he hi hP0 st hkd (List.append_nil _).symm (instOps_eq h)
  have e : (fun k => ∃ o, (k, o) ∈ opsAt cx i .Late ++ opsAt cx i .Early) = AllOps cx i := by
    funext k
    refine propext ⟨?_, ?_⟩
    · rintro ⟨o, h⟩
      rcases List.mem_append.mp h with h | h <;> exact ⟨o, (mem_opsAt.mp h).1⟩
    · rintro ⟨o, h⟩
      cases hp : o.pos with
      | Late => exact ⟨o, List.mem_append_left _ (mem_opsAt.mpr ⟨h, hp⟩)⟩
      | Early => exact ⟨o, List.mem_append_right _ (mem_opsAt.mpr ⟨h, hp⟩)⟩
  rw [e] at st' fr'
  exact ⟨loc', st', fr'⟩

/-- A register kept in its slot before the instruction is kept there until its definition. -/
theorem defAtSlot_of (he : EnvOk cx) (hi : IOk cx C i)
    (hP0 : ∀ (k : Nat) o, (cx.f.operands i)[k]? = some o → o.asFixedNonallocatable = none → ¬ P0 o.vreg.vreg)
    {s : FS} {loc : Nat → Option Allocation} {b : Nat} (st : Stp cx C P0 i W s loc (fun _ => False))
    (hkd : ∀ (k : Nat) o, (cx.f.operands i)[k]? = some o → o.kind = .Def → K o.vreg.vreg →
      ∃ n, s.slot o.vreg.vreg = some n ∧ s.alloc o.vreg.vreg = stk n) : DefAtSlot cx b i K s := by
  rintro pre ⟨k, o⟩ post t hl ht hk hK
  obtain ⟨q1, q2, q3, _⟩ := ops_order hl
  obtain ⟨loc', st', fr'⟩ := opsPre_spec (K := fun _ => False) he hi hP0 st (fun _ _ _ _ _ _ _ h => h.elim) hl ht
  obtain ⟨n, e1, e2⟩ := hkd k o q1 hk hK
  refine ⟨n, fr'.slot _ _ e1, (fr'.stkMono _ n e1 e2).resolve_right ?_⟩
  rintro ⟨k', o', h1, h2, h3, h4⟩
  have hne : k' ≠ k := by rintro rfl; exact q2 h2
  exact hi.defUniq k' k o' o h1 q1 hne h3 (hi.defNa k o q1 hk) h4

/-! ### Moves into the used locations -/

/-- Locations read by the uses satisfying `Q`. -/
def XU (cx : Cx) (i : Nat) (loc : Nat → Option Allocation) (Q : Nat → Prop) (l : Allocation) (w : Nat) : Prop :=
  ∃ (k : Nat) (o : Op), (cx.f.operands i)[k]? = some o ∧ Q k ∧ o.kind = .Use ∧ o.asFixedNonallocatable = none ∧
    o.vreg.vreg = w ∧ loc k = some l

/-- A register read by the instruction. -/
def UU (cx : Cx) (i : Nat) (w : Nat) : Prop :=
  ∃ (k : Nat) (o : Op), (cx.f.operands i)[k]? = some o ∧ o.kind = .Use ∧ o.asFixedNonallocatable = none ∧ o.vreg.vreg = w

theorem useMove_step (he : EnvOk cx) (hi : IOk cx C i) {P : Nat → Prop} {s s' : FS} {loc : Nat → Option Allocation}
    (I : Inv cx C P s) (S : ScrOk cx s) (j : J cx i W P s loc (AllOps cx i) (fun _ => False)) {k : Nat} {o : Op}
    (ho : (cx.f.operands i)[k]? = some o) (h : useMove cx i s (k, o) = .ok s') :
    Inv cx C P s' ∧ ScrOk cx s' ∧ Fr s s' ∧
      ∃ E : List Edit, s'.edits = E.map (fun e => (pt i .Before, e)) ++ s.edits ∧
        ∀ {Val : Type} (F : Nat → Option Nat) (L1 L2 : Nat → Prop) (Q : Nat → Prop) (V : Nat → Val) (A : Allocation → Val),
          FOk F s' → (∀ w, UU cx i w → L1 w) → Sat F s' L1 L2 (XU cx i loc (fun x => Q x ∧ x ≠ k)) V A →
          Sat F s L1 L2 (XU cx i loc Q) V (execE E A) := by
  unfold useMove at h
  dsimp only at h
  split at h
  · next hc =>
    cases h
    refine ⟨I, S, Fr.refl _, [], rfl, ?_⟩
    intro Val F L1 L2 Q V A hF _ hS
    refine ⟨hS.here, hS.slot, ?_⟩
    rintro l w ⟨k', o', q1, q2, q3, q4, q5, q6⟩
    refine hS.extra l w ⟨k', o', q1, ⟨q2, ?_⟩, q3, q4, q5, q6⟩
    rintro rfl
    rw [ho] at q1; cases q1
    rcases hc with hc | hc
    · exact hc q3
    · rw [q4] at hc; cases hc
  · next hc =>
    have hk : o.kind = .Use := by
      cases e : o.kind with
      | Use => rfl
      | Def => exact absurd (.inl (by rw [e]; simp)) hc
    have hna : o.asFixedNonallocatable = none := by
      cases e : o.asFixedNonallocatable with
      | none => rfl
      | some p => exact absurd (.inr (by rw [e]; rfl)) hc
    obtain ⟨a, hla⟩ := j.hasLoc k o ⟨o, ho⟩ ho hna
    have haa := j.locDone k a ⟨o, ho⟩ hla
    have hlive := j.useLive k o ⟨o, ho⟩ ho hk hna
    have hUU : UU cx i o.vreg.vreg := ⟨k, o, ho, hk, hna, rfl⟩
    rw [haa] at h
    -- operands at the same location name the same register
    have same : ∀ (k' : Nat) o', (cx.f.operands i)[k']? = some o' → o'.kind = .Use → loc k' = some a →
        o'.vreg.vreg = o.vreg.vreg := by
      intro k' o' ho' hk' hl'
      by_cases e : k' = k
      · subst e; rw [ho] at ho'; cases ho'; rfl
      · rcases j.real k o a ho hla with ⟨p, hp, _⟩ | ⟨n, hn, hs⟩
        · rw [hp] at hl' hla
          rcases j.compat k' k o' o p ho' ho e hl' hla with ⟨_, _, q⟩ | ⟨q, _⟩ | ⟨j', _, q, _⟩ | ⟨j', _, q, _⟩
          · exact q
          · exact absurd ⟨.inl hk', .inl hk⟩ q
          · exact absurd q (hi.useC k o ho hk j')
          · exact absurd q (hi.useC k' o' ho' hk' j')
        · rcases j.real k' o' a ho' hl' with ⟨p, hp, _⟩ | ⟨m, hm, hs'⟩
          · rw [hn] at hp; exact absurd hp.symm (reg_ne_stk (I.slot29 hs))
          · rw [hn] at hm
            rw [stk_inj (I.slot29 hs) (I.slot29 hs') hm] at hs
            exact I.slotInj _ _ _ hs' hs
    split at h
    · next hne =>
      have hd : cx.isStack (s.alloc o.vreg.vreg) = true → cx.isStack a = true → DstOk cx s a := by
        intro h1 _
        rcases j.real k o a ho hla with ⟨p, hp, _⟩ | ⟨n, hn, hs⟩
        · exact .inl ⟨p, hp⟩
        · refine .inr ⟨o.vreg.vreg, n, hs, hn, ?_⟩
          intro r hr e
          rw [e, hr] at h1; cases h1
      obtain ⟨I1, S1, fr, _, _, E, hE, hM⟩ := addMove_spec he h I S hd
      have hkeep := addMove_keep he (v := o.vreg.vreg) h I S hd (fun h => ((Bool.and_eq_true _ _).mp h).1)
      refine ⟨I1, S1, fr, E, hE, ?_⟩
      intro Val F L1 L2 Q V A hF hL1 hS
      have hA : A (s.alloc o.vreg.vreg) = V o.vreg.vreg := by
        rw [← hkeep]
        exact hS.here _ (hL1 _ hUU) (by rw [hkeep]; exact hlive)
      have j1 := j.ofFr fr I1
      obtain ⟨hS1, hdst⟩ := hM F L1 L2 _ V A hF hS (by
        rintro l w ⟨k', o', q1, q2, q3, q4, q5, q6⟩ c r hr e
        rw [e] at q6
        exact j1.scr c r hr k' q6) (by
        intro w hw e
        suffices hwv : w = o.vreg.vreg by rw [hwv, hA]
        rcases j.real k o a ho hla with ⟨p, hp, _⟩ | ⟨n, hn, hs⟩
        · by_cases hW : W w
          · rw [hp] at e hla
            exact (j.through w p k o hW e ho hla).symm
          · rw [hp] at e
            obtain ⟨k2, o2, q1, q2, q3, q4, q5⟩ := j.fresh w p hW (fun h => h) e
            rw [← hp] at q5
            rw [← q4]
            exact same k2 o2 q1 q3 q5
        · rw [hn] at e
          exact I.slotInj _ _ _ (I.stk_slot (I.slot29 hs) e) hs) (by
        intro w n hw hn e
        suffices hwv : w = o.vreg.vreg by rw [hwv, hA]
        rcases j.real k o a ho hla with ⟨p, hp, _⟩ | ⟨m, hm, hs⟩
        · rw [hp] at e; exact absurd e.symm (reg_ne_stk (hF.lt _ _ hn))
        · rw [hm] at e
          rw [stk_inj (hF.lt _ _ hn) (I.slot29 hs) e] at hn
          exact hF.inj _ _ _ hn (hF.ext _ _ (fr.slot _ _ hs))) (by
        rintro l w ⟨k', o', q1, q2, q3, q4, q5, q6⟩ e
        rw [e] at q6
        rw [← q5, same k' o' q1 q3 q6, hA])
      refine ⟨hS1.here, hS1.slot, ?_⟩
      rintro l w ⟨k', o', q1, q2, q3, q4, q5, q6⟩
      by_cases e : k' = k
      · subst e
        rw [ho] at q1; cases q1
        rw [hla] at q6; cases q6
        rw [hdst, hA, q5]
      · exact hS1.extra l w ⟨k', o', q1, ⟨q2, e⟩, q3, q4, q5, q6⟩
    · next heq =>
      cases h
      have heq : s.alloc o.vreg.vreg = a := by simpa using heq
      refine ⟨I, S, Fr.refl _, [], rfl, ?_⟩
      intro Val F L1 L2 Q V A hF hL1 hS
      refine ⟨hS.here, hS.slot, ?_⟩
      rintro l w ⟨k', o', q1, q2, q3, q4, q5, q6⟩
      by_cases e : k' = k
      · subst e
        rw [ho] at q1; cases q1
        rw [hla] at q6; cases q6
        have := hS.here _ (hL1 _ hUU) hlive
        rw [heq, q5] at this
        exact this
      · exact hS.extra l w ⟨k', o', q1, ⟨q2, e⟩, q3, q4, q5, q6⟩

/-- All the moves. -/
theorem useMoves_spec (he : EnvOk cx) (hi : IOk cx C i) {P : Nat → Prop} {s s' : FS} {loc : Nat → Option Allocation}
    (I : Inv cx C P s) (S : ScrOk cx s) (j : J cx i W P s loc (AllOps cx i) (fun _ => False))
    (h : (cx.opsOf i).foldlM (useMove cx i) s = .ok s') :
    Inv cx C P s' ∧ ScrOk cx s' ∧ Fr s s' ∧
      ∃ E : List Edit, s'.edits = E.map (fun e => (pt i .Before, e)) ++ s.edits ∧
        ∀ {Val : Type} (F : Nat → Option Nat) (L1 L2 : Nat → Prop) (V : Nat → Val) (A : Allocation → Val),
          FOk F s' → (∀ w, UU cx i w → L1 w) → Sat F s' L1 L2 (fun _ _ => False) V A →
          Sat F s L1 L2 (XU cx i loc (fun _ => True)) V (execE E A) := by
  have H := foldlM_inv (fun pre t => Inv cx C P t ∧ ScrOk cx t ∧ Fr s t ∧
      ∃ E : List Edit, t.edits = E.map (fun e => (pt i .Before, e)) ++ s.edits ∧
        ∀ {Val : Type} (F : Nat → Option Nat) (L1 L2 : Nat → Prop) (V : Nat → Val) (A : Allocation → Val),
          FOk F t → (∀ w, UU cx i w → L1 w) → Sat F t L1 L2 (XU cx i loc (fun x => ¬ ∃ o, (x, o) ∈ pre)) V A →
          Sat F s L1 L2 (XU cx i loc (fun _ => True)) V (execE E A)) ?_ ?_ h
  · obtain ⟨I', S', fr, E, hE, hS⟩ := H
    refine ⟨I', S', fr, E, hE, ?_⟩
    intro Val F L1 L2 V A hF hL1 hSat
    refine hS F L1 L2 V A hF hL1 (hSat.weaken (fun _ h => h) (fun _ h => h) ?_)
    rintro l w ⟨k, o, q1, q2, _⟩
    exact q2 ⟨o, mem_opsOf.mpr q1⟩
  · refine ⟨I, S, Fr.refl _, [], rfl, ?_⟩
    intro Val F L1 L2 V A hF hL1 hSat
    refine hSat.weaken (fun _ h => h) (fun _ h => h) ?_
    rintro l w ⟨k, o, q1, q2, q3⟩
    exact ⟨k, o, q1, by simp, q3⟩
  · rintro pre ⟨k, o⟩ post t t' hpre ⟨I1, S1, fr1, E1, hE1, hS1⟩ hstep
    have ho : (cx.f.operands i)[k]? = some o := mem_opsOf.mp (by rw [hpre]; simp)
    obtain ⟨I2, S2, fr2, E2, hE2, hS2⟩ := useMove_step he hi I1 S1 (j.ofFr fr1 I1) ho hstep
    refine ⟨I2, S2, fr1.trans fr2, E2 ++ E1, by rw [hE2, hE1, List.map_append, List.append_assoc], ?_⟩
    intro Val F L1 L2 V A hF hL1 hSat
    rw [execE_append]
    refine hS1 F L1 L2 V _ (hF.of_mono fr2.slot) hL1 (hS2 F L1 L2 _ V A hF hL1 (hSat.weaken (fun _ h => h) (fun _ h => h) ?_))
    rintro l w ⟨k', o', q1, ⟨q2, q2'⟩, q3⟩
    refine ⟨k', o', q1, ?_, q3⟩
    rintro ⟨o2, h⟩
    rcases List.mem_append.mp h with h | h
    · exact q2 ⟨o2, h⟩
    · simp only [List.mem_singleton, Prod.mk.injEq] at h
      exact q2' h.1


end

/-! ### Executing an instruction -/

section
variable {Val L : Type} [DecidableEq L]

/-- Definitions write different locations. -/
def DefsApart (ol : List (Op × L)) : Prop :=
  ol.Pairwise (fun p q => p.1.kind = .Def → q.1.kind = .Def → p.2 ≠ q.2)

theorem step_at (sem : InstSem Val) (i : Nat) (l1 : List (Op × L)) (p : Op × L) (l2 : List (Op × L)) (σ : L → Val)
    (hd : DefsApart (l1 ++ p :: l2)) (hk : p.1.kind = .Def) :
    (stepInst sem i (l1 ++ p :: l2) σ).2 p.2 =
      match p.1.pos with
      | .Early => sem.early i (stepInst sem i (l1 ++ p :: l2) σ).1.2.1 l1.length
      | .Late => sem.late i (stepInst sem i (l1 ++ p :: l2) σ).1.2.1 (stepInst sem i (l1 ++ p :: l2) σ).1.2.2 l1.length := by
  unfold DefsApart at hd
  rw [List.pairwise_append, List.pairwise_cons] at hd
  obtain ⟨_, ⟨h2, _⟩, h3⟩ := hd
  have hl1 : ∀ q ∈ l1, q.1.kind = .Def → q.2 ≠ p.2 := fun q hq hk' => h3 q hq p (by simp) hk' hk
  have hl2 : ∀ q ∈ l2, q.1.kind = .Def → q.2 ≠ p.2 := fun q hq hk' => (h2 q hq hk hk').symm
  unfold stepInst
  dsimp only
  cases hp : p.1.pos with
  | Early =>
    dsimp only
    rw [Checker.writesFrom_other]
    · rw [Checker.writesFrom_at _ _ _ _ _ _ _ hk hp (fun q hq hk' _ => hl2 q hq hk'), Nat.zero_add]
    · intro q hq hk' hp'
      rcases List.mem_append.mp hq with hq | hq
      · exact hl1 q hq hk'
      · rcases List.mem_cons.mp hq with rfl | hq
        · rw [hp] at hp'; cases hp'
        · exact hl2 q hq hk'
  | Late =>
    dsimp only
    rw [Checker.writesFrom_at _ _ _ _ _ _ _ hk hp (fun q hq hk' _ => hl2 q hq hk'), Nat.zero_add]

theorem step_other (sem : InstSem Val) (i : Nat) (ol : List (Op × L)) (σ : L → Val) (l : L)
    (h : ∀ p ∈ ol, p.1.kind = .Def → p.2 ≠ l) : (stepInst sem i ol σ).2 l = σ l := by
  unfold stepInst
  dsimp only
  rw [Checker.writesFrom_other _ _ _ _ _ _ (fun p hp hk _ => h p hp hk),
    Checker.writesFrom_other _ _ _ _ _ _ (fun p hp hk _ => h p hp hk)]

end

/-- Executing on locations and on registers. -/
theorem step_rel {Val : Type} (sem : InstSem Val) (i : Nat) (ol : List (Op × Allocation)) (A : Allocation → Val) (V : VReg → Val)
    (hu : ∀ p ∈ ol, p.1.kind = .Use → p.1.asFixedNonallocatable = none → A p.2 = V p.1.vreg)
    (hl : ∀ p ∈ ol, ∀ q ∈ ol, p.1.kind = .Use → p.1.pos = .Late → p.1.asFixedNonallocatable = none → q.1.kind = .Def →
      q.1.pos = .Early → q.2 ≠ p.2 ∧ q.1.vreg ≠ p.1.vreg)
    (hd : DefsApart ol) (hd' : DefsApart (Checker.vlocs ol)) :
    (stepInst sem i ol A).1 = (stepInst sem i (Checker.vlocs ol) V).1 ∧
      ∀ p ∈ ol, p.1.kind = .Def → (stepInst sem i ol A).2 p.2 = (stepInst sem i (Checker.vlocs ol) V).2 p.1.vreg := by
  have h1 : (stepInst sem i ol A).1 = (stepInst sem i (Checker.vlocs ol) V).1 := by
    unfold stepInst
    dsimp only
    have e1 : reads .Early ol A = reads .Early (Checker.vlocs ol) V :=
      Checker.reads_eq .Early ol A V (fun p hp hk _ hn => hu p hp hk hn)
    rw [e1]
    refine congrArg _ (congrArg _ (Checker.reads_eq .Late ol _ _ ?_))
    intro p hp hk hpos hn
    rw [Checker.writesFrom_other, Checker.writesFrom_other]
    · exact hu p hp hk hn
    · intro q hq hqk hqp
      unfold Checker.vlocs at hq
      obtain ⟨q', hq', rfl⟩ := List.mem_map.mp hq
      exact (hl p hp q' hq' hk hpos hn hqk hqp).2
    · intro q hq hqk hqp
      exact (hl p hp q hq hk hpos hn hqk hqp).1
  refine ⟨h1, ?_⟩
  intro p hp hk
  obtain ⟨l1, l2, rfl⟩ := List.append_of_mem hp
  rw [step_at sem i l1 p l2 A hd hk]
  have e : Checker.vlocs (l1 ++ p :: l2) = Checker.vlocs l1 ++ (p.1, p.1.vreg) :: Checker.vlocs l2 := by
    simp [Checker.vlocs]
  rw [h1]
  rw [e] at hd' ⊢
  have := step_at sem i (Checker.vlocs l1) (p.1, p.1.vreg) (Checker.vlocs l2) V hd' hk
  rw [this]
  simp [Checker.vlocs]

/-- The operands of an instruction with their locations. -/
def opLocs (cx : Cx) (s : FS) (i : Nat) : List (Op × Allocation) :=
  (cx.f.operands i).zip ((List.range (cx.f.operands i).length).map (s.allocs i))

theorem opLocs_get {cx : Cx} {s : FS} {i k : Nat} {p : Op × Allocation} :
    (opLocs cx s i)[k]? = some p ↔ (cx.f.operands i)[k]? = some p.1 ∧ p.2 = s.allocs i k := by
  unfold opLocs
  rw [List.getElem?_zip_eq_some, List.getElem?_map, Option.map_eq_some_iff]
  constructor
  · rintro ⟨h1, a, h2, h3⟩
    have hlt := (List.getElem?_eq_some_iff.mp h1).1
    rw [List.getElem?_range hlt] at h2
    cases h2
    exact ⟨h1, h3.symm⟩
  · rintro ⟨h1, h2⟩
    have hlt := (List.getElem?_eq_some_iff.mp h1).1
    exact ⟨h1, k, List.getElem?_range hlt, h2.symm⟩

theorem mem_opLocs {cx : Cx} {s : FS} {i : Nat} {p : Op × Allocation} (h : p ∈ opLocs cx s i) :
    ∃ k : Nat, (cx.f.operands i)[k]? = some p.1 ∧ p.2 = s.allocs i k := by
  obtain ⟨k, hk⟩ := List.mem_iff_getElem?.mp h
  exact ⟨k, opLocs_get.mp hk⟩

theorem vlocs_opLocs (cx : Cx) (s : FS) (i : Nat) :
    Checker.vlocs (opLocs cx s i) = (cx.f.operands i).map (fun o => (o, o.vreg)) :=
  Checker.vlocs_zip _ _ (by simp)

/-- What clobbers leave behind. -/
def clobbered {Val : Type} (f : Func) (i : Nat) (junk : Allocation → Val) (A : Allocation → Val) : Allocation → Val :=
  fun a => if a ∈ (f.clobbers i).map Allocation.reg then junk a else A a

section
variable {cx : Cx} {C : Nat → VReg} {P : Nat → Prop} {i : Nat} {W : Nat → Prop}

theorem use_def_apart (hi : IOk cx C i) {s : FS} {loc : Nat → Option Allocation}
    (j : J cx i W P s loc (AllOps cx i) (fun _ => False)) (I : Inv cx C P s) {k k' : Nat} {o o' : Op}
    (ho : (cx.f.operands i)[k]? = some o) (ho' : (cx.f.operands i)[k']? = some o') (hne : k ≠ k')
    (hk' : o'.kind = .Def) (hL : occL o) {a : Allocation} (hl : loc k = some a) (hl' : loc k' = some a)
    (hlate : o.kind = .Use → o.pos = .Late) : False := by
  obtain ⟨p, rfl, _⟩ := j.defReg k' o' a ho' hk' hl'
  rcases j.compat k k' o o' p ho ho' hne hl hl' with ⟨_, q, _⟩ | ⟨_, q⟩ | ⟨_, _, _, _, q1, q2, _⟩ | ⟨_, _, _, _, q, _⟩
  · rw [hk'] at q; cases q
  · exact q ⟨hL, .inl hk'⟩
  · rw [hlate q1] at q2; cases q2
  · rw [hk'] at q; cases q

/-- Executing the instruction. -/
theorem exec_spec (hi : IOk cx C i) {s : FS} {loc : Nat → Option Allocation} (I : Inv cx C P s)
    (j : J cx i W P s loc (AllOps cx i) (fun _ => False)) {Val : Type} (sem : InstSem Val) (F : Nat → Option Nat)
    (L1 L2 Lb L2b : Nat → Prop) (V : VReg → Val) (A : Allocation → Val) (junk : Allocation → Val) (hF : FOk F s)
    (hW : ∀ w, L1 w → W w) (hC1 : ∀ w, L1 w → (C w).vreg = w) (hC2 : ∀ w, L2 w → (C w).vreg = w)
    (hb1 : ∀ w, L1 w → ¬ DD cx i (AllOps cx i) w → Lb w) (hb2 : ∀ w, L2 w → ¬ DD cx i (AllOps cx i) w → L2b w)
    (hS : Sat F s Lb L2b (XU cx i loc (fun _ => True)) (fun w => V (C w)) A) :
    (stepInst sem i (opLocs cx s i) A).1 = (stepInst sem i ((cx.f.operands i).map (fun o => (o, o.vreg))) V).1 ∧
      Sat F s (fun w => L1 w ∧ ¬ DD cx i (AllOps cx i) w) (fun w => L2 w ∧ ¬ DD cx i (AllOps cx i) w)
        (XD cx i loc (AllOps cx i)) (fun w => (stepInst sem i ((cx.f.operands i).map (fun o => (o, o.vreg))) V).2 (C w))
        (clobbered cx.f i junk (stepInst sem i (opLocs cx s i) A).2) := by
  have hloc : ∀ {k : Nat} {o : Op}, (cx.f.operands i)[k]? = some o → o.asFixedNonallocatable = none →
      loc k = some (s.allocs i k) := by
    intro k o ho hna
    obtain ⟨a, ha⟩ := j.hasLoc k o ⟨o, ho⟩ ho hna
    rw [j.locDone k a ⟨o, ho⟩ ha, ha]
  have hdef : ∀ {k : Nat} {o : Op}, (cx.f.operands i)[k]? = some o → o.kind = .Def → loc k = some (s.allocs i k) :=
    fun ho hk => hloc ho (hi.defNa _ _ ho hk)
  rw [← vlocs_opLocs cx s i]
  obtain ⟨h1, h2⟩ := step_rel sem i (opLocs cx s i) A V (by
      intro p hp hk hna
      obtain ⟨k, ho, ha⟩ := mem_opLocs hp
      have := hS.extra p.2 p.1.vreg.vreg ⟨k, p.1, ho, trivial, hk, hna, rfl, by rw [ha]; exact hloc ho hna⟩
      rw [this]
      rw [← (hi.vreg k p.1 ho hna).1]) (by
      intro p hp q hq hk hpos hna hqk hqp
      obtain ⟨k, ho, ha⟩ := mem_opLocs hp
      obtain ⟨k', ho', ha'⟩ := mem_opLocs hq
      have hne : k ≠ k' := by
        rintro rfl
        rw [ho] at ho'
        have := Option.some.inj ho'
        rw [this, hqk] at hk; cases hk
      refine ⟨?_, ?_⟩
      · intro e
        refine use_def_apart hi j I ho ho' hne hqk (.inr hpos) (hloc ho hna) ?_ (fun _ => hpos)
        rw [hdef ho' hqk, ← ha, ← ha', e]
      · intro e
        exact hi.defUniq k' k q.1 p.1 ho' ho (Ne.symm hne) hqk hna (by rw [e])) (by
      unfold DefsApart
      rw [List.pairwise_iff_getElem]
      intro k k' hk hk' hlt hd hd'
      have g := opLocs_get.mp (List.getElem?_eq_getElem hk)
      have g' := opLocs_get.mp (List.getElem?_eq_getElem hk')
      intro e
      refine use_def_apart hi j I g.1 g'.1 (by omega) hd' (.inl hd) (hdef g.1 hd) ?_ (fun h => by rw [hd] at h; cases h)
      rw [hdef g'.1 hd', ← g.2, ← g'.2, e]) (by
      unfold DefsApart
      rw [vlocs_opLocs, List.pairwise_iff_getElem]
      intro k k' hk hk' hlt hd hd'
      rw [List.getElem_map] at hd hd' ⊢
      rw [List.getElem_map]
      rw [List.length_map] at hk hk'
      have g := List.getElem?_eq_getElem hk
      have g' := List.getElem?_eq_getElem hk'
      intro e
      exact hi.defUniq k k' _ _ g g' (by omega) hd (hi.defNa _ _ g' hd') (by
        have : ((cx.f.operands i)[k]).vreg = ((cx.f.operands i)[k']).vreg := e
        rw [this]))
  refine ⟨h1, ?_⟩
  have hclob : ∀ p, Allocation.reg p ∈ (cx.f.clobbers i).map Allocation.reg → (cx.clob i).contains p = true := by
    intro p hp
    obtain ⟨q, hq, e⟩ := List.mem_map.mp hp
    cases reg_inj e
    exact (cont_ofList _ _).mpr hq
  have hclobS : ∀ {n}, n < 2 ^ 29 → stk n ∉ (cx.f.clobbers i).map Allocation.reg := by
    intro n hn hp
    obtain ⟨q, hq, e⟩ := List.mem_map.mp hp
    exact absurd e (reg_ne_stk hn)
  have defStk : ∀ {n}, n < 2 ^ 29 → ∀ p ∈ opLocs cx s i, p.1.kind = .Def → p.2 ≠ stk n := by
    intro n hn p hp hk e
    obtain ⟨k, ho, ha⟩ := mem_opLocs hp
    obtain ⟨q, hq, _⟩ := j.defReg k p.1 _ ho hk (hdef ho hk)
    rw [← ha, e] at hq
    exact absurd hq.symm (reg_ne_stk hn)
  have regV : ∀ w, (C w).vreg = w → ¬ DD cx i (AllOps cx i) w →
      (stepInst sem i (Checker.vlocs (opLocs cx s i)) V).2 (C w) = V (C w) := by
    intro w hc hd
    refine step_other sem i _ V (C w) ?_
    rw [vlocs_opLocs]
    intro p hp hk e
    obtain ⟨o, ho, rfl⟩ := List.mem_map.mp hp
    obtain ⟨k, hk'⟩ := List.mem_iff_getElem?.mp ho
    refine hd ⟨k, o, hk', ⟨o, hk'⟩, hk, ?_⟩
    have e : o.vreg = C w := e
    rw [e, hc]
  refine ⟨?_, ?_, ?_⟩
  · rintro w ⟨hw, hd⟩ hn
    rw [regV w (hC1 w hw) hd]
    rw [← hS.here w (hb1 w hw hd) hn]
    unfold clobbered
    rcases I.alloc w with e | ⟨p, x, e, _⟩ | ⟨n, hn', e⟩
    · exact absurd e hn
    · rw [e, if_neg (fun h => j.clobW w p (hW w hw) e (hclob p h))]
      refine step_other sem i _ A _ ?_
      intro q hq hk e2
      obtain ⟨k, ho, ha⟩ := mem_opLocs hq
      have := j.through w p k q.1 (hW w hw) e ho (by rw [hdef ho hk, ← ha, e2])
      exact hd ⟨k, q.1, ho, ⟨_, ho⟩, hk, this⟩
    · have h29 := I.slot29 hn'
      rw [e, if_neg (hclobS h29)]
      exact step_other sem i _ A _ (defStk h29)
  · rintro w n ⟨hw, hd⟩ hn
    rw [regV w (hC2 w hw) hd]
    rw [← hS.slot w n (hb2 w hw hd) hn]
    unfold clobbered
    have h29 := hF.lt _ _ hn
    rw [if_neg (hclobS h29)]
    exact step_other sem i _ A _ (defStk h29)
  · rintro l w ⟨k, o, ho, hd, hk, hw, hl⟩
    obtain ⟨p, rfl, hp⟩ := j.defReg k o l ho hk hl
    unfold clobbered
    rw [if_neg (fun h => hp (hclob p h))]
    have hm : (o, s.allocs i k) ∈ opLocs cx s i := List.mem_iff_getElem?.mpr ⟨k, opLocs_get.mpr ⟨ho, rfl⟩⟩
    have := h2 _ hm hk
    rw [hdef ho hk] at hl
    rw [← Option.some.inj hl, this, ← hw]
    dsimp only
    rw [← (hi.vreg k o ho (hi.defNa k o ho hk)).1]

end

/-- The result of the steps of `alloc_inst` before branch arguments. -/
structure InstR (cx : Cx) (C : Nat → VReg) (P0 : Nat → Prop) (i : Nat) (K : Nat → Prop) (s s' : FS)
    (loc : Nat → Option Allocation) : Prop where
  inv : Inv cx C (PD cx i P0 (AllOps cx i)) s'
  scr : ScrOk cx s'
  j : J cx i (Held s) (PD cx i P0 (AllOps cx i)) s' loc (AllOps cx i) (fun _ => False)
  con : ∀ (k : Nat) o a, (cx.f.operands i)[k]? = some o → loc k = some a → ConOk cx o.constraint a
  req : ∀ (k kd : Nat) ok od, (cx.f.operands i)[k]? = some ok → (cx.f.operands i)[kd]? = some od →
    od.constraint = .Reuse k → loc k = loc kd
  slot : ∀ v n, s.slot v = some n → s'.slot v = some n
  allocs : ∀ i', i' ≠ i → s'.allocs i' = s.allocs i'
  allocMono : ∀ w, s.alloc w ≠ Allocation.none → s'.alloc w ≠ Allocation.none ∨ DD cx i (AllOps cx i) w
  stkMono : ∀ w n, s.slot w = some n → s.alloc w = stk n → s'.alloc w = stk n ∨ DD cx i (AllOps cx i) w
  tr : ∃ Eb Ea : List Edit, s'.edits = Eb.map (fun e => (pt i .Before, e)) ++ Ea.map (fun e => (pt i .After, e)) ++ s.edits ∧
    ∀ {Val : Type} (sem : InstSem Val) (F : Nat → Option Nat) (L : Nat → Prop) (V : VReg → Val) (A : Allocation → Val)
      (junk : Allocation → Val), FOk F s' → (∀ w, L w → (C w).vreg = w) →
      Sat F s' (fun w => UU cx i w ∨ (L w ∧ ¬ DD cx i (AllOps cx i) w))
        (fun w => K w ∧ (UU cx i w ∨ (L w ∧ ¬ DD cx i (AllOps cx i) w))) (fun _ _ => False) (fun w => V (C w)) A →
      (stepInst sem i (opLocs cx s' i) (execE Eb A)).1 =
          (stepInst sem i ((cx.f.operands i).map (fun o => (o, o.vreg))) V).1 ∧
        Sat F s L (fun w => K w ∧ L w) (fun _ _ => False)
          (fun w => (stepInst sem i ((cx.f.operands i).map (fun o => (o, o.vreg))) V).2 (C w))
          (execE Ea (clobbered cx.f i junk (stepInst sem i (opLocs cx s' i) (execE Eb A)).2)) ∧
        ∀ w n, K w → L w → ¬ DD cx i (AllOps cx i) w → F w = some n →
          clobbered cx.f i junk (stepInst sem i (opLocs cx s' i) (execE Eb A)).2 (stk n) =
            (stepInst sem i ((cx.f.operands i).map (fun o => (o, o.vreg))) V).2 (C w)

section
variable {cx : Cx} {C : Nat → VReg} {P0 : Nat → Prop} {i : Nat} {K : Nat → Prop}

theorem instR_spec {s s1 s2 s3 s4 : FS} {b nc : Nat} (he : EnvOk cx) (hi : IOk cx C i) (I : Inv cx C P0 s)
    (hr : s.reused = fun _ => none) (hal : ∀ k, s.allocs i k = Allocation.none)
    (hP0 : ∀ (k : Nat) o, (cx.f.operands i)[k]? = some o → o.asFixedNonallocatable = none → ¬ P0 o.vreg.vreg)
    (hkd : DefAtSlot cx b i K s2)
    (h1 : instSetup cx s i = .ok (s1, nc)) (h2 : instEvict cx s1 nc i = .ok s2) (h3 : instOps cx s2 b i = .ok s3)
    (h4 : (cx.opsOf i).foldlM (useMove cx i) s3 = .ok s4) : ∃ loc, InstR cx C P0 i K s s4 loc := by
  obtain ⟨st, haw, hslot, hallocs, Ea1, hEa1, hSa1⟩ := start_spec (b := b) he hi I hr hal h1 h2
  obtain ⟨loc, st3, fr3⟩ := instOps_spec he hi hP0 st hkd h3
  obtain ⟨I4, S4, fr4, Eb, hEb, hSb⟩ := useMoves_spec he hi st3.inv st3.scr st3.j h4
  have j4 := st3.j.ofFr fr4 I4
  obtain ⟨Ea2, hEa2, hSa2⟩ := fr3.sat
  have a4 : ∀ w, s3.alloc w ≠ Allocation.none → s4.alloc w ≠ Allocation.none := by
    intro w hw
    rcases fr4.alloc w with e | ⟨_, n, e1, e2⟩
    · rw [e]; exact hw
    · rw [e2]; exact stk_ne_none (I4.slot29 e1)
  have st4 : ∀ w n, s3.slot w = some n → s3.alloc w = stk n → s4.alloc w = stk n := by
    intro w n h1 h2
    rcases fr4.alloc w with e | ⟨_, m, e1, e2⟩
    · rw [e]; exact h2
    · rw [fr4.slot _ _ h1] at e1; cases e1; exact e2
  refine ⟨loc,
    { inv := I4
      scr := S4
      j := j4
      con := fun k o a ho hl => st3.con k o a ho ⟨o, ho⟩ hl
      req := fun k kd ok od hok hod hre => (st3.req k kd od ⟨ok, hok⟩ hod hre).2
      slot := fun v n h => fr4.slot v n (fr3.slot v n (hslot v n h))
      allocs := fun i' h => by rw [fr4.allocs, fr3.allocs i' h, hallocs]
      allocMono := ?_
      stkMono := ?_
      tr := ?_ }⟩
  · intro w hw
    have : s2.alloc w ≠ Allocation.none := by
      rcases haw w with e | ⟨n, e1, e2⟩
      · rw [e]; exact hw
      · rw [e2]; exact stk_ne_none (st.inv.slot29 e1)
    exact (fr3.allocMono w this).imp_left (a4 w)
  · intro w n h1 h2
    have : s2.alloc w = stk n := by
      rcases haw w with e | ⟨m, e1, e2⟩
      · rw [e]; exact h2
      · rw [hslot _ _ h1] at e1; cases e1; exact e2
    exact (fr3.stkMono w n (hslot _ _ h1) this).imp_left (st4 w n (fr3.slot _ _ (hslot _ _ h1)))
  · refine ⟨Eb, Ea2 ++ Ea1, by rw [hEb, hEa2, hEa1, List.map_append]; simp only [List.append_assoc], ?_⟩
    intro Val sem F L V A junk hF hLC hS
    have hF3 : FOk F s3 := hF.of_mono fr4.slot
    have hF2 : FOk F s2 := hF3.of_mono fr3.slot
    have hol : opLocs cx s4 i = opLocs cx s3 i := by unfold opLocs; rw [fr4.allocs]
    rw [hol]
    have hS3 := hSb F _ _ _ A hF (fun w hw => .inl hw) hS
    obtain ⟨g1, g2⟩ := exec_spec hi st3.inv st3.j sem F (fun w => L w ∧ Held s w) (fun w => K w ∧ L w) _ _ V _ junk hF3
      (fun w h => h.2) (fun w h => hLC w h.1) (fun w h => hLC w h.2) (fun w h hd => .inr ⟨h.1, hd⟩)
      (fun w h hd => ⟨h.1, .inr ⟨h.2, hd⟩⟩) hS3
    refine ⟨g1, ?_, fun w n h1 h2 h3 h4 => g2.slot w n ⟨⟨h1, h2⟩, h3⟩ h4⟩
    rw [execE_append]
    have g3 := hSa2 F (fun w => L w ∧ Held s w) (fun w => K w ∧ L w) _ _ hF3 (fun w h => h.2) (fun w h => h.1) g2
    have g4 := hSa1 F (fun w => L w ∧ Held s w) (fun w => K w ∧ L w) _ _ hF2 (g3.weaken
      (fun w h => ⟨h, fun ⟨_, _, _, hd, _⟩ => hd⟩) (fun w h => ⟨h, fun ⟨_, _, _, hd, _⟩ => hd⟩) (fun _ _ h => h.elim))
    exact ⟨fun w hw hn => g4.here w ⟨hw, hn⟩ hn, g4.slot, g4.extra⟩

end

end Fast
end Regalloc
