import Verif.Proofs.FastDead
import Batteries.Data.List.Perm

/-
The single-pass allocator finds enough registers: instructions, blocks and the whole run.
-/
namespace Regalloc
namespace Fast

open Classical in
/-- The registers an instruction names. -/
noncomputable def namesB (f : Func) (i : Nat) (p : PReg) : Bool := decide (Names f i p)

theorem namesB_iff {f : Func} {i : Nat} {p : PReg} : namesB f i p = true ↔ Names f i p := by unfold namesB; simp

/-- The operand asks for any register. -/
def AsksReg (cx : Cx) (i j : Nat) : Prop := ∃ o, (cx.f.operands i)[j]? = some o ∧ o.constraint = .Reg

section
variable {cx : Cx} {C : Nat → VReg} {k : Nat} {s s' : FS}

theorem counted_of {i : Nat} {o : Op} (ho : o ∈ cx.f.operands i) : Counted (namesB cx.f i) (decide (Flexible o)) o := by
  by_cases h : Flexible o
  · exact .inl (by simp [h])
  · right
    rcases hc : o.constraint with _ | _ | _ | p | j | n
    case Stack => exact .inl rfl
    case FixedReg => exact .inr ⟨p, rfl, namesB_iff.mpr (.inr ⟨o, ho, hc⟩)⟩
    all_goals exact absurd ⟨by rw [hc]; simp, by rw [hc]; simp⟩ h

theorem flexible_of {o : Op} (h : o.constraint = .Reg ∨ ∃ j, o.constraint = .Reuse j) : decide (Flexible o) = true := by
  rw [decide_eq_true_eq]
  rcases h with h | ⟨j, h⟩
  · exact ⟨by rw [h]; simp, by rw [h]; simp⟩
  · exact ⟨by rw [h]; simp, by rw [h]; simp⟩

theorem freealloc_fit {F : PReg → Bool} {RR : Nat → Prop} (h : Rm cx C F RR k s) (v : VReg) : Fit (freealloc s v) (fun s' => Rm cx C F RR k s') := by
  unfold freealloc
  dsimp only
  split
  · exact Fit.panic
  · split
    · exact Fit.panic
    · refine Fit.ok ⟨h.room, h.lru, ?_, h.re⟩
      intro p x hx
      dsimp only at hx
      cases hr : (s.alloc v.vreg).asReg with
      | none => rw [hr] at hx; exact h.inK p x hx
      | some r =>
        rw [hr] at hx
        dsimp only at hx
        by_cases e : p = r
        · subst e; rw [set1_same] at hx; cases hx
        · rw [set1_ne _ _ e] at hx; exact h.inK p x hx

theorem allocOp_fit (he : EnvOk cx) {b i : Nat} (hO : WorkableOps cx C i) (hbr : cx.f.isBranch i = true → ∀ o ∈ cx.f.operands i, o.kind = .Use)
    {x : Nat × Op} (hx : (cx.f.operands i)[x.1]? = some x.2) (h : Rm cx C (namesB cx.f i) (AsksReg cx i) k s)
    (hE : Enough cx C (namesB cx.f i) (k + cost (decide (Flexible x.2)))) :
    Fit (allocOp cx b i s x) (fun s' => Rm cx C (namesB cx.f i) (AsksReg cx i) (k + cost (decide (Flexible x.2))) s') := by
  obtain ⟨idx, o⟩ := x
  dsimp only at hx hE ⊢
  have ho := List.mem_of_getElem? hx
  have hu : o.asFixedNonallocatable = none → UsedC cx C (vcls o.vreg) := fun hna => Known.used (hO.regs o ho hna)
  unfold allocOp
  dsimp only
  split
  · rename_i hk
    have hu' := hu (hO.defs o ho hk)
    unfold allocDef
    have h1 : Fit (defOperand cx s b i o idx) (fun s' => Rm cx C (namesB cx.f i) (AsksReg cx i) (k + cost (decide (Flexible o))) s') := by
      unfold defOperand
      split
      · rename_i j hc
        split
        · exact Fit.panic
        · exact processOperand_fit he h hE (fun _ => hu') (.inl (flexible_of (.inr ⟨j, hc⟩)))
      · split
        · rename_i hb
          rw [Bool.and_eq_true] at hb
          have := hbr hb.1 o ho
          rw [hk] at this
          cases this
        · exact processOperand_fit he h hE hu (counted_of ho)
    split
    · exact h1.err ‹_›
    · rename_i s1 e1
      have k1 := h1.2 _ e1
      have h2 : Fit (storeDef cx s1 i o.vreg) (fun s' => Rm cx C (namesB cx.f i) (AsksReg cx i) (k + cost (decide (Flexible o))) s') := by
        unfold storeDef
        split
        · exact Fit.ok k1
        · split
          · exact (addMove_fit he k1 hE hu').mono (fun t ht => ht.1)
          · exact Fit.ok k1
      split
      · exact h2.err ‹_›
      · rename_i s2 e2
        exact freealloc_fit (h2.2 _ e2) _
  · rename_i hk
    unfold allocUse
    split
    · rename_i n hn
      obtain ⟨o', ho', hc⟩ := h.re _ _ hn
      rw [hx] at ho'
      cases ho'
      have hna : o.asFixedNonallocatable = none := by
        unfold Op.asFixedNonallocatable
        rw [hc]
      split
      · exact Fit.panic
      · exact processOperand_fit he h hE (fun _ => hu hna) (.inl (flexible_of (.inl hc)))
    · exact processOperand_fit he h hE hu (counted_of ho)

/-- The operand counts. -/
def fx (U : Nat → Bool) (o : Op) : Bool := decide (Flexible o) && !U o.vreg.vreg

/-- The registers in `U` are defined wherever they occur. -/
def OnlyDefs (cx : Cx) (U : Nat → Bool) (i : Nat) : Prop :=
  ∀ o ∈ cx.f.operands i, o.asFixedNonallocatable = none → U o.vreg.vreg = true → o.kind = .Def ∧ o.constraint = .Any

theorem allocOp_fit' (he : EnvOk cx) {U : Nat → Bool} {b i : Nat} (hO : WorkableOps cx C i) (hU : OnlyDefs cx U i)
    (hbr : cx.f.isBranch i = true → ∀ o ∈ cx.f.operands i, o.kind = .Use)
    {x : Nat × Op} (hx : (cx.f.operands i)[x.1]? = some x.2) (h : Rm cx C (namesB cx.f i) (AsksReg cx i) k s) (hD : Dd (fun w => U w = true) s)
    (hE : Enough cx C (namesB cx.f i) (k + cost (fx U x.2))) :
    Fit (allocOp cx b i s x) (fun s' => Rm cx C (namesB cx.f i) (AsksReg cx i) (k + cost (fx U x.2)) s' ∧ Dd (fun w => U w = true) s') := by
  have ho := List.mem_of_getElem? hx
  by_cases hid : x.2.asFixedNonallocatable = none ∧ U x.2.vreg.vreg = true
  · obtain ⟨hk, hc⟩ := hU x.2 ho hid.1 hid.2
    unfold allocOp
    rw [hk]
    dsimp only
    exact (allocDef_idle h hD hbr ho hk hc hid.2).mono (fun t ht => ⟨ht.1.mono (by omega), ht.2⟩)
  · have e : fx U x.2 = decide (Flexible x.2) := by
      unfold fx
      by_cases hna : x.2.asFixedNonallocatable = none
      · have hu : U x.2.vreg.vreg = false := by
          rw [← Bool.not_eq_true]
          exact fun hu => hid ⟨hna, hu⟩
        rw [hu]; simp
      · have hf : ¬ Flexible x.2 := by
          intro hf
          unfold Op.asFixedNonallocatable at hna
          split at hna
          · rename_i p hp
            exact hf.2 p hp
          · exact hna rfl
        simp [hf]
    rw [e] at hE ⊢
    have hf := allocOp_fit (b := b) he hO hbr hx h hE
    exact ⟨hf.1, fun t ht => ⟨hf.2 t ht, allocOp_dead hD hbr ho (hO.defs _ ho) (fun hna hu => hid ⟨hna, hu⟩) t ht⟩⟩

theorem ops_fit (he : EnvOk cx) {U : Nat → Bool} {b i : Nat} (hO : WorkableOps cx C i) (hU : OnlyDefs cx U i)
    (hbr : cx.f.isBranch i = true → ∀ o ∈ cx.f.operands i, o.kind = .Use) :
    ∀ (l : List (Nat × Op)), (∀ x ∈ l, (cx.f.operands i)[x.1]? = some x.2) → ∀ {k : Nat} {s : FS}, Rm cx C (namesB cx.f i) (AsksReg cx i) k s →
    Dd (fun w => U w = true) s → Enough cx C (namesB cx.f i) (k + l.countP (fun x => fx U x.2)) →
    Fit (l.foldlM (allocOp cx b i) s) (fun s' => Rm cx C (namesB cx.f i) (AsksReg cx i) (k + l.countP (fun x => fx U x.2)) s' ∧ Dd (fun w => U w = true) s')
  | [], _, k, s, h, hD, _ => Fit.ok ⟨h, hD⟩
  | x :: l, hl, k, s, h, hD, hE => by
    rw [List.countP_cons] at hE ⊢
    have e : k + (l.countP (fun x => fx U x.2) + if fx U x.2 = true then 1 else 0) =
        (k + cost (fx U x.2)) + l.countP (fun x => fx U x.2) := by unfold cost; omega
    rw [e] at hE ⊢
    refine Fit.cons (allocOp_fit' he hO hU hbr (hl x (by simp)) h hD (hE.mono (by omega))) ?_
    intro t ht
    exact ops_fit he hO hU hbr l (fun y hy => hl y (by simp [hy])) ht.1 ht.2 hE

theorem countP_filter_two {α : Type} (P : α → Bool) (Q Q' : α → Bool) (h : ∀ x, Q' x = !Q x) : ∀ l : List α,
    (l.filter Q).countP P + (l.filter Q').countP P = l.countP P
  | [] => rfl
  | x :: l => by
    have ih := countP_filter_two P Q Q' h l
    rw [List.filter_cons, List.filter_cons, h x, List.countP_cons]
    cases hq : Q x
    · rw [if_neg (by simp), if_pos (by simp), List.countP_cons]
      omega
    · rw [if_pos (by simp), if_neg (by simp), List.countP_cons]
      omega

theorem instOps_fit (he : EnvOk cx) {U : Nat → Bool} {b i : Nat} (hO : WorkableOps cx C i) (hU : OnlyDefs cx U i)
    (hbr : cx.f.isBranch i = true → ∀ o ∈ cx.f.operands i, o.kind = .Use)
    (h : Rm cx C (namesB cx.f i) (AsksReg cx i) 0 s) (hD : Dd (fun w => U w = true) s) (hE : Enough cx C (namesB cx.f i) (flexCount cx.f U i)) :
    Fit (instOps cx s b i) (fun s' => Rm cx C (namesB cx.f i) (AsksReg cx i) (flexCount cx.f U i) s' ∧ Dd (fun w => U w = true) s') := by
  have hm : ∀ pos, ∀ x ∈ opsAt cx i pos, (cx.f.operands i)[x.1]? = some x.2 := by
    intro pos x hx
    exact mem_opsOf.mp (List.mem_filter.mp hx).1
  have e : (opsAt cx i .Late).countP (fun x => fx U x.2) + (opsAt cx i .Early).countP (fun x => fx U x.2) = flexCount cx.f U i := by
    unfold opsAt
    rw [countP_filter_two]
    · unfold Cx.opsOf flexCount
      rw [List.countP_map]
      conv_rhs => rw [← List.zipIdx_map_fst 0 (cx.f.operands i), List.countP_map]
      rfl
    · intro x
      cases x.2.pos <;> rfl
  unfold instOps
  have h1 := ops_fit (b := b) he hO hU hbr _ (hm .Late) h hD (hE.mono (by omega))
  split
  · exact h1.err ‹_›
  · rename_i s1 e1
    obtain ⟨k1, k2⟩ := h1.2 _ e1
    rw [Nat.zero_add] at k1
    have h2 := ops_fit (b := b) he hO hU hbr _ (hm .Early) k1 k2 (hE.mono (by omega))
    rw [e] at h2
    exact h2

theorem useMoves_fit (he : EnvOk cx) {i : Nat} (hO : WorkableOps cx C i) {F : PReg → Bool} {RR : Nat → Prop} (h : Rm cx C F RR k s) (hE : Enough cx C F k) :
    Fit ((cx.opsOf i).foldlM (useMove cx i) s) (fun s' => Rm cx C F RR k s') := by
  refine Fit.foldlM _ (fun x hx t ht => ?_) h
  have ho := List.mem_of_getElem? (mem_opsOf.mp hx)
  unfold useMove
  dsimp only
  split
  · exact Fit.ok ht
  · rename_i hn
    have hna : x.2.asFixedNonallocatable = none := by
      cases hq : x.2.asFixedNonallocatable with
      | none => rfl
      | some p => exact absurd (.inr (by rw [hq]; rfl)) hn
    split
    · exact (addMove_fit he ht hE (Known.used (hO.regs _ ho hna))).mono (fun t ht => ht.1)
    · exact Fit.ok ht

theorem processBranch_fit (he : EnvOk cx) {b i : Nat} {F : PReg → Bool} {RR : Nat → Prop} (h : Rm cx C F RR k s) (hE : Enough cx C F k)
    (hK : ∀ x ∈ branchPairs cx.f b i, Known cx C x.1) : Fit (processBranch cx s b i) (fun s' => Rm cx C F RR k s') := by
  unfold processBranch
  have h1 : Fit ((branchPairs cx.f b i).foldlM (branchArg cx i) (s, fun _ => [])) (fun st => Rm cx C F RR k st.1) := by
    refine Fit.foldlM (P := fun st : FS × PMoves => Rm cx C F RR k st.1) _ (fun x hx st ht => ?_) h
    obtain ⟨t, pm⟩ := st
    obtain ⟨v, p?⟩ := x
    have hv := (hK _ hx).used
    dsimp only at ht hv
    unfold branchArg
    dsimp only
    split
    · exact Fit.ok ht
    · split
      · exact Fit.panic
      · rename_i p
        have g1 := getSpillslot_fit cx t p
        split
        · exact g1.err ‹_›
        · rename_i np t1 e1
          have k1 := g1.2 _ e1
          dsimp only at k1
          have ht1 : Rm cx C F RR k t1 := ht.same (by rw [k1]) (by rw [k1]) (by rw [k1]) (by rw [k1]) (by rw [k1]) (by rw [k1])
          have g2 := getSpillslot_fit cx t1 v
          split
          · exact g2.err ‹_›
          · rename_i nv t2 e2
            have k2 := g2.2 _ e2
            dsimp only at k2
            have ht2 : Rm cx C F RR k t2 := ht1.same (by rw [k2]) (by rw [k2]) (by rw [k2]) (by rw [k2]) (by rw [k2]) (by rw [k2])
            have g3 : Fit (argToSlot cx t2 i v nv) (fun s' => Rm cx C F RR k s') := by
              unfold argToSlot
              dsimp only
              split
              · split
                · exact Fit.panic
                · exact Fit.ok (ht2.same rfl rfl rfl rfl rfl rfl)
              · have hm : Fit (if t2.alloc v.vreg ≠ stk nv then addMove cx t2 i (stk nv) (t2.alloc v.vreg) (vcls v) .Before else .ok t2) (fun s' => Rm cx C F RR k s') := by
                  split
                  · exact (addMove_fit he ht2 hE hv).mono (fun t ht => ht.1)
                  · exact Fit.ok ht2
                split
                · exact hm.err ‹_›
                · rename_i e
                  exact Fit.ok ((hm.2 _ e).same rfl rfl rfl rfl rfl rfl)
            split
            · exact g3.err ‹_›
            · rename_i e
              exact Fit.ok (g3.2 _ e)
  split
  · exact h1.err ‹_›
  · rename_i s1 pm e1
    have k1 := h1.2 _ e1
    have h2 : Fit ([RegClass.Int, .Float, .Vector].foldlM (resolveClass cx i pm) (s1, s1.availE.intersectFrom s1.availL)) (fun st => Rm cx C F RR k st.1) := by
      refine Fit.foldlM (P := fun st : FS × PRegSet => Rm cx C F RR k st.1) _ (fun c _ st ht => ?_) k1
      unfold resolveClass
      dsimp only
      split
      · exact Fit.panic
      · split
        · exact Fit.panic
        · split
          · exact Fit.panic
          · exact Fit.ok (Rm.same ht rfl rfl rfl rfl rfl rfl)
    split
    · exact h2.err ‹_›
    · rename_i e2
      exact Fit.ok (h2.2 _ e2)

/-! ### Setup -/

theorem miss_init {F : PReg → Bool} {e l : PRegSet} (h : ∀ p, cx.initAvail.contains p = true → F p = false → e.contains p = true ∧ l.contains p = true)
    (c : RegClass) : miss cx F e l c = 0 := by
  unfold miss
  rw [List.countP_eq_zero]
  intro p hp
  rw [mem_toList] at hp
  cases hf : F p with
  | true => simp
  | false =>
    obtain ⟨h1, h2⟩ := h p (regs_init hp) hf
    rw [h1, h2]
    simp

/-- What the reservations of some operands leave. -/
def Left (cx : Cx) (l : List (Nat × Op × PReg)) (s : FS) : Prop :=
  ∀ p, cx.initAvail.contains p = true →
    ((∀ x ∈ l, x.2.2 = p → ¬ HeldBefore x.2.1) → s.availE.contains p = true) ∧ ((∀ x ∈ l, x.2.2 = p → ¬ HeldAfter x.2.1) → s.availL.contains p = true)

theorem reserve_fit {U : Nat → Bool} {i : Nat} (hR : RoomyInst cx C U i) {l : List (Nat × Op × PReg)} (hl : ∀ x ∈ l, x ∈ fixedOps cx i) {x : Nat × Op × PReg} (hx : x ∈ fixedOps cx i)
    (hne : ∀ y ∈ l, y.1 ≠ x.1) (h : Left cx l s) (hre : ∀ j n, s.reused j = some n → AsksReg cx i j) :
    Fit (reserve s x.2.1 x.1 x.2.2) (fun s' => Left cx (l ++ [x]) s' ∧ s' = { s with availE := s'.availE, availL := s'.availL }) := by
  obtain ⟨idx, o, p⟩ := x
  obtain ⟨ho, hc⟩ := mem_fixedOps.mp hx
  dsimp only at hne ⊢
  have hnr : s.reused idx = none := by
    cases hq : s.reused idx with
    | none => rfl
    | some n =>
      obtain ⟨o', h1, h2⟩ := hre _ _ hq
      rw [ho] at h1
      cases h1
      rw [hc] at h2
      cases h2
  have hin : o.asFixedNonallocatable = none → cx.initAvail.contains p = true := by
    intro hna
    exact (initAvail_iff cx p).mpr (hR.fixed o (List.mem_of_getElem? ho) p hc hna).symm
  have hap : ∀ y ∈ l, y.2.2 = p → ¬ (HeldBefore o ∧ HeldBefore y.2.1) ∧ ¬ (HeldAfter o ∧ HeldAfter y.2.1) := by
    intro y hy e
    obtain ⟨h1, h2⟩ := mem_fixedOps.mp (hl y hy)
    rw [e] at h2
    exact hR.apart idx y.1 o y.2.1 p ho h1 (fun e' => hne y hy e'.symm) hc h2
  have hE : o.asFixedNonallocatable = none → HeldBefore o → s.availE.contains p = true := fun hna hb =>
    (h p (hin hna)).1 (fun y hy e hb' => (hap y hy e).1 ⟨hb, hb'⟩)
  have hL : o.asFixedNonallocatable = none → HeldAfter o → s.availL.contains p = true := fun hna hb =>
    (h p (hin hna)).2 (fun y hy e hb' => (hap y hy e).2 ⟨hb, hb'⟩)
  have left : ∀ e l', (∀ q, q ≠ p ∨ ¬ HeldBefore o → s.availE.contains q = true → e.contains q = true) →
      (∀ q, q ≠ p ∨ ¬ HeldAfter o → s.availL.contains q = true → l'.contains q = true) → Left cx (l ++ [(idx, o, p)]) { s with availE := e, availL := l' } := by
    intro e l' h1 h2 q hq
    refine ⟨fun hx => ?_, fun hx => ?_⟩
    · refine h1 q ?_ ((h q hq).1 (fun y hy => hx y (by simp [hy])))
      by_cases e : q = p
      · exact .inr (hx (idx, o, p) (by simp) e.symm)
      · exact .inl e
    · refine h2 q ?_ ((h q hq).2 (fun y hy => hx y (by simp [hy])))
      by_cases e : q = p
      · exact .inr (hx (idx, o, p) (by simp) e.symm)
      · exact .inl e
  have rem : ∀ (P : Prop) (t : PRegSet), P → ∀ q, q ≠ p ∨ ¬ P → t.contains q = true → (t.remove p).contains q = true := by
    intro P t hp q hq ht
    rcases hq with hq | hq
    · exact (cont_remove _ _ _).mpr ⟨hq, ht⟩
    · exact absurd hp hq
  have na : ∀ {b : Bool}, (!o.asFixedNonallocatable.isSome && b) = true → o.asFixedNonallocatable = none := by
    intro b hb
    rw [Bool.and_eq_true] at hb
    cases hq : o.asFixedNonallocatable with
    | none => rfl
    | some p => rw [hq] at hb; simp at hb
  unfold reserve
  dsimp only
  split
  · rename_i hpos hk
    have hb : HeldBefore o := .inl hk
    split
    · rename_i hf
      have := hE (na hf) hb
      rw [this] at hf
      simp at hf
    · rw [hnr]
      dsimp only [Option.isSome]
      rw [if_neg (by simp)]
      exact Fit.ok ⟨left _ _ (rem _ _ hb) (fun _ _ h => h), rfl⟩
  · rename_i hpos hk
    have hb : HeldAfter o := .inl hk
    split
    · rename_i hf
      have := hL (na hf) hb
      rw [this] at hf
      simp at hf
    · exact Fit.ok ⟨left _ _ (fun _ _ h => h) (rem _ _ hb), rfl⟩
  · rename_i h1 h2
    have hb : HeldBefore o ∧ HeldAfter o := by
      unfold HeldBefore HeldAfter
      cases hp : o.pos <;> cases hk : o.kind <;> simp_all
    split
    · rename_i hf
      rw [hE (na hf) hb.1, hL (na hf) hb.2] at hf
      simp at hf
    · exact Fit.ok ⟨left _ _ (rem _ _ hb.1) (rem _ _ hb.2), rfl⟩

theorem reserves_fit (he : EnvOk cx) {U : Nat → Bool} {i : Nat} (hR : RoomyInst cx C U i) : ∀ (r l : List (Nat × Op × PReg)), fixedOps cx i = l ++ r →
    ∀ (st : FS × PRegSet × Nat), Left cx l st.1 → (∀ j n, st.1.reused j = some n → AsksReg cx i j) → LruOk cx st.1.lrus →
    (∀ p x, st.1.inPreg p = some x → UsedC cx C (vcls x)) → st.1.scratch = cx.env.scratch →
    Fit (r.foldlM (reserveFixed cx i) st) (fun st' => Left cx (fixedOps cx i) st'.1 ∧ (∀ j n, st'.1.reused j = some n → AsksReg cx i j) ∧ LruOk cx st'.1.lrus ∧
      (∀ p x, st'.1.inPreg p = some x → UsedC cx C (vcls x)) ∧ st'.1.scratch = cx.env.scratch)
  | [], l, e, st, h1, h2, h3, h4, h5 => by
    rw [List.append_nil] at e
    rw [e]
    exact Fit.ok ⟨h1, h2, h3, h4, h5⟩
  | x :: r, l, e, st, h1, h2, h3, h4, h5 => by
    have hn := fixedOps_nodup cx i
    rw [e, List.map_append, List.map_cons] at hn
    have hne : ∀ y ∈ l, y.1 ≠ x.1 := by
      intro y hy
      exact (List.nodup_append.mp hn).2.2 y.1 (List.mem_map_of_mem hy) x.1 (by simp)
    refine Fit.cons (Q := fun st' => Left cx (l ++ [x]) st'.1 ∧ (∀ j n, st'.1.reused j = some n → AsksReg cx i j) ∧ LruOk cx st'.1.lrus ∧
      (∀ p x, st'.1.inPreg p = some x → UsedC cx C (vcls x)) ∧ st'.1.scratch = cx.env.scratch) ?_ ?_
    · obtain ⟨s, seen, nc⟩ := st
      dsimp only at h1 h2 h3 h4 h5
      have hr := reserve_fit hR (fun y hy => by rw [e]; simp [hy]) (x := x) (by rw [e]; simp) hne h1 h2
      unfold reserveFixed
      dsimp only
      split
      · exact hr.err ‹_›
      · rename_i s1 e1
        obtain ⟨k1, k2⟩ := hr.2 _ e1
        have hs : s1.reused = s.reused ∧ s1.lrus = s.lrus ∧ s1.inPreg = s.inPreg ∧ s1.scratch = s.scratch := by
          rw [k2]; exact ⟨rfl, rfl, rfl, rfl⟩
        obtain ⟨r1, r2, r3, r4⟩ := hs
        split
        · exact Fit.ok ⟨k1, by rw [r1]; exact h2, by rw [r2]; exact h3, by rw [r3]; exact h4, by rw [r4]; exact h5⟩
        · split
          · rename_i ha
            unfold poke
            cases hl : (s1.lrus (pcls x.2.2)).poke? x.2.2 with
            | none => exact Fit.panic
            | some l' =>
              refine Fit.ok ⟨k1, by rw [r1]; exact h2, ?_, by rw [r3]; exact h4, by rw [r4]; exact h5⟩
              exact lruOk_poke (by rw [r2]; exact h3) (he.allocatable_cls ha) hl
          · exact Fit.ok ⟨k1, by rw [r1]; exact h2, by rw [r2]; exact h3, by rw [r3]; exact h4, by rw [r4]; exact h5⟩
    · rintro st' ⟨k1, k2, k3, k4, k5⟩
      exact reserves_fit he hR r (l ++ [x]) (by rw [e]; simp) st' k1 k2 k3 k4 k5

theorem counts_fit {U : Nat → Bool} {i : Nat} (hR : RoomyInst cx C U i) : ∀ (l : List (Nat × Op)), (∀ x ∈ l, (cx.f.operands i)[x.1]? = some x.2) → ∀ {s : FS},
    (∀ j n, s.reused j = some n → AsksReg cx i j) → Fit (l.foldlM (countOp cx i) s) (fun s' => (∀ j n, s'.reused j = some n → AsksReg cx i j) ∧
      s'.availE = s.availE ∧ s'.availL = s.availL ∧ s'.lrus = s.lrus ∧ s'.inPreg = s.inPreg ∧ s'.scratch = s.scratch)
  | [], _, s, h => Fit.ok ⟨h, rfl, rfl, rfl, rfl, rfl⟩
  | x :: l, hl, s, h => by
    refine Fit.cons (Q := fun s' => (∀ j n, s'.reused j = some n → AsksReg cx i j) ∧
      s'.availE = s.availE ∧ s'.availL = s.availL ∧ s'.lrus = s.lrus ∧ s'.inPreg = s.inPreg ∧ s'.scratch = s.scratch) ?_ ?_
    · obtain ⟨idx, o⟩ := x
      have ho := hl (idx, o) (by simp)
      unfold countOp
      dsimp only
      split
      · rename_i j hc
        split
        · exact Fit.panic
        · rename_i ro hro
          have key : ∀ j' n, set1 s.reused j (some idx) j' = some n → AsksReg cx i j' := by
            intro j' n hj'
            by_cases e : j' = j
            · subst e
              exact hR.reuse o (List.mem_of_getElem? ho) j' hc
            · rw [set1_ne _ _ e] at hj'
              exact h _ _ hj'
          split
          · exact Fit.ok ⟨key, rfl, rfl, rfl, rfl, rfl⟩
          · exact Fit.ok ⟨key, rfl, rfl, rfl, rfl, rfl⟩
      · exact Fit.ok ⟨h, rfl, rfl, rfl, rfl, rfl⟩
      · exact Fit.ok ⟨h, rfl, rfl, rfl, rfl, rfl⟩
    · rintro t ⟨k1, k2, k3, k4, k5, k6⟩
      refine (counts_fit hR l (fun y hy => hl y (by simp [hy])) k1).mono ?_
      rintro u ⟨j1, j2, j3, j4, j5, j6⟩
      exact ⟨j1, j2.trans k2, j3.trans k3, j4.trans k4, j5.trans k5, j6.trans k6⟩

/-- Between instructions. -/
structure Rest (cx : Cx) (C : Nat → VReg) (s : FS) : Prop where
  lru : LruOk cx s.lrus
  inK : ∀ p x, s.inPreg p = some x → UsedC cx C (vcls x)
  re : s.reused = fun _ => none

theorem instSetup_fit (he : EnvOk cx) {U : Nat → Bool} {i : Nat} (hR : RoomyInst cx C U i) (h : Rest cx C s) :
    Fit (instSetup cx s i) (fun st => Rm cx C (namesB cx.f i) (AsksReg cx i) 0 st.1) := by
  unfold instSetup
  have h1 := counts_fit (s := reset cx s) hR (cx.opsOf i) (fun x hx => mem_opsOf.mp hx) (fun j n hj => by
    rw [show (reset cx s).reused = s.reused from rfl, h.re] at hj; cases hj)
  split
  · exact h1.err ‹_›
  · rename_i s1 e1
    obtain ⟨k1, k2, k3, k4, k5, k6⟩ := h1.2 _ e1
    have h2 := reserves_fit he hR (fixedOps cx i) [] rfl (s1, PRegSet.empty, 0)
      (fun p hp => ⟨fun _ => by dsimp only; rw [k2]; exact hp, fun _ => by dsimp only; rw [k3]; exact hp⟩)
      k1 (by dsimp only; rw [k4]; exact h.lru) (by dsimp only; rw [k5]; exact h.inK) k6
    split
    · exact h2.err ‹_›
    · rename_i s2 seen nc e2
      obtain ⟨j1, j2, j3, j4, j5⟩ := h2.2 _ e2
      dsimp only at j1 j2 j3 j4 j5
      refine Fit.ok ⟨fun c => ?_, j3, j4, j2⟩
      dsimp only
      rw [miss_init (cx := cx) (F := namesB cx.f i), j5]
      · unfold scratchNeed; omega
      · intro p hp hf
        have hn : ¬ Names cx.f i p := by
          intro hx
          rw [namesB_iff.mpr hx] at hf
          cases hf
        have hno : ∀ x ∈ fixedOps cx i, x.2.2 ≠ p := by
          rintro x hx rfl
          obtain ⟨m1, m2⟩ := mem_fixedOps.mp hx
          exact hn (.inr ⟨_, List.mem_of_getElem? m1, m2⟩)
        refine ⟨(j1 p hp).1 (fun x hx e => absurd e (hno x hx)), ?_⟩
        rw [cont_inter]
        refine ⟨(j1 p hp).2 (fun x hx e => absurd e (hno x hx)), ?_⟩
        rw [cont_invert]
        intro hcl
        exact hn (.inl ((cont_ofList _ _).mp hcl))

theorem instEvict_fit (he : EnvOk cx) {i nc : Nat} {F : PReg → Bool} {RR : Nat → Prop} (h : Rm cx C F RR k s) (hE : Enough cx C F k) :
    Fit (instEvict cx s nc i) (fun s' => Rm cx C F RR k s') := by
  unfold instEvict
  have h1 : Fit ((fixedOps cx i).foldlM (evictFixed cx i) s) (fun s' => Rm cx C F RR k s') := by
    refine Fit.foldlM _ (fun x _ t ht => ?_) h
    unfold evictFixed
    dsimp only
    split
    · exact Fit.ok ht
    · split
      · exact Fit.ok ht
      · have hv := evict_fit (i := i) (p := x.2.2) (pos := .After) he ht hE
        split
        · exact hv.err ‹_›
        · rename_i e
          exact Fit.ok ((hv.2 _ e).1.clearIn _)
  split
  · exact h1.err ‹_›
  · rename_i s1 e1
    have h2 : Fit ((cx.clob i).toList.foldlM (evictClobber cx i) (s1, nc)) (fun st => Rm cx C F RR k st.1) := by
      refine Fit.foldlM (P := fun st : FS × Nat => Rm cx C F RR k st.1) _ (fun p _ st ht => ?_) (h1.2 _ e1)
      unfold evictClobber
      have hv : Fit (evictClobber1 cx i st.1 p) (fun s' => Rm cx C F RR k s') := by
        unfold evictClobber1
        split
        · exact Fit.ok ht
        · have hv := evict_fit (i := i) (p := p) (pos := .After) he ht hE
          split
          · exact hv.err ‹_›
          · rename_i e
            exact Fit.ok ((hv.2 _ e).1.clearIn _)
      split
      · exact hv.err ‹_›
      · rename_i t e
        have k1 := hv.2 _ e
        split
        · split
          · exact Fit.ok (Rm.same k1 rfl rfl rfl rfl rfl rfl)
          · exact Fit.ok k1
        · exact Fit.ok k1
    split
    · exact h2.err ‹_›
    · rename_i e2
      exact Fit.ok (h2.2 _ e2)

theorem le_pool {F : PReg → Bool} {c : RegClass} {l : List PReg} (hn : l.Nodup) (h : ∀ p ∈ l, (cx.regs c).contains p = true ∧ F p = false) : l.length ≤ pool cx F c := by
  unfold pool
  rw [List.countP_eq_length_filter]
  refine (List.subperm_of_subset hn ?_).length_le
  intro p hp
  obtain ⟨h1, h2⟩ := h p hp
  exact List.mem_filter.mpr ⟨(mem_toList _ _).mpr h1, by rw [h2]; rfl⟩

theorem allocInst_fit (he : EnvOk cx) {U : Nat → Bool} {b i : Nat} (hO : WorkableOps cx C i) (hU : OnlyDefs cx U i) (hR : RoomyInst cx C U i)
    (hbr : cx.f.isBranch i = true → ∀ o ∈ cx.f.operands i, o.kind = .Use)
    (hK : cx.f.isBranch i = true → ∀ x ∈ branchPairs cx.f b i, Known cx C x.1 ∧ ¬ U x.1.vreg = true) (h : Rest cx C s) (hD : Dd (fun w => U w = true) s) :
    Fit (allocInst cx b s i) (fun s' => Rest cx C s' ∧ Dd (fun w => U w = true) s') := by
  have hE : Enough cx C (namesB cx.f i) (flexCount cx.f U i) := by
    rintro c ⟨v, hv, rfl⟩
    obtain ⟨l, h1, h2, h3⟩ := hR.room v hv
    refine Nat.le_trans h3 (le_pool h1 (fun p hp => ⟨(regs_iff cx _ p).mpr (h2 p hp).1, ?_⟩))
    rw [← Bool.not_eq_true, namesB_iff]
    exact (h2 p hp).2
  unfold allocInst
  have h1 := instSetup_fit he hR h
  split
  · exact h1.err ‹_›
  · rename_i s1 nc e1
    have d1 := instSetup_dead hD _ e1
    have h2 := instEvict_fit (i := i) (nc := nc) he (h1.2 _ e1) (hE.mono (Nat.zero_le _))
    split
    · exact h2.err ‹_›
    · rename_i s2 e2
      have d2 := instEvict_dead d1 _ e2
      have h3 := instOps_fit (b := b) he hO hU hbr (h2.2 _ e2) d2 hE
      split
      · exact h3.err ‹_›
      · rename_i s3 e3
        obtain ⟨k3, d3⟩ := h3.2 _ e3
        have h4 := useMoves_fit he hO k3 hE
        split
        · exact h4.err ‹_›
        · rename_i s4 e4
          have k4 := h4.2 _ e4
          have d4 := useMoves_dead d3 _ e4
          have h5 : Fit (if cx.f.isBranch i then processBranch cx s4 b i else .ok s4) (fun t => Rm cx C (namesB cx.f i) (AsksReg cx i) (flexCount cx.f U i) t ∧
              Dd (fun w => U w = true) t) := by
            split
            · rename_i hb
              have := processBranch_fit he k4 hE (fun x hx => (hK hb x hx).1)
              exact ⟨this.1, fun t ht => ⟨this.2 t ht, processBranch_dead d4 (fun x hx => (hK hb x hx).2) t ht⟩⟩
            · exact Fit.ok ⟨k4, d4⟩
          split
          · exact h5.err ‹_›
          · rename_i e5
            obtain ⟨k5, d5⟩ := h5.2 _ e5
            exact Fit.ok ⟨⟨k5.lru, k5.inK, rfl⟩, d5.same rfl rfl rfl⟩

theorem inst_fit (he : EnvOk cx) (W : Workable cx C) {U : Nat → Bool} (hU : ∀ w, U w = true → Unread cx.f w) {b i : Nat} (hb : b < cx.f.numBlocks)
    (hi : i ∈ cx.f.blockInsts b) (hR : RoomyInst cx C U i) (h : Rest cx C s) (hD : Dd (fun w => U w = true) s) :
    Fit (allocInst cx b s i) (fun s' => Rest cx C s' ∧ Dd (fun w => U w = true) s') := by
  refine allocInst_fit he (W.operands b hb i hi) ?_ hR ?_ ?_ h hD
  · intro o ho hna hu
    exact (hU _ hu).operands b hb i hi o ho hna rfl
  · intro hbi
    have e := W.branch_last b hb i hi hbi
    rw [e] at hbi ⊢
    exact W.branch_uses b hb (.inr hbi)
  · intro hbi x hx
    have e := W.branch_last b hb i hi hbi
    subst e
    obtain ⟨k, t, j, v, h1, h2, rfl⟩ := mem_pairs.mp hx
    exact ⟨W.args b hb k t h1 v (List.mem_of_getElem? h2), fun hu => (hU _ hu).args b hb k t h1 v (List.mem_of_getElem? h2) rfl⟩

theorem reloadAtBegin_fit (he : EnvOk cx) (W : Workable cx C) {D : Nat → Prop} {b B : Nat} {P : Nat → Prop} (hb : b < cx.f.numBlocks) (hB : B ≤ SpillSlot.MAX)
    (hn : ((cx.f.params b).map VReg.vreg).Nodup) (hp : ∀ p ∈ cx.f.params b, ¬ P p.vreg) (hk : K cx C B P s) (h : Rest cx C s) (hD : Dd D s) :
    Fit (reloadAtBegin cx s b) (fun s' => Rest cx C s' ∧ Dd D s') := by
  have hE : Enough cx C (fun _ => false) 0 := by
    rintro c ⟨v, hv, rfl⟩
    obtain ⟨p, hp⟩ := W.classes v hv
    have : [p].length ≤ pool cx (fun _ => false) (vcls (C v)) := le_pool (by simp) (fun q hq => by
      rw [List.mem_singleton] at hq
      subst hq
      exact ⟨(regs_iff cx _ _).mpr hp, rfl⟩)
    have h1 : scratchNeed cx.env (vcls (C v)) ≤ 1 := by unfold scratchNeed; split <;> omega
    rw [List.length_singleton] at this
    omega
  have hmove : ∀ p ∈ cx.f.preds b, ∀ t v n, moveIfDefPredBranch cx t b p v n = .ok t := by
    intro p hpp t v n
    obtain ⟨h1, h2⟩ := W.preds b hb p hpp
    unfold moveIfDefPredBranch
    rw [branchDefReg_none (W.branch_uses p h1 (.inl (List.ne_nil_of_mem h2)))]
  have h0 : Rm cx C (fun _ => false) (fun _ => False) 0 (reset cx s) := by
    refine ⟨fun c => ?_, h.lru, h.inK, fun j n hj => ?_⟩
    · show miss cx (fun _ => false) cx.initAvail cx.initAvail c + (if cx.env.scratch c = none then 1 else 0) ≤ _
      rw [miss_init (fun p hp _ => ⟨hp, hp⟩)]
      unfold scratchNeed
      omega
    · rw [show (reset cx s).reused = s.reused from rfl, h.re] at hj
      cases hj
  obtain ⟨AL0, hk0⟩ := hk
  have hs1 := reloadParams_safe (b := b) (fix_of he W) hB (cx.f.params b) hn (fun p hpp => ⟨W.params b hb p hpp, hp p hpp⟩) ⟨AL0, hk0.reset (fix_of he W)⟩
  have slot : ∀ {t u : FS}, Rm cx C (fun _ => false) (fun _ => False) 0 t → u = { t with slot := u.slot, numSlots := u.numSlots } →
      Rm cx C (fun _ => false) (fun _ => False) 0 u := by
    intro t u ht hu
    exact ht.same (by rw [hu]) (by rw [hu]) (by rw [hu]) (by rw [hu]) (by rw [hu]) (by rw [hu])
  have h1 : Fit ((cx.f.params b).foldlM (reloadParam cx b) (reset cx s)) (fun s' => Rm cx C (fun _ => false) (fun _ => False) 0 s') := by
    refine Fit.foldlM _ (fun v hv t ht => ?_) h0
    unfold reloadParam
    dsimp only
    split
    · exact Fit.ok ht
    · have g1 := getSpillslot_fit cx t v
      split
      · exact g1.err ‹_›
      · rename_i n t1 e1
        have g2 := freealloc_fit (slot ht (g1.2 _ e1)) v
        split
        · exact g2.err ‹_›
        · rename_i t2 e2
          split
          · exact Fit.ok (g2.2 _ e2)
          · exact (addMove_fit he (g2.2 _ e2) hE (Known.used (W.params b hb v hv))).mono (fun t ht => ht.1)
  unfold reloadAtBegin
  split
  · exact h1.err ‹_›
  · rename_i s1 e1
    have k1 := h1.2 _ e1
    obtain ⟨AL, j1⟩ := hs1.2 _ e1
    have d1 : Dd D s1 := Oks.foldlM _ (fun v _ t ht => reloadParam_dead ht) (hD.same (s' := reset cx s) rfl rfl rfl) _ e1
    obtain ⟨l, I, hl, _⟩ := j1.live
    rw [VRegSet.toList_ok I]
    dsimp only
    have h2 : Fit (l.foldlM (reloadLive cx b) s1) (fun s' => Rm cx C (fun _ => false) (fun _ => False) 0 s') := by
      refine Fit.foldlM _ (fun v hv t ht => ?_) k1
      unfold reloadLive
      dsimp only
      have g1 := getSpillslot_fit cx t v
      split
      · exact g1.err ‹_›
      · rename_i n t1 e1
        have k2 := slot ht (g1.2 _ e1)
        have k3 : Rm cx C (fun _ => false) (fun _ => False) 0 (FS.setIn { t1 with alloc := set1 t1.alloc v.vreg (stk n) } (t.alloc v.vreg) none) :=
          by
            refine Rm.setIn ?_ _ _ (fun x hx => by cases hx)
            exact k2.same rfl rfl rfl rfl rfl rfl
        split
        · exact Fit.ok k3
        · exact (addMove_fit he k3 hE (Known.used ⟨(hl v hv).1, I.lt v hv⟩)).mono (fun t ht => ht.1)
    split
    · exact h2.err ‹_›
    · rename_i s2 e2
      have k2 := h2.2 _ e2
      have d2 : Dd D s2 := Oks.foldlM _ (fun v hv t ht => reloadLive_dead ht (fun hd => (hl v hv).2 (d1.gone _ hd))) d1 _ e2
      have k3 : Rest cx C { s2 with scratch := cx.env.scratch } := ⟨k2.lru, k2.inK, by
        funext j
        cases hj : s2.reused j with
        | none => rfl
        | some n => exact (k2.re j n hj).elim⟩
      have h3 : Fit ((cx.f.params b).zipIdx.foldlM (predParams cx b) { s2 with scratch := cx.env.scratch }) (fun t => Rest cx C t ∧ Dd D t) := by
        refine Fit.foldlM _ (fun x hx t ht => ?_) ⟨k3, d2.same rfl rfl rfl⟩
        unfold predParams
        split
        · exact Fit.ok ht
        · refine Fit.foldlM _ (fun p hpp u hu => ?_) ht
          unfold predParam
          split
          · exact Fit.panic
          · split
            · exact Fit.panic
            · rw [hmove p hpp]
              exact Fit.ok hu
      split
      · exact h3.err ‹_›
      · rename_i s3 e3
        refine Fit.foldlM _ (fun x hx t ht => ?_) (h3.2 _ e3)
        unfold predLive
        refine Fit.foldlM _ (fun p hpp u hu => ?_) ht
        rw [hmove p hpp]
        exact Fit.ok hu

theorem allocBlock_fit (he : EnvOk cx) (W : Workable cx C) {U : Nat → Bool} (hU : ∀ w, U w = true → Unread cx.f w)
    (hR : ∀ b, b < cx.f.numBlocks → ∀ i ∈ cx.f.blockInsts b, RoomyInst cx C U i) {b B : Nat} (hb : b < cx.f.numBlocks)
    (hB : B + brBudget cx (cx.f.blockInsts b) ≤ SpillSlot.MAX) (hk : K cx C B (WrFrom cx.f (b + 1)) s) (h : Rest cx C s) (hD : Dd (fun w => U w = true) s) :
    Fit (allocBlock cx s b) (fun s' => Rest cx C s' ∧ Dd (fun w => U w = true) s') := by
  obtain ⟨hn, hw⟩ := wr_nodup_of W.single
  have hnb := hn b hb
  unfold wr at hnb
  unfold allocBlock
  have h1 : Fit ((cx.f.blockInsts b).reverse.foldlM (allocInst cx b) s) (fun s' => Rest cx C s' ∧ Dd (fun w => U w = true) s') :=
    Fit.foldlM _ (fun i hi t ht => inst_fit he W hU hb (List.mem_reverse.mp hi) (hR b hb i (List.mem_reverse.mp hi)) ht.1 ht.2) ⟨h, hD⟩
  have h2 := insts_safe he W hb (cx.f.blockInsts b).reverse [] (by simp) hB (s := s) (hk.grow (fun w hw => .inl hw))
  split
  · exact h1.err ‹_›
  · rename_i t ht
    refine reloadAtBegin_fit he W hb hB (List.nodup_append.mp hnb).1 ?_ (h2.2 _ ht) (h1.2 _ ht).1 (h1.2 _ ht).2
    intro p hp
    have hpw : p.vreg ∈ wr cx.f b := mem_wr.mpr (.inl ⟨p, hp, rfl⟩)
    rintro (⟨b', h1, h2, h3⟩ | ⟨j, hj, hx⟩)
    · have := hw b b' _ hb h2 hpw h3
      omega
    · obtain ⟨v, hv, e⟩ := DDi_iff.mp hx
      refine (List.nodup_append.mp hnb).2.2 p.vreg (List.mem_map_of_mem hp) p.vreg ?_ rfl
      exact List.mem_flatMap.mpr ⟨j, hj, List.mem_map.mpr ⟨v, hv, e⟩⟩

theorem blocks_fit (he : EnvOk cx) (W : Workable cx C) {U : Nat → Bool} (hU : ∀ w, U w = true → Unread cx.f w)
    (hR : ∀ b, b < cx.f.numBlocks → ∀ i ∈ cx.f.blockInsts b, RoomyInst cx C U i) : ∀ (n : Nat), n ≤ cx.f.numBlocks → ∀ {B : Nat} {s : FS},
    B + brBudget cx ((List.range n).flatMap cx.f.blockInsts) ≤ SpillSlot.MAX → K cx C B (WrFrom cx.f n) s → Rest cx C s → Dd (fun w => U w = true) s →
    Fit ((List.range n).reverse.foldlM (allocBlock cx) s) (fun _ => True)
  | 0, _, B, s, _, _, _, _ => Fit.ok trivial
  | n + 1, hn, B, s, hB, hk, h, hD => by
    rw [List.range_succ, List.reverse_append]
    rw [List.range_succ, List.flatMap_append, brBudget_append] at hB
    simp only [List.flatMap_cons, List.flatMap_nil, List.append_nil] at hB
    have hs := allocBlock_safe he W (b := n) (by omega) (by omega) hk
    have hf := allocBlock_fit he W hU hR (b := n) (by omega) (by omega) hk h hD
    refine Fit.cons (Q := fun t => K cx C (B + brBudget cx (cx.f.blockInsts n)) (WrFrom cx.f n) t ∧ Rest cx C t ∧ Dd (fun w => U w = true) t)
      ⟨hf.1, fun t ht => ⟨hs.2 t ht, hf.2 t ht⟩⟩ ?_
    rintro t ⟨ht1, ht2, ht3⟩
    exact blocks_fit he W hU hR n (by omega) (by omega) ht1 ht2 ht3

theorem run_fit (he : EnvOk cx) (W : Workable cx C) (hS : SlotsFit cx) (hR : Roomy cx C) : run cx ≠ .error .tooMany := by
  have hk := init_K (C := C) he
  have hB : 2 * maxSize cx * cx.f.numVregs + brBudget cx ((List.range cx.f.numBlocks).flatMap cx.f.blockInsts) ≤ SpillSlot.MAX := slots_budget hS
  obtain ⟨U, hU, hR⟩ := hR
  have h1 := blocks_fit he W hU hR cx.f.numBlocks (Nat.le_refl _) hB hk ⟨lruOk_init he, fun p x hx => (by cases hx), rfl⟩
    ⟨fun w _ => rfl, fun p x hx => (by cases hx), fun v n hn => (by cases hn)⟩
  unfold run runEnv
  intro e
  split at e
  · rename_i e1
    cases e
    exact h1.1 e1
  · cases e

end

end Fast
end Regalloc
