import Verif.Proofs.LiveRanges

namespace Regalloc.Build

/-! ## One instruction -/

theorem visits_safe {f : Func} {b i : Nat} {old : Nat → Nat → Prop} {out : Nat → Prop} {prev : List Ev}
    (np : Prop) {few : Prop} (multi : Bool) (hold : ∀ v p, old v p → ptBefore (f.insns b).2 ≤ p)
    (hb : (f.insns b).1 ≤ i ∧ i < (f.insns b).2) :
    ∀ (vis : List (Op × Nat)) (done : List Ev) (st : St),
      GInv f (ptBefore (f.insns b).1) (ptBefore (f.insns b).2) old out prev done st →
      (∀ e ∈ prev, ∀ y ∈ vis, evPt f (i, y) ≤ evPt f e) → (∀ e ∈ done, ∀ y ∈ vis, After f e (i, y)) →
      vis.Pairwise (fun y z => After f (i, y) (i, z)) → (few → ∀ y ∈ vis, y.2 < 2 ^ 16) →
      Safe np few (fun st' => GInv f (ptBefore (f.insns b).1) (ptBefore (f.insns b).2) old out prev
          ((vis.map (fun y => (i, y))).reverse ++ done) st' ∧ SameRest st st')
        (vis.foldlM (procOp multi f b i (reusedReg (f.operands i))) st) := by
  intro vis
  induction vis with
  | nil => intro done st h _ _ _ _; exact ⟨h, rfl, rfl, rfl, rfl⟩
  | cons y vis ih =>
    intro done st h h1 h2 h3 hfew
    obtain ⟨h4, h5⟩ := List.pairwise_cons.mp h3
    rw [List.foldlM_cons]
    refine (procOp_safe np multi h (i, y) hold (fun e he => h1 e he y (List.mem_cons_self ..))
      (fun e he => h2 e he y (List.mem_cons_self ..)) hb
      (fun hf => hfew hf y (List.mem_cons_self ..))).bind ?_
    rintro st1 ⟨h6, h7⟩
    refine (ih _ st1 h6 (fun e he z hz => h1 e he z (List.mem_cons_of_mem _ hz)) ?_ h5
      (fun hf z hz => hfew hf z (List.mem_cons_of_mem _ hz))).mono ?_
    · intro e he z hz
      rcases List.mem_cons.mp he with rfl | he
      · exact h4 z hz
      · exact h2 e he z (List.mem_cons_of_mem _ hz)
    · rintro st2 ⟨h8, h9⟩
      refine ⟨?_, h7.trans h9⟩
      simpa using h8

theorem reusedInput_aux (ops : List Op) (np : Prop) {few : Prop}
    (h : np → ∀ (j : Nat), ∀ o ∈ ops, o.constraint = .Reuse j → ∃ r, ops[j]? = some r ∧ r.asFixedNonallocatable = none) :
    ∀ l : List Op, (∀ o ∈ l, o ∈ ops) → Safe np few (fun r => r =
      (l.findSome? (fun o => match o.constraint with | .Reuse j => some j | _ => none)).bind (fun j => ops[j]?.map (·.vreg)))
      (reusedInput ops l) := by
  intro l
  induction l with
  | nil => intro _; rfl
  | cons o l ih =>
    intro hl
    have ho := hl o (List.mem_cons_self ..)
    have ih := ih (fun o ho => hl o (List.mem_cons_of_mem _ ho))
    unfold reusedInput
    rw [List.findSome?_cons]
    cases hc : o.constraint with
    | Reuse j =>
      simp only
      cases hj : ops[j]? with
      | none =>
        intro hnp
        obtain ⟨r, h1, _⟩ := h hnp j o ho hc
        rw [hj] at h1; cases h1
      | some r =>
        simp only
        split
        · rename_i h2
          intro hnp
          obtain ⟨r', h1, h3⟩ := h hnp j o ho hc
          rw [hj] at h1; cases h1
          rw [h3] at h2; simp at h2
        · simp [Safe, hj]
    | _ => exact ih

theorem reusedInput_safe {f : Func} {np few : Prop} (h : np → NoClash f) (i : Nat) :
    Safe np few (fun r => r = reusedReg (f.operands i)) (reusedInput (f.operands i) (f.operands i)) :=
  reusedInput_aux _ np (fun hnp j o ho hc => (h hnp).reuse i j o ho hc) _ (fun _ h => h)

/-- Physical register reservations and fixups. `D`: instructions processed. -/
structure PInv (f : Func) (D : Nat → Prop) (st : St) : Prop where
  pregs : ∀ e, e ∈ st.pregs ↔ (∃ i, D i ∧ e.1 ∈ f.clobbers i ∧ e.2 = ⟨ptAfter i, ptBefore (i + 1)⟩) ∨
    ∃ fx ∈ st.fixups, e = (fx.preg, ⟨fx.pos, fx.pos + 1⟩)
  fixups : ∀ fx ∈ st.fixups, ∃ (i : Nat) (o : Op), D i ∧ fx.pos = ptBefore i ∧ (f.operands i)[fx.slot]? = some o ∧
    o.constraint = .FixedReg fx.preg ∧ o.kind = .Use ∧ o.pos = .Early ∧ o.vreg.vreg = fx.vreg

/-- Neither the live set nor the ranges change. -/
def SameRegs (st st' : St) : Prop := st'.ranges = st.ranges ∧ st'.live = st.live ∧ st'.ins = st.ins ∧ st'.outs = st.outs

theorem mem_clobList {l : List PReg} {p : PReg} : p ∈ (PRegSet.ofList l).toList ↔ p ∈ l := by
  rw [(PRegSet.toList_spec _).2]
  unfold PRegSet.ofList
  rw [PRegSet.has_ofList]
  simp only [Bool.or_eq_true, decide_eq_true_eq, PRegSet.has_empty, Bool.false_eq_true, or_false]
  constructor
  · rintro ⟨q, h1, h2⟩; rw [← PRegSet.index_inj h2]; exact h1
  · intro h; exact ⟨p, h, rfl⟩

theorem clobbers_safe {f : Func} {D : Nat → Prop} {np few : Prop} {st : St} {i : Nat} (h : PInv f D st) (hD : ∀ j, D j → i < j) :
    Safe np few (fun st' => (∀ e, e ∈ st'.pregs ↔ e ∈ st.pregs ∨ (e.1 ∈ f.clobbers i ∧ e.2 = ⟨ptAfter i, ptBefore (i + 1)⟩)) ∧
        st'.fixups = st.fixups ∧ SameRegs st st')
      ((PRegSet.ofList (f.clobbers i)).toList.foldlM (clobberRange i) st) := by
  have hall : ∀ p, p ∈ (PRegSet.ofList (f.clobbers i)).toList ↔ p ∈ f.clobbers i := fun p => mem_clobList
  have hnd : (PRegSet.ofList (f.clobbers i)).toList.Nodup :=
    (PRegSet.toList_spec _).1.imp (fun {a b} h e => by rw [e] at h; exact Nat.lt_irrefl _ h)
  have hlow : ∀ e ∈ st.pregs, ptBefore (i + 1) ≤ e.2.fr := by
    intro e he
    rcases (h.pregs e).mp he with ⟨j, h1, _, h2⟩ | ⟨fx, h1, h2⟩
    · have := hD j h1; rw [h2]; show 2 * (i + 1) ≤ 2 * j + 1; omega
    · obtain ⟨j, o, h3, h4, _⟩ := h.fixups fx h1
      have := hD j h3
      rw [h2]; show 2 * (i + 1) ≤ fx.pos
      rw [h4]; show 2 * (i + 1) ≤ 2 * j; omega
  generalize hl : (PRegSet.ofList (f.clobbers i)).toList = all at hall hnd
  refine (Safe.foldlM (fun l st' => ∃ pre, pre ++ l = all ∧
    (∀ e, e ∈ st'.pregs ↔ e ∈ st.pregs ∨ (e.1 ∈ pre ∧ e.2 = ⟨ptAfter i, ptBefore (i + 1)⟩)) ∧
        st'.fixups = st.fixups ∧ SameRegs st st') ?_ all st ⟨[], rfl, by simp, rfl, rfl, rfl, rfl, rfl⟩).mono ?_
  · rintro p l s ⟨pre, h1, h2, h3, h4⟩
    refine (addPreg_safe (np := np) ?_).mono ?_
    · intro _ e he hep
      rcases (h2 e).mp he with h5 | ⟨h5, _⟩
      · right; exact hlow e h5
      · exfalso
        rw [← h1] at hnd
        rw [hep] at h5
        exact (List.nodup_append.mp hnd).2.2 p h5 p (List.mem_cons_self ..) rfl
    · rintro s' rfl
      refine ⟨pre ++ [p], by rw [List.append_assoc]; exact h1, ?_, h3, h4⟩
      intro e
      rw [List.mem_cons, h2, List.mem_append, List.mem_singleton]
      constructor
      · rintro (rfl | h5 | h5)
        · exact .inr ⟨.inr rfl, rfl⟩
        · exact .inl h5
        · exact .inr ⟨.inl h5.1, h5.2⟩
      · rintro (h5 | ⟨h5 | h5, h6⟩)
        · exact .inr (.inl h5)
        · exact .inr (.inr ⟨h5, h6⟩)
        · left; rw [← h5, ← h6]
  · rintro st' ⟨pre, h1, h2, h3⟩
    rw [List.append_nil] at h1
    subst h1
    refine ⟨?_, h3⟩
    intro e
    rw [h2, hall]

theorem fixupReg_spec {f : Func} {i : Nat} {live : IndexSet} {o : Op} {p : PReg} (h : fixupReg f i live o = some p) :
    o.constraint = .FixedReg p ∧ o.kind = .Use ∧ o.pos = .Early ∧ o.asFixedNonallocatable = none := by
  unfold fixupReg at h
  split at h
  · cases h
  · rename_i hna
    split at h
    · rename_i q h1 h2 h3
      split at h
      · cases h
        exact ⟨h1, h3, h2, by simpa using hna⟩
      · cases h
    · cases h

theorem fixups_safe {f : Func} {D : Nat → Prop} {np few : Prop} {st : St} {i : Nat} (hnp : np → NoClash f)
    (hfew : few → (f.operands i).length ≤ 2 ^ 16)
    (hD : ∀ j, D j → i < j)
    (hp : ∀ e, e ∈ st.pregs ↔ (∃ j, (D j ∨ j = i) ∧ e.1 ∈ f.clobbers j ∧ e.2 = ⟨ptAfter j, ptBefore (j + 1)⟩) ∨
      ∃ fx ∈ st.fixups, e = (fx.preg, ⟨fx.pos, fx.pos + 1⟩))
    (hfx : ∀ fx ∈ st.fixups, ∃ (j : Nat) (o : Op), D j ∧ fx.pos = ptBefore j ∧ (f.operands j)[fx.slot]? = some o ∧
      o.constraint = .FixedReg fx.preg ∧ o.kind = .Use ∧ o.pos = .Early ∧ o.vreg.vreg = fx.vreg) :
    Safe np few (fun r => PInv f (fun j => D j ∨ j = i) r.1 ∧ SameRegs st r.1 ∧ r.2.length = (f.operands i).length ∧
        (∀ fx ∈ st.fixups, fx ∈ r.1.fixups) ∧
        ∀ (k : Nat) (o' : Op), r.2[k]? = some o' → ∃ o, (f.operands i)[k]? = some o ∧ RecordedAs r.1.fixups i k o o')
      ((f.operands i).zipIdx.foldlM (fixupOp f i) (st, [])) := by
  refine (Safe.foldlM (fun l (r : St × List Op) => l = ((f.operands i).zipIdx).drop r.2.length ∧ r.2.length ≤ (f.operands i).length ∧
    PInv f (fun j => D j ∨ j = i) r.1 ∧ SameRegs st r.1 ∧ (∀ fx ∈ st.fixups, fx ∈ r.1.fixups) ∧
    (∀ fx ∈ r.1.fixups, fx.pos = ptBefore i → fx.slot < r.2.length) ∧
    ∀ (k : Nat) (o' : Op), r.2[k]? = some o' → ∃ o, (f.operands i)[k]? = some o ∧ RecordedAs r.1.fixups i k o o') ?_ _ _ ?_).mono ?_
  · rintro ⟨o, k⟩ l ⟨s, acc⟩ ⟨h1, h2, h3, h4, h5, h6, h7⟩
    dsimp only at h1 h2 h3 h4 h5 h6 h7
    have hk : (f.operands i)[acc.length]? = some o ∧ k = acc.length ∧ l = ((f.operands i).zipIdx).drop (acc.length + 1) := by
      have h8 : ((f.operands i).zipIdx)[acc.length]? = some (o, k) := by
        have := congrArg (fun l => l[0]?) h1
        simpa using this.symm
      rw [List.getElem?_zipIdx] at h8
      simp only [Option.map_eq_some_iff, Prod.mk.injEq] at h8
      obtain ⟨a, h9, h10, h11⟩ := h8
      subst h10
      refine ⟨h9, by omega, ?_⟩
      have := congrArg (List.drop 1) h1
      simpa [List.drop_drop] using this
    obtain ⟨hk1, rfl, hk3⟩ := hk
    have hlt : acc.length < (f.operands i).length := (List.getElem?_eq_some_iff.mp hk1).1
    unfold fixupOp
    dsimp only
    split
    · refine ⟨by rw [hk3, List.length_append]; rfl, by rw [List.length_append]; exact hlt, h3, h4, h5, ?_, ?_⟩
      · intro fx hf hpos; have := h6 fx hf hpos; rw [List.length_append]; omega
      · intro k o' ho'
        dsimp only at ho'
        by_cases hkl : k < acc.length
        · rw [List.getElem?_append_left hkl] at ho'
          exact h7 k o' ho'
        · rw [List.getElem?_append_right (by omega)] at ho'
          have h0 : k = acc.length := by
            have := (List.getElem?_eq_some_iff.mp ho').1
            simp at this; omega
          subst h0
          simp only [Nat.sub_self, List.getElem?_cons_zero, Option.some.injEq] at ho'
          refine ⟨o, hk1, .inl ⟨ho'.symm, fun fx hf hp e => ?_⟩⟩
          have := h6 fx hf hp
          omega
    · rename_i p hfp
      obtain ⟨hc1, hc2, hc3, hc4⟩ := fixupReg_spec hfp
      refine (slotIdx_safe np (fun hf => Nat.lt_of_lt_of_le hlt (hfew hf))).bind ?_
      rintro k rfl
      refine Safe.bind (P := fun s' => s' = { s with
          fixups := ⟨ptBefore i, acc.length, p, o.vreg.vreg⟩ :: s.fixups
          pregs := (p, RKey.singleton (ptBefore i)) :: s.pregs }) ((addPreg_safe ?_).mono (by rintro s' rfl; rfl)) ?_
      · intro hn e he hep
        dsimp only at he
        rcases (h3.pregs e).mp he with ⟨j, hj, _, h9⟩ | ⟨fx, hf, h9⟩
        · right
          rw [h9]
          show 2 * i + 1 ≤ 2 * j + 1
          rcases hj with hj | hj
          · have := hD j hj; omega
          · omega
        · obtain ⟨j, o', hj, h10, h11, h12, h13, h14, _⟩ := h3.fixups fx hf
          rcases hj with hj | rfl
          · right
            rw [h9]
            show 2 * i + 1 ≤ fx.pos
            rw [h10]
            have := hD j hj
            show 2 * i + 1 ≤ 2 * j
            omega
          · exfalso
            have hfp : fx.preg = p := by rw [h9] at hep; exact hep
            have := (hnp hn).fixed j fx.slot acc.length o' o p h11 hk1 (by rw [h12, hfp]) hc1 h13 hc2 h14 hc3
            have h15 := h6 fx hf h10
            omega
      · rintro s' rfl
        refine ⟨by rw [hk3, List.length_append]; rfl, by rw [List.length_append]; exact hlt, ⟨?_, ?_⟩, h4, ?_, ?_, ?_⟩
        · intro e
          dsimp only
          rw [List.mem_cons, h3.pregs]
          constructor
          · rintro (h9 | h9 | ⟨fx, hf, h9⟩)
            · exact .inr ⟨_, List.mem_cons_self .., h9⟩
            · exact .inl h9
            · exact .inr ⟨fx, List.mem_cons_of_mem _ hf, h9⟩
          · rintro (h9 | ⟨fx, hf, h9⟩)
            · exact .inr (.inl h9)
            · rcases List.mem_cons.mp hf with rfl | hf
              · exact .inl h9
              · exact .inr (.inr ⟨fx, hf, h9⟩)
        · intro fx hf
          rcases List.mem_cons.mp hf with rfl | hf
          · exact ⟨i, o, .inr rfl, rfl, hk1, hc1, hc2, hc3, rfl⟩
          · exact h3.fixups fx hf
        · intro fx hf; exact List.mem_cons_of_mem _ (h5 fx hf)
        · intro fx hf hpos
          rw [List.length_append]
          rcases List.mem_cons.mp hf with rfl | hf
          · exact Nat.lt_succ_self _
          · have := h6 fx hf hpos; omega
        · intro k o' ho'
          dsimp only at ho' ⊢
          by_cases hkl : k < acc.length
          · rw [List.getElem?_append_left hkl] at ho'
            obtain ⟨o2, h9, h10⟩ := h7 k o' ho'
            refine ⟨o2, h9, ?_⟩
            rcases h10 with ⟨h10, h11⟩ | ⟨p', h10, h11, h12, h13, h14, h15⟩
            · refine .inl ⟨h10, fun fx hf hp => ?_⟩
              rcases List.mem_cons.mp hf with rfl | hf
              · exact Nat.ne_of_gt hkl
              · exact h11 fx hf hp
            · exact .inr ⟨p', h10, h11, h12, h13, h14, List.mem_cons_of_mem _ h15⟩
          · rw [List.getElem?_append_right (by omega)] at ho'
            have h0 : k = acc.length := by
              have := (List.getElem?_eq_some_iff.mp ho').1
              simp at this; omega
            subst h0
            simp only [Nat.sub_self, List.getElem?_cons_zero, Option.some.injEq] at ho'
            exact ⟨o, hk1, .inr ⟨p, hc1, hc2, hc3, hc4, ho'.symm, List.mem_cons_self ..⟩⟩
  · refine ⟨by simp, by simp, ⟨hp, ?_⟩, ⟨rfl, rfl, rfl, rfl⟩, fun _ h => h, ?_, by simp⟩
    · intro fx hf
      obtain ⟨j, o, h1, h2⟩ := hfx fx hf
      exact ⟨j, o, .inl h1, h2⟩
    · intro fx hf hpos
      obtain ⟨j, o, h1, h2, _⟩ := hfx fx hf
      have := hD j h1
      rw [h2] at hpos
      have : 2 * j = 2 * i := hpos
      omega
  · rintro ⟨s, acc⟩ ⟨h1, h2, h3, h4, h5, h6, h7⟩
    dsimp only at h1 h2 ⊢
    refine ⟨h3, h4, ?_, h5, h7⟩
    have := congrArg List.length h1
    simp at this
    omega

theorem mem_lateDefFixed {ops : List Op} {p : PReg} :
    p ∈ lateDefFixed ops ↔ ∃ o ∈ ops, o.constraint = .FixedReg p ∧ o.pos = .Late ∧ o.kind = .Def := by
  unfold lateDefFixed
  rw [List.mem_filterMap]
  constructor
  · rintro ⟨o, h1, h2⟩
    refine ⟨o, h1, ?_⟩
    split at h2
    · next h3 h4 h5 =>
      cases h2
      exact ⟨h3, h4, h5⟩
    · cases h2
  · rintro ⟨o, h1, h2, h3, h4⟩
    exact ⟨o, h1, by rw [h2, h3, h4]⟩

theorem fixupReg_iff {f : Func} {i : Nat} {live : IndexSet} {o : Op} {p : PReg} :
    fixupReg f i live o = some p ↔ Overwritten f i o p ∧ live.get o.vreg.vreg = true := by
  have hcl : ∀ q, (PRegSet.ofList (f.clobbers i)).contains q = true ↔ q ∈ f.clobbers i := by
    intro q
    rw [← mem_clobList, (PRegSet.toList_spec _).2, PRegSet.contains_eq_has]
  constructor
  · intro h
    obtain ⟨h1, h2, h3, h4⟩ := fixupReg_spec h
    unfold fixupReg at h
    rw [h4, h1, h2, h3] at h
    simp only [Option.isSome_none, Bool.false_eq_true, if_false] at h
    split at h
    · next hc =>
      simp only [Bool.and_eq_true, Bool.or_eq_true, decide_eq_true_eq] at hc
      refine ⟨⟨h4, h1, h2, h3, ?_⟩, hc.1⟩
      rcases hc.2 with h5 | h5
      · exact .inr (mem_lateDefFixed.mp h5)
      · exact .inl ((hcl p).mp h5)
    · cases h
  · rintro ⟨⟨h1, h2, h3, h4, h5⟩, h6⟩
    unfold fixupReg
    rw [h1, h2, h3, h4]
    simp only [Option.isSome_none, Bool.false_eq_true, if_false]
    rw [if_pos]
    simp only [Bool.and_eq_true, Bool.or_eq_true, decide_eq_true_eq]
    refine ⟨h6, ?_⟩
    rcases h5 with h5 | h5
    · exact .inr ((hcl p).mpr h5)
    · exact .inl (mem_lateDefFixed.mpr h5)

theorem addPreg_eq {st st' : St} {range : RKey} {p : PReg} (h : addPreg st range p = .ok st') :
    st' = { st with pregs := (p, range) :: st.pregs } := by
  unfold addPreg at h
  split at h
  · cases h
  · cases h; rfl

theorem slotIdx_eq {k k' : Nat} (h : slotIdx k = .ok k') : k' = k := by
  unfold slotIdx at h
  split at h
  · cases h; rfl
  · cases h

theorem bind_ok {α β : Type} {x : Except Err α} {g : α → Except Err β} {b : β} (h : x >>= g = .ok b) : ∃ a, x = .ok a ∧ g a = .ok b := by
  cases x with
  | ok a => exact ⟨a, rfl, h⟩
  | error e => cases h

/-- The fixups of one instruction. -/
theorem fixups_exact {f : Func} {i : Nat} : ∀ (l : List (Op × Nat)) (acc r : St × List Op), l.foldlM (fixupOp f i) acc = .ok r →
    r.1.live = acc.1.live ∧ r.1.allocs = acc.1.allocs ∧ ∀ fx, fx ∈ r.1.fixups ↔ fx ∈ acc.1.fixups ∨
      ∃ q ∈ l, ∃ p, Overwritten f i q.1 p ∧ acc.1.live.get q.1.vreg.vreg = true ∧ fx = ⟨ptBefore i, q.2, p, q.1.vreg.vreg⟩ := by
  intro l
  induction l with
  | nil =>
    intro acc r h
    cases h
    exact ⟨rfl, rfl, by simp⟩
  | cons q l ih =>
    intro acc r h
    rw [List.foldlM_cons] at h
    obtain ⟨acc', h1, h2⟩ := bind_ok h
    obtain ⟨i1, i2, i3⟩ := ih acc' r h2
    unfold fixupOp at h1
    split at h1
    · next hn =>
      have h1 := Except.ok.inj h1
      subst h1
      refine ⟨i1, i2, ?_⟩
      intro fx
      rw [i3]
      constructor
      · rintro (h3 | ⟨q', h3, h4⟩)
        · exact .inl h3
        · exact .inr ⟨q', List.mem_cons_of_mem _ h3, h4⟩
      · rintro (h3 | ⟨q', h3, p, h4, h5, h6⟩)
        · exact .inl h3
        · rcases List.mem_cons.mp h3 with rfl | h3
          · rw [fixupReg_iff.mpr ⟨h4, h5⟩] at hn
            cases hn
          · exact .inr ⟨q', h3, p, h4, h5, h6⟩
    · next p hp =>
      obtain ⟨k, h3, h4⟩ := bind_ok h1
      obtain ⟨st, h5, h6⟩ := bind_ok h4
      have h3 := slotIdx_eq h3
      have h5 := addPreg_eq h5
      have h6 := Except.ok.inj h6
      subst h3 h5 h6
      obtain ⟨g1, g2⟩ := fixupReg_iff.mp hp
      refine ⟨i1, i2, ?_⟩
      intro fx
      rw [i3]
      dsimp only
      rw [List.mem_cons]
      constructor
      · rintro ((h3 | h3) | ⟨q', h3, h4⟩)
        · exact .inr ⟨q, List.mem_cons_self .., p, g1, g2, h3⟩
        · exact .inl h3
        · exact .inr ⟨q', List.mem_cons_of_mem _ h3, h4⟩
      · rintro (h3 | ⟨q', h3, p', j4, j5, j6⟩)
        · exact .inl (.inr h3)
        · rcases List.mem_cons.mp h3 with rfl | h3
          · have : p' = p := by
              have := fixupReg_iff.mpr ⟨j4, j5⟩
              rw [hp] at this
              exact (Option.some.inj this).symm
            subst this
            exact .inl (.inl j6)
          · exact .inr ⟨q', h3, p', j4, j5, j6⟩

theorem Safe.and_ok {α : Type} {np few : Prop} {P Q : α → Prop} {r : Except Err α} (h : Safe np few P r) (h' : ∀ a, r = .ok a → Q a) :
    Safe np few (fun a => P a ∧ Q a) r := by
  cases r with
  | ok a => exact ⟨h, h' a rfl⟩
  | error e => cases e <;> exact h

/-- The fixups of the instructions in `D`; `N` says which values are needed later. -/
def FInv (f : Func) (D : Nat → Prop) (N : Nat → Nat → Prop) (fixups : List Fixup) : Prop :=
  ∀ fx, fx ∈ fixups ↔ ∃ (i k : Nat) (o : Op) (p : PReg), D i ∧ (f.operands i)[k]? = some o ∧ Overwritten f i o p ∧ N i o.vreg.vreg ∧
    fx = ⟨ptBefore i, k, p, o.vreg.vreg⟩

end Regalloc.Build
