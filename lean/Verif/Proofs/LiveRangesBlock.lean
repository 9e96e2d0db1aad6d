import Verif.Proofs.LiveRangesInst

namespace Regalloc.Build

theorem RecordedAs.same {fixups : List Fixup} {i k : Nat} {o o' : Op} (h : RecordedAs fixups i k o o') :
    o'.vreg = o.vreg ∧ o'.kind = o.kind ∧ o'.pos = o.pos ∧ o'.asFixedNonallocatable = o.asFixedNonallocatable := by
  rcases h with ⟨rfl, _⟩ | ⟨p, h1, h2, h3, h4, rfl, _⟩
  · exact ⟨rfl, rfl, rfl, rfl⟩
  · exact ⟨rfl, rfl, rfl, by rw [h4]; rfl⟩

theorem RecordedAs.mono {fixups fixups' : List Fixup} (hs : ∀ fx ∈ fixups, fx ∈ fixups') {i k : Nat} {o o' : Op}
    (hn : ∀ fx ∈ fixups', fx.pos = ptBefore i → fx ∈ fixups) (h : RecordedAs fixups i k o o') : RecordedAs fixups' i k o o' := by
  rcases h with ⟨h, h0⟩ | ⟨p, h1, h2, h3, h4, h5, h6⟩
  · exact .inl ⟨h, fun fx hf hp => h0 fx (hn fx hf hp) hp⟩
  · exact .inr ⟨p, h1, h2, h3, h4, h5, hs _ h6⟩

theorem opPoint_use (f : Func) (i : Nat) {o : Op} (h : o.kind = .Use) :
    opPoint (reusedReg (f.operands i)) i o = usePoint f i o := by
  unfold opPoint usePoint
  rw [h]
  cases hp : o.pos with
  | Late => simp
  | Early =>
    simp only [reduceCtorEq, false_or]
    cases hr : reusedReg (f.operands i) with
    | none => simp
    | some r => simp

theorem opPoint_def (f : Func) (i : Nat) {o : Op} (h : o.kind = .Def) :
    opPoint (reusedReg (f.operands i)) i o = defPoint i o := by
  unfold opPoint defPoint
  rw [h]
  cases hp : o.pos <;> simp

theorem opPoint_record (f : Func) (i : Nat) (o : Op) : opPoint (reusedReg (f.operands i)) i o = recordPoint f i o := by
  unfold recordPoint
  cases h : o.kind with
  | Use => exact opPoint_use f i h
  | Def => exact opPoint_def f i h

theorem opPoint_cases (r : Option VReg) (i : Nat) (o : Op) : opPoint r i o = ptAfter i ∨ opPoint r i o = ptBefore i := by
  unfold opPoint
  split
  · exact .inr rfl
  · exact .inl rfl
  · exact .inl rfl
  · split
    · split
      · exact .inl rfl
      · exact .inr rfl
    · exact .inr rfl

theorem opPoint_congr (r : Option VReg) (i : Nat) {o o' : Op} (h1 : o'.vreg = o.vreg) (h2 : o'.kind = o.kind) (h3 : o'.pos = o.pos) :
    opPoint r i o' = opPoint r i o := by
  unfold opPoint; rw [h1, h2, h3]

theorem mem_visitOrder {r : Option VReg} {i : Nat} {ops : List Op} {o : Op} {k : Nat} :
    (o, k) ∈ visitOrder r i ops ↔ ops[k]? = some o := by
  unfold visitOrder
  rw [List.mem_append, List.mem_filter, List.mem_filter, List.mem_zipIdx_iff_getElem?]
  simp only [decide_eq_true_eq]
  constructor
  · rintro (h | h) <;> exact h.1
  · intro h
    rcases opPoint_cases r i o with h1 | h1
    · exact .inl ⟨h, h1⟩
    · exact .inr ⟨h, h1⟩

theorem visitOrder_pairwise (r : Option VReg) (i : Nat) (ops : List Op) :
    (visitOrder r i ops).Pairwise (fun y z => opPoint r i z.1 ≤ opPoint r i y.1 ∧ y.2 ≠ z.2) := by
  have hz : ops.zipIdx.Pairwise (fun y z => y.2 ≠ z.2) := by
    have h0 : (ops.zipIdx.map Prod.snd).Nodup := by
      rw [List.zipIdx_map_snd]
      exact List.nodup_range'
    exact List.pairwise_map.mp h0
  unfold visitOrder
  rw [List.pairwise_append]
  refine ⟨?_, ?_, ?_⟩
  · have h1 := List.Pairwise.filter (fun ok : Op × Nat => decide (opPoint r i ok.1 = ptAfter i)) hz
    refine h1.imp_of_mem ?_
    intro a b ha hb hab
    have ha := (List.mem_filter.mp ha).2
    have hb := (List.mem_filter.mp hb).2
    simp only [decide_eq_true_eq] at ha hb
    exact ⟨by omega, hab⟩
  · have h1 := List.Pairwise.filter (fun ok : Op × Nat => decide (opPoint r i ok.1 = ptBefore i)) hz
    refine h1.imp_of_mem ?_
    intro a b ha hb hab
    have ha := (List.mem_filter.mp ha).2
    have hb := (List.mem_filter.mp hb).2
    simp only [decide_eq_true_eq] at ha hb
    exact ⟨by omega, hab⟩
  · rintro ⟨o, k⟩ ha ⟨o', k'⟩ hb
    obtain ⟨ha1, ha2⟩ := List.mem_filter.mp ha
    obtain ⟨hb1, hb2⟩ := List.mem_filter.mp hb
    simp only [decide_eq_true_eq] at ha2 hb2
    have : ptBefore i < ptAfter i := by show 2 * i < 2 * i + 1; omega
    refine ⟨by dsimp only; omega, ?_⟩
    rintro rfl
    rw [List.mem_zipIdx_iff_getElem?] at ha1 hb1
    dsimp only at ha1 hb1
    rw [ha1] at hb1
    cases hb1
    omega

def key (ev : Ev) : Nat × Nat := (ev.1, ev.2.2)

/-- What is known about the operands processed so far. -/
structure EInv (f : Func) (all : List Ev) (D : Nat → Prop) (fixups : List Fixup) : Prop where
  just : ∀ ev ∈ all, ∃ o, (f.operands ev.1)[ev.2.2]? = some o ∧ RecordedAs fixups ev.1 ev.2.2 o ev.2.1
  keys : ∀ i k : Nat, (∃ ev ∈ all, key ev = (i, k)) ↔ D i ∧ k < (f.operands i).length
  nodup : (all.map key).Nodup
  sorted : all.Pairwise (fun a b => evPt f a ≤ evPt f b)

theorem EInv.mem {f : Func} {all : List Ev} {D : Nat → Prop} {fixups : List Fixup} (h : EInv f all D fixups) {ev : Ev}
    (he : ev ∈ all) : D ev.1 := ((h.keys ev.1 ev.2.2).mp ⟨ev, he, rfl⟩).1

theorem mem_blockInsts {f : Func} {b i : Nat} : i ∈ f.blockInsts b ↔ (f.insns b).1 ≤ i ∧ i < (f.insns b).2 := by
  unfold Func.blockInsts
  rw [List.mem_range'_1]
  constructor
  · rintro ⟨h1, h2⟩; omega
  · rintro ⟨h1, h2⟩; omega

/-- The events of a block are its operands. -/
theorem usesOf_iff {f : Func} {b : Nat} {done prev : List Ev} {D : Nat → Prop} {fixups : List Fixup}
    {m : Nat} (h : EInv f (done ++ prev) D fixups) (hm : (f.insns b).1 ≤ m) (hD : ∀ i, m ≤ i ∧ i < (f.insns b).2 → D i)
    (hd : ∀ ev ∈ done, m ≤ ev.1 ∧ ev.1 < (f.insns b).2) (hp : ∀ ev ∈ prev, (f.insns b).2 ≤ ev.1) (v p : Nat) :
    (p ∈ usesOf f v done ↔ UsedAt f b v p ∧ m ≤ p / 2) ∧ (p ∈ defsOf f v done ↔ DefinedAt f b v p ∧ m ≤ p / 2) := by
  have fwd : ∀ ev ∈ done, names v ev = true → ∃ o ∈ f.operands ev.1, o.asFixedNonallocatable = none ∧ o.kind = ev.2.1.kind ∧
      o.vreg.vreg = v ∧ evPt f ev = opPoint (reusedReg (f.operands ev.1)) ev.1 o := by
    intro ev hev hn
    obtain ⟨o, h1, h2⟩ := h.just ev (List.mem_append_left _ hev)
    obtain ⟨s1, s2, s3, s4⟩ := h2.same
    obtain ⟨n1, n2⟩ := names_iff.mp hn
    exact ⟨o, List.mem_of_getElem? h1, s4 ▸ n1, s2.symm, s1 ▸ n2, opPoint_congr _ _ s1 s2 s3⟩
  have bwd : ∀ i ∈ f.blockInsts b, m ≤ i → ∀ o ∈ f.operands i, o.asFixedNonallocatable = none → o.vreg.vreg = v →
      ∃ ev ∈ done, names v ev = true ∧ ev.2.1.kind = o.kind ∧ evPt f ev = opPoint (reusedReg (f.operands i)) i o := by
    intro i hi hmi o ho hna hv
    have hi := mem_blockInsts.mp hi
    obtain ⟨k, hk⟩ := List.mem_iff_getElem?.mp ho
    obtain ⟨ev, h1, h2⟩ := (h.keys i k).mpr ⟨hD i ⟨hmi, hi.2⟩, (List.getElem?_eq_some_iff.mp hk).1⟩
    obtain ⟨e1, e2⟩ := Prod.mk.inj h2
    obtain ⟨o', h3, h4⟩ := h.just ev h1
    rw [e1, e2, hk] at h3
    cases h3
    obtain ⟨s1, s2, s3, s4⟩ := h4.same
    refine ⟨ev, ?_, names_iff.mpr ⟨s4.trans hna, by rw [s1]; exact hv⟩, s2, ?_⟩
    · rcases List.mem_append.mp h1 with h1 | h1
      · exact h1
      · have := hp ev h1; omega
    · unfold evPt; rw [e1]; exact opPoint_congr _ _ s1 s2 s3
  constructor
  · rw [mem_usesOf]
    constructor
    · rintro ⟨ev, h1, h2, h3, h4⟩
      obtain ⟨o, g1, g2, g3, g4, g5⟩ := fwd ev h1 h2
      have hdv := hd ev h1
      exact ⟨⟨ev.1, mem_blockInsts.mpr (by omega), o, g1, g2, g3.trans h3, g4,
        by rw [← h4, g5, opPoint_use f _ (g3.trans h3)]⟩, by rw [← h4, evPt_div]; exact hdv.1⟩
    · rintro ⟨⟨i, h1, o, h2, h3, h4, h5, h6⟩, h7⟩
      have hpi : p / 2 = i := by
        rw [h6]
        unfold usePoint
        split
        · show (2 * i + 1) / 2 = i; omega
        · show 2 * i / 2 = i; omega
      obtain ⟨ev, g1, g2, g3, g4⟩ := bwd i h1 (by omega) o h2 h3 h5
      exact ⟨ev, g1, g2, g3.trans h4, by rw [g4, h6, opPoint_use f _ h4]⟩
  · rw [mem_defsOf]
    constructor
    · rintro ⟨ev, h1, h2, h3, h4⟩
      obtain ⟨o, g1, g2, g3, g4, g5⟩ := fwd ev h1 h2
      have hdv := hd ev h1
      exact ⟨⟨ev.1, mem_blockInsts.mpr (by omega), o, g1, g2, g3.trans h3, g4,
        by rw [← h4, g5, opPoint_def f _ (g3.trans h3)]⟩, by rw [← h4, evPt_div]; exact hdv.1⟩
    · rintro ⟨⟨i, h1, o, h2, h3, h4, h5, h6⟩, h7⟩
      have hpi : p / 2 = i := by
        rw [h6]
        unfold defPoint
        split
        · show (2 * i + 1) / 2 = i; omega
        · show 2 * i / 2 = i; omega
      obtain ⟨ev, g1, g2, g3, g4⟩ := bwd i h1 (by omega) o h2 h3 h5
      exact ⟨ev, g1, g2, g3.trans h4, by rw [g4, h6, opPoint_def f _ h4]⟩

/-- The live set while the instruction before `m` is scanned. -/
theorem liveB_iff {f : Func} {b : Nat} {done prev : List Ev} {D : Nat → Prop} {fixups : List Fixup} {out : Prop}
    {m : Nat} (h : EInv f (done ++ prev) D fixups) (hm : (f.insns b).1 ≤ m) (hD : ∀ i, m ≤ i ∧ i < (f.insns b).2 → D i)
    (hd : ∀ ev ∈ done, m ≤ ev.1 ∧ ev.1 < (f.insns b).2) (hp : ∀ ev ∈ prev, (f.insns b).2 ≤ ev.1) (v : Nat) {i : Nat}
    (hi : m = i + 1) : LiveB (usesOf f v done) (defsOf f v done) out ↔ NeededAfter f out b v i := by
  have hev := usesOf_iff h hm hD hd hp v
  unfold LiveB NeededAfter
  refine or_congr (and_congr Iff.rfl ?_) ?_
  · constructor
    · intro h1 d hd'
      apply Classical.byContradiction
      intro h2
      have := (hev d).2.mpr ⟨hd', by omega⟩
      rw [h1] at this
      cases this
    · intro h1
      rw [List.eq_nil_iff_forall_not_mem]
      intro d hd'
      have h2 := (hev d).2.mp hd'
      have := h1 d h2.1
      omega
  · constructor
    · rintro ⟨u, h1, h2⟩
      have h3 := (hev u).1.mp h1
      exact ⟨u, h3.1, by omega, fun d h4 h5 => h2 d ((hev d).2.mpr ⟨h4, by omega⟩)⟩
    · rintro ⟨u, h1, h2, h3⟩
      refine ⟨u, (hev u).1.mpr ⟨h1, by omega⟩, fun d h4 => ?_⟩
      have h5 := (hev d).2.mp h4
      exact h3 d h5.1 (by omega)

/-- State while the instructions of a block are scanned. -/
structure SInv (f : Func) (b : Nat) (old : Nat → Nat → Prop) (out : Nat → Prop) (prev done : List Ev) (D : Nat → Prop)
    (N : Nat → Nat → Prop) (st : St) : Prop where
  g : GInv f (ptBefore (f.insns b).1) (ptBefore (f.insns b).2) old out prev done st
  p : PInv f D st
  e : EInv f (done ++ prev) D st.fixups
  x : FInv f D N st.fixups

theorem procInst_safe {f : Func} (hr : Ready f) {b i : Nat} {old : Nat → Nat → Prop} {out : Nat → Prop} {prev done : List Ev}
    {D : Nat → Prop} {N : Nat → Nat → Prop} {st : St} {np few : Prop} (hnp : np → NoClash f)
    (hfew : few → ∀ i, (f.operands i).length ≤ 2 ^ 16) (multi : Bool)
    (h : SInv f b old out prev done D N st)
    (hN : ∀ v, v < 2 ^ 30 → (LiveB (usesOf f v done) (defsOf f v done) (out v) ↔ N i v)) (hold : ∀ v p, old v p → ptBefore (f.insns b).2 ≤ p)
    (hb : (f.insns b).1 ≤ i ∧ i < (f.insns b).2) (hD : ∀ j, D j → i < j) :
    Safe np few (fun st' => ∃ new, (∀ ev ∈ new, ev.1 = i) ∧ SInv f b old out prev (new ++ done) (fun j => D j ∨ j = i) N st' ∧
        st'.ins = st.ins ∧ st'.outs = st.outs)
      (procInst multi f b st i) := by
  unfold procInst
  refine (clobbers_safe h.p hD).bind ?_
  rintro st1 ⟨hp1, hf1, hs1⟩
  refine (reusedInput_safe hnp i).bind ?_
  rintro reused rfl
  refine ((fixups_safe (D := D) hnp (fun hf => hfew hf i) hD ?_ ?_).and_ok (fun r hr => fixups_exact _ _ r hr)).bind ?_
  · intro e
    rw [hp1, h.p.pregs, hf1]
    constructor
    · rintro ((⟨j, h1, h2⟩ | h1) | ⟨h1, h2⟩)
      · exact .inl ⟨j, .inl h1, h2⟩
      · exact .inr h1
      · exact .inl ⟨i, .inr rfl, h1, h2⟩
    · rintro (⟨j, h1 | rfl, h2⟩ | h1)
      · exact .inl (.inl ⟨j, h1, h2⟩)
      · exact .inr h2
      · exact .inl (.inr h1)
  · rw [hf1]; exact h.p.fixups
  rintro ⟨st2, ops⟩ ⟨⟨hp2, hs2, hlen, hfx, hrec⟩, _, _, hex⟩
  dsimp only at hp2 hs2 hlen hfx hrec hex ⊢
  have hg2 : GInv f (ptBefore (f.insns b).1) (ptBefore (f.insns b).2) old out prev done st2 := by
    refine ⟨?_, ?_⟩
    · rw [hs2.2.1, hs1.2.1]; exact h.g.good
    · intro v hv
      rw [hs2.2.1, hs1.2.1, hs2.1, hs1.1]
      exact h.g.reg v hv
  have hlow : ∀ e ∈ done ++ prev, ∀ y, evPt f (i, y) ≤ evPt f e ∧ e.1 ≠ i := by
    intro e he y
    have h1 := hD _ (h.e.mem he)
    have h2 := evPt_div f e
    have h3 := evPt_div f (i, y)
    dsimp only at h3
    omega
  have hvis := visitOrder_pairwise (reusedReg (f.operands i)) i ops
  have hmem : ∀ {o' : Op} {k : Nat}, (o', k) ∈ visitOrder (reusedReg (f.operands i)) i ops →
      ∃ o, (f.operands i)[k]? = some o ∧ RecordedAs st2.fixups i k o o' := by
    intro o' k hm
    exact hrec k o' (mem_visitOrder.mp hm)
  refine (visits_safe np multi hold hb (visitOrder (reusedReg (f.operands i)) i ops) done st2 hg2 ?_ ?_ ?_ ?_).mono ?_
  · intro e he y _
    exact (hlow e (List.mem_append_right _ he) y).1
  · intro e he y _
    have := hlow e (List.mem_append_left _ he) y
    exact ⟨this.1, fun h1 => absurd h1.symm this.2⟩
  · refine hvis.imp_of_mem ?_
    rintro ⟨oa, ka⟩ ⟨ob, kb⟩ ha hb' ⟨h1, h2⟩
    refine ⟨h1, ?_⟩
    intro _ v hv hv'
    obtain ⟨o, ho, hro⟩ := hmem ha
    obtain ⟨o', ho', hro'⟩ := hmem hb'
    obtain ⟨s1, s2, s3, s4⟩ := hro.same
    obtain ⟨t1, t2, t3, t4⟩ := hro'.same
    obtain ⟨n1, n2⟩ := names_iff.mp hv
    obtain ⟨n3, n4⟩ := names_iff.mp hv'
    dsimp only at n1 n2 n3 n4 h2 ⊢
    rw [t4] at n1
    rw [s4] at n3
    rw [t1] at n2
    rw [s1] at n4
    rw [s2, t2]
    exact ⟨hr.once i kb ka o' o ho' ho (fun h => h2 h.symm) n1 n3 (n2.trans n4.symm),
      hr.once i ka kb o o' ho ho' h2 n3 n1 (n4.trans n2.symm)⟩
  · rintro hf ⟨o', k⟩ hy
    obtain ⟨o, ho, _⟩ := hmem hy
    exact Nat.lt_of_lt_of_le (List.getElem?_eq_some_iff.mp ho).1 (hfew hf i)
  · rintro st3 ⟨hg3, hs3⟩
    refine ⟨((visitOrder (reusedReg (f.operands i)) i ops).map (fun y => (i, y))).reverse, ?_, ⟨hg3, ?_, ?_, ?_⟩, ?_, ?_⟩
    · intro ev hev
      rw [List.mem_reverse] at hev
      obtain ⟨y, _, rfl⟩ := List.mem_map.mp hev
      rfl
    · refine ⟨?_, ?_⟩
      · rw [hs3.1, hs3.2.1]; exact hp2.pregs
      · rw [hs3.2.1]; exact hp2.fixups
    · rw [hs3.2.1]
      refine ⟨?_, ?_, ?_, ?_⟩
      · intro ev hev
        rw [List.append_assoc] at hev
        rcases List.mem_append.mp hev with hev | hev
        · rw [List.mem_reverse] at hev
          obtain ⟨⟨o', k⟩, hy, rfl⟩ := List.mem_map.mp hev
          exact hmem hy
        · obtain ⟨o, h1, h2⟩ := h.e.just ev hev
          refine ⟨o, h1, h2.mono (fun fx hf => hfx fx (by rw [hf1]; exact hf)) ?_⟩
          intro fx hf hp
          rcases (hex fx).mp hf with h3 | ⟨_, _, _, _, _, h3⟩
          · rw [hf1] at h3; exact h3
          · exfalso
            rw [h3] at hp
            have : 2 * i = 2 * ev.1 := hp
            have := hD _ (h.e.mem hev)
            omega
      · intro j k
        rw [List.append_assoc]
        constructor
        · rintro ⟨ev, hev, hk⟩
          rcases List.mem_append.mp hev with hev | hev
          · rw [List.mem_reverse] at hev
            obtain ⟨⟨o', k'⟩, hy, rfl⟩ := List.mem_map.mp hev
            obtain ⟨rfl, rfl⟩ := Prod.mk.inj hk
            refine ⟨.inr rfl, ?_⟩
            obtain ⟨o, h1, _⟩ := hmem hy
            exact (List.getElem?_eq_some_iff.mp h1).1
          · have := (h.e.keys j k).mp ⟨ev, hev, hk⟩
            exact ⟨.inl this.1, this.2⟩
        · rintro ⟨h1 | rfl, h2⟩
          · obtain ⟨ev, h3, h4⟩ := (h.e.keys j k).mpr ⟨h1, h2⟩
            exact ⟨ev, List.mem_append_right _ h3, h4⟩
          · have h3 : k < ops.length := by omega
            refine ⟨(j, ops[k], k), List.mem_append_left _ ?_, rfl⟩
            rw [List.mem_reverse]
            exact List.mem_map.mpr ⟨(ops[k], k), mem_visitOrder.mpr (List.getElem?_eq_getElem h3), rfl⟩
      · rw [List.append_assoc, List.map_append, List.nodup_append]
        refine ⟨?_, h.e.nodup, ?_⟩
        · rw [List.map_reverse]
          rw [(List.reverse_perm _).nodup_iff, List.map_map]
          refine List.pairwise_map.mpr (hvis.imp ?_)
          intro a c hac heq
          exact hac.2 (Prod.mk.inj heq).2
        · intro a ha c hc
          obtain ⟨ev, hev, rfl⟩ := List.mem_map.mp ha
          obtain ⟨ev', hev', rfl⟩ := List.mem_map.mp hc
          rw [List.mem_reverse] at hev
          obtain ⟨y, _, rfl⟩ := List.mem_map.mp hev
          intro heq
          exact (hlow ev' hev' y).2 (Prod.mk.inj heq).1.symm
      · rw [List.append_assoc, List.pairwise_append]
        refine ⟨?_, h.e.sorted, ?_⟩
        · rw [List.pairwise_reverse, List.pairwise_map]
          exact hvis.imp (fun {a c} h => h.1)
        · intro ev hev ev' hev'
          rw [List.mem_reverse] at hev
          obtain ⟨y, _, rfl⟩ := List.mem_map.mp hev
          exact (hlow ev' hev' y).1
    · intro fx
      rw [hs3.2.1, hex, hf1, h.x]
      constructor
      · rintro (⟨j, k, o, p, h1, h2⟩ | ⟨⟨o, k⟩, h1, p, h2, h3, h4⟩)
        · exact ⟨j, k, o, p, .inl h1, h2⟩
        · refine ⟨i, k, o, p, .inr rfl, List.mem_zipIdx_iff_getElem?.mp h1, h2, ?_, h4⟩
          have hlt : o.vreg.vreg < 2 ^ 30 := Liveness.vreg_lt o.vreg
          rw [hs1.2.1, (h.g.reg _ hlt).isLive] at h3
          exact (hN _ hlt).mp h3
      · rintro ⟨j, k, o, p, h1 | rfl, h2, h3, h4, h5⟩
        · exact .inl ⟨j, k, o, p, h1, h2, h3, h4, h5⟩
        · refine .inr ⟨(o, k), List.mem_zipIdx_iff_getElem?.mpr h2, p, h3, ?_, h5⟩
          have hlt : o.vreg.vreg < 2 ^ 30 := Liveness.vreg_lt o.vreg
          rw [hs1.2.1, (h.g.reg _ hlt).isLive]
          exact (hN _ hlt).mpr h4
    · rw [hs3.2.2.1, hs2.2.2.1, hs1.2.2.1]
    · rw [hs3.2.2.2, hs2.2.2.2, hs1.2.2.2]

theorem insts_safe {f : Func} (hr : Ready f) {b : Nat} {old : Nat → Nat → Prop} {out : Nat → Prop} {prev : List Ev} {N : Nat → Nat → Prop}
    {np few : Prop} (hnp : np → NoClash f) (hfew : few → ∀ i, (f.operands i).length ≤ 2 ^ 16) (multi : Bool)
    (hold : ∀ v p, old v p → ptBefore (f.insns b).2 ≤ p) (D : Nat → Prop)
    (hD : ∀ j, D j → (f.insns b).2 ≤ j)
    (hN : ∀ v i, v < 2 ^ 30 → (f.insns b).1 ≤ i → i < (f.insns b).2 → (NeededAfter f (out v) b v i ↔ N i v))
    (hprev : ∀ ev ∈ prev, (f.insns b).2 ≤ ev.1) :
    ∀ n, (f.insns b).1 + n ≤ (f.insns b).2 → ∀ (done : List Ev) (st : St),
      SInv f b old out prev done (fun j => D j ∨ ((f.insns b).1 + n ≤ j ∧ j < (f.insns b).2)) N st →
      (∀ ev ∈ done, (f.insns b).1 ≤ ev.1 ∧ ev.1 < (f.insns b).2) →
      Safe np few (fun st' => ∃ done', (∀ ev ∈ done', (f.insns b).1 ≤ ev.1 ∧ ev.1 < (f.insns b).2) ∧
          SInv f b old out prev done' (fun j => D j ∨ ((f.insns b).1 ≤ j ∧ j < (f.insns b).2)) N st' ∧
          st'.ins = st.ins ∧ st'.outs = st.outs)
        ((List.range' (f.insns b).1 n).reverse.foldlM (procInst multi f b) st) := by
  intro n
  induction n with
  | zero => intro _ done st h h2; exact ⟨done, h2, h, rfl, rfl⟩
  | succ n ih =>
    intro hn done st h h2
    have e1 : (List.range' (f.insns b).1 (n + 1)).reverse = ((f.insns b).1 + n) :: (List.range' (f.insns b).1 n).reverse := by
      rw [← List.range'_append_1 (m := n) (n := 1)]
      simp
    rw [e1, List.foldlM_cons]
    refine (procInst_safe hr (i := (f.insns b).1 + n) hnp hfew multi h ?_ hold (by omega) ?_).bind ?_
    · intro v hv
      rw [← hN v _ hv (by omega) (by omega)]
      exact liveB_iff h.e (m := (f.insns b).1 + (n + 1)) (by omega) (fun j hj => .inr hj) (fun ev hev => by
        have h3 := h.e.mem (List.mem_append_left _ hev)
        have h4 := h2 ev hev
        rcases h3 with h3 | h3
        · have := hD _ h3; omega
        · omega) hprev v (by omega)
    · intro j hj
      rcases hj with hj | hj
      · have := hD j hj; omega
      · omega
    · rintro st1 ⟨new, h3, h4, h5, h6⟩
      have h7 : (fun j => (D j ∨ (f.insns b).1 + (n + 1) ≤ j ∧ j < (f.insns b).2) ∨ j = (f.insns b).1 + n) =
          (fun j => D j ∨ ((f.insns b).1 + n ≤ j ∧ j < (f.insns b).2)) := by
        funext j
        apply propext
        constructor
        · rintro ((h8 | h8) | h8)
          · exact .inl h8
          · exact .inr (by omega)
          · exact .inr (by omega)
        · rintro (h8 | h8)
          · exact .inl (.inl h8)
          · by_cases h9 : j = (f.insns b).1 + n
            · exact .inr h9
            · exact .inl (.inr (by omega))
      rw [h7] at h4
      refine (ih (by omega) (new ++ done) st1 h4 ?_).mono ?_
      · intro ev hev
        rcases List.mem_append.mp hev with hev | hev
        · rw [h3 ev hev]; omega
        · exact h2 ev hev
      · rintro st2 ⟨done', h8, h9, h10, h11⟩
        exact ⟨done', h8, h9, h10.trans h5, h11.trans h6⟩

end Regalloc.Build
