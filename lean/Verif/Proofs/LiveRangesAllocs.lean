import Verif.Proofs.LiveRangesFunc

namespace Regalloc.Build

/-! ## Operands in registers that cannot be allocated -/

theorem foldlM_allocs {β : Type} {g : St → β → Except Err St} {S : β → Nat × Nat × PReg → Prop}
    (hg : ∀ st x st', g st x = .ok st' → ∀ t, t ∈ st'.allocs ↔ t ∈ st.allocs ∨ S x t) :
    ∀ (l : List β) (st st' : St), l.foldlM g st = .ok st' → ∀ t, t ∈ st'.allocs ↔ t ∈ st.allocs ∨ ∃ x ∈ l, S x t := by
  intro l
  induction l with
  | nil => intro st st' h t; cases h; simp
  | cons x l ih =>
    intro st st' h t
    rw [List.foldlM_cons] at h
    obtain ⟨st1, h1, h2⟩ := bind_ok h
    rw [ih st1 st' h2 t, hg st x st1 h1 t]
    simp only [List.mem_cons, exists_eq_or_imp, or_assoc]

theorem foldlM_allocs_same {β : Type} {g : St → β → Except Err St} (hg : ∀ st x st', g st x = .ok st' → st'.allocs = st.allocs) :
    ∀ (l : List β) (st st' : St), l.foldlM g st = .ok st' → st'.allocs = st.allocs := by
  intro l
  induction l with
  | nil => intro st st' h; cases h; rfl
  | cons x l ih =>
    intro st st' h
    rw [List.foldlM_cons] at h
    obtain ⟨st1, h1, h2⟩ := bind_ok h
    rw [ih st1 st' h2, hg st x st1 h1]

theorem procOp_allocs {multi : Bool} {f : Func} {b i : Nat} {reused : Option VReg} {st st' : St} {ok : Op × Nat}
    (h : procOp multi f b i reused st ok = .ok st') (t : Nat × Nat × PReg) :
    t ∈ st'.allocs ↔ t ∈ st.allocs ∨ ∃ p, ok.1.asFixedNonallocatable = some p ∧ t = (i, ok.2, p) := by
  unfold procOp at h
  split at h
  · next p hp =>
    cases h
    rw [hp]
    simp [or_comm]
  · next hp =>
    have : st'.allocs = st.allocs := by
      split at h
      · unfold procDef at h
        obtain ⟨_, _, h⟩ := bind_ok h
        obtain ⟨_, _, h⟩ := bind_ok h
        obtain ⟨_, _, h⟩ := bind_ok h
        cases h; rfl
      · unfold procUse at h
        obtain ⟨_, _, h⟩ := bind_ok h
        obtain ⟨_, _, h⟩ := bind_ok h
        obtain ⟨_, _, h⟩ := bind_ok h
        cases h; rfl
    rw [this, hp]
    simp

theorem fixups_ops {f : Func} {i : Nat} : ∀ (l : List (Op × Nat)) (acc r : St × List Op), l.foldlM (fixupOp f i) acc = .ok r →
    r.2.map Op.asFixedNonallocatable = acc.2.map Op.asFixedNonallocatable ++ l.map (fun q => q.1.asFixedNonallocatable) := by
  intro l
  induction l with
  | nil => intro acc r h; cases h; simp
  | cons q l ih =>
    intro acc r h
    rw [List.foldlM_cons] at h
    obtain ⟨acc', h1, h2⟩ := bind_ok h
    rw [ih acc' r h2]
    have : acc'.2.map Op.asFixedNonallocatable = acc.2.map Op.asFixedNonallocatable ++ [q.1.asFixedNonallocatable] := by
      unfold fixupOp at h1
      split at h1
      · cases h1; simp
      · next p hp =>
        obtain ⟨k, _, h4⟩ := bind_ok h1
        obtain ⟨st, _, h6⟩ := bind_ok h4
        cases h6
        rw [List.map_append, (fixupReg_iff.mp hp).1.1]
        rfl
    rw [this]
    simp

theorem procInst_allocs {multi : Bool} {f : Func} {b i : Nat} {st st' : St} (h : procInst multi f b st i = .ok st')
    (t : Nat × Nat × PReg) : t ∈ st'.allocs ↔ t ∈ st.allocs ∨
      ∃ (k : Nat) (o : Op) (p : PReg), (f.operands i)[k]? = some o ∧ o.asFixedNonallocatable = some p ∧ t = (i, k, p) := by
  unfold procInst at h
  obtain ⟨st1, h1, h⟩ := bind_ok h
  obtain ⟨reused, _, h⟩ := bind_ok h
  obtain ⟨⟨st2, ops⟩, h2, h⟩ := bind_ok h
  have e1 : st1.allocs = st.allocs := foldlM_allocs_same (by
    intro st x st' h
    unfold clobberRange at h
    rw [addPreg_eq h]) _ _ _ h1
  have e2 : st2.allocs = st1.allocs := (fixups_exact _ _ _ h2).2.1
  have e3 := fixups_ops _ _ _ h2
  dsimp only at e3 h
  rw [foldlM_allocs (g := procOp multi f b i reused)
    (S := fun ok t => ∃ p, ok.1.asFixedNonallocatable = some p ∧ t = (i, ok.2, p)) (fun st x st' hx t => procOp_allocs hx t) _ _ _ h t, e2, e1]
  refine or_congr Iff.rfl ?_
  have hk : ∀ k : Nat, ops[k]?.map Op.asFixedNonallocatable = (f.operands i)[k]?.map Op.asFixedNonallocatable := by
    intro k
    have := congrArg (fun l => l[k]?) e3
    simpa [List.getElem?_zipIdx, Function.comp_def] using this
  constructor
  · rintro ⟨⟨o, k⟩, h3, p, h4, h5⟩
    have h6 := hk k
    rw [mem_visitOrder.mp h3] at h6
    cases h7 : (f.operands i)[k]? with
    | none => rw [h7] at h6; cases h6
    | some o' =>
      rw [h7] at h6
      exact ⟨k, o', p, h7, by rw [← Option.some.inj h6]; exact h4, h5⟩
  · rintro ⟨k, o, p, h3, h4, h5⟩
    have h6 := hk k
    rw [h3] at h6
    cases h7 : ops[k]? with
    | none => rw [h7] at h6; cases h6
    | some o' =>
      rw [h7] at h6
      exact ⟨(o', k), mem_visitOrder.mpr h7, p, by rw [Option.some.inj h6]; exact h4, h5⟩

theorem outParams_allocs (f : Func) (b : Nat) (st : St) : (outParams f b st).allocs = st.allocs := by
  unfold outParams
  split
  · have h1 : ∀ (c : Nat) (l : List (VReg × VReg)) (st : St), (l.foldl (outEdge b c) st).allocs = st.allocs := by
      intro c l
      induction l with
      | nil => intro st; rfl
      | cons p l ih => intro st; rw [List.foldl_cons, ih]; rfl
    have h2 : ∀ (l : List (Nat × Nat)) (st : St), (l.foldl (fun st ci =>
        ((f.params ci.1).zip (f.args b (f.lastInst b) ci.2)).foldl (outEdge b ci.1) st) st).allocs = st.allocs := by
      intro l
      induction l with
      | nil => intro st; rfl
      | cons p l ih => intro st; rw [List.foldl_cons, ih, h1]
    exact h2 _ _
  · rfl

theorem procBlock_allocs {ord : HashOrder} {multi : Bool} {f : Func} {lo : Nat → IndexSet} {b : Nat} {st st' : St}
    (h : procBlock ord multi f lo st b = .ok st') (t : Nat × Nat × PReg) : t ∈ st'.allocs ↔ t ∈ st.allocs ∨
      ∃ i ∈ f.blockInsts b, ∃ (k : Nat) (o : Op) (p : PReg), (f.operands i)[k]? = some o ∧ o.asFixedNonallocatable = some p ∧
        t = (i, k, p) := by
  unfold procBlock at h
  obtain ⟨st1, h1, h⟩ := bind_ok h
  obtain ⟨st2, h2, h⟩ := bind_ok h
  have e1 : st1.allocs = st.allocs := by
    rw [foldlM_allocs_same (by
      intro st x st' h
      unfold liveOut at h
      obtain ⟨_, _, h⟩ := bind_ok h
      cases h; rfl) _ _ _ h1, outParams_allocs]
  have e3 : st'.allocs = st2.allocs := foldlM_allocs_same (by
      intro st x st' h
      unfold procParam at h
      obtain ⟨st1, h1, h⟩ := bind_ok h
      cases h
      unfold paramRange at h1
      split at h1
      · cases h1; rfl
      · obtain ⟨_, _, h1⟩ := bind_ok h1
        cases h1; rfl) _ _ _ h
  rw [e3, foldlM_allocs (g := procInst multi f b) (S := fun i t =>
      ∃ (k : Nat) (o : Op) (p : PReg), (f.operands i)[k]? = some o ∧ o.asFixedNonallocatable = some p ∧ t = (i, k, p))
    (fun st x st' hx t => procInst_allocs hx t) _ _ _ h2 t, e1]
  simp only [List.mem_reverse]

theorem build_allocs {ord : HashOrder} {multi : Bool} {f : Func} {lo : Nat → IndexSet} {st : St}
    (h : build ord multi f lo = .ok st) (t : Nat × Nat × PReg) : t ∈ st.allocs ↔
      ∃ b, b < f.numBlocks ∧ ∃ i ∈ f.blockInsts b, ∃ (k : Nat) (o : Op) (p : PReg), (f.operands i)[k]? = some o ∧
        o.asFixedNonallocatable = some p ∧ t = (i, k, p) := by
  unfold build at h
  rw [foldlM_allocs (g := procBlock ord multi f lo) (S := fun b t =>
      ∃ i ∈ f.blockInsts b, ∃ (k : Nat) (o : Op) (p : PReg), (f.operands i)[k]? = some o ∧ o.asFixedNonallocatable = some p ∧
        t = (i, k, p)) (fun st x st' hx t => procBlock_allocs hx t) _ _ _ h t]
  simp [start]

end Regalloc.Build
