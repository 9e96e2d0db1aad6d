import Verif.Proofs.LiveRangesAllocs
import Verif.Proofs.FixMulti

namespace Regalloc.Build

/-! ## Reservations of registers do not overlap, and every fixup has one of its own -/

/-- The reservation of a fixup. -/
def resv0 (fx : Fixup) : PReg × RKey := (fx.preg, ⟨fx.pos, fx.pos + 1⟩)

structure Resv (st : St) : Prop where
  clear : Clear st.pregs
  own : (st.fixups.map resv0).Sublist st.pregs

theorem Resv.same {st st' : St} (h : Resv st) (h1 : st'.pregs = st.pregs) (h2 : st'.fixups = st.fixups) : Resv st' :=
  ⟨by rw [h1]; exact h.clear, by rw [h1, h2]; exact h.own⟩

theorem foldlM_resv {β : Type} {g : St → β → Except Err St} (hg : ∀ st x st', g st x = .ok st' → Resv st → Resv st') :
    ∀ (l : List β) (st st' : St), l.foldlM g st = .ok st' → Resv st → Resv st' := by
  intro l
  induction l with
  | nil => intro st st' h; cases h; exact id
  | cons x l ih =>
    intro st st' h hr
    rw [List.foldlM_cons] at h
    obtain ⟨st1, h1, h2⟩ := bind_ok h
    exact ih st1 st' h2 (hg st x st1 h1 hr)

theorem fixupOp_resv {f : Func} {i : Nat} : ∀ (l : List (Op × Nat)) (acc r : St × List Op), l.foldlM (fixupOp f i) acc = .ok r →
    Resv acc.1 → Resv r.1 := by
  intro l
  induction l with
  | nil => intro acc r h; cases h; exact id
  | cons q l ih =>
    intro acc r h hr
    rw [List.foldlM_cons] at h
    obtain ⟨acc', h1, h2⟩ := bind_ok h
    refine ih acc' r h2 ?_
    unfold fixupOp at h1
    split at h1
    · cases h1; exact hr
    · obtain ⟨k, _, h4⟩ := bind_ok h1
      obtain ⟨st, h5, h6⟩ := bind_ok h4
      cases h6
      obtain ⟨e1, e2⟩ := addPreg_ok h5
      refine ⟨e2 hr.clear, ?_⟩
      rw [e1]
      exact List.Sublist.cons_cons _ hr.own

theorem procInst_resv {multi : Bool} {f : Func} {b i : Nat} {st st' : St} (h : procInst multi f b st i = .ok st') (hr : Resv st) :
    Resv st' := by
  unfold procInst at h
  obtain ⟨st1, h1, h⟩ := bind_ok h
  obtain ⟨reused, _, h⟩ := bind_ok h
  obtain ⟨⟨st2, ops⟩, h2, h⟩ := bind_ok h
  have e1 : Resv st1 := foldlM_resv (by
    intro st x st' h hr
    unfold clobberRange at h
    obtain ⟨e1, e2⟩ := addPreg_ok h
    refine ⟨e2 hr.clear, ?_⟩
    rw [e1]
    exact List.Sublist.cons _ hr.own) _ _ _ h1 hr
  have e2 : Resv st2 := fixupOp_resv _ _ _ h2 e1
  refine foldlM_resv (g := procOp multi f b i reused) ?_ _ _ _ h e2
  intro st x st' h hr
  unfold procOp at h
  split at h
  · cases h; exact hr.same rfl rfl
  · split at h
    · unfold procDef at h
      obtain ⟨_, _, h⟩ := bind_ok h
      obtain ⟨_, _, h⟩ := bind_ok h
      obtain ⟨_, _, h⟩ := bind_ok h
      cases h; exact hr.same rfl rfl
    · unfold procUse at h
      obtain ⟨_, _, h⟩ := bind_ok h
      obtain ⟨_, _, h⟩ := bind_ok h
      obtain ⟨_, _, h⟩ := bind_ok h
      cases h; exact hr.same rfl rfl

theorem outParams_resv (f : Func) (b : Nat) (st : St) : (outParams f b st).pregs = st.pregs ∧ (outParams f b st).fixups = st.fixups := by
  unfold outParams
  split
  · have h1 : ∀ (c : Nat) (l : List (VReg × VReg)) (st : St), (l.foldl (outEdge b c) st).pregs = st.pregs ∧
        (l.foldl (outEdge b c) st).fixups = st.fixups := by
      intro c l
      induction l with
      | nil => intro st; exact ⟨rfl, rfl⟩
      | cons p l ih => intro st; rw [List.foldl_cons]; exact ih _
    have h2 : ∀ (l : List (Nat × Nat)) (st : St), (l.foldl (fun st ci =>
        ((f.params ci.1).zip (f.args b (f.lastInst b) ci.2)).foldl (outEdge b ci.1) st) st).pregs = st.pregs ∧
        (l.foldl (fun st ci =>
        ((f.params ci.1).zip (f.args b (f.lastInst b) ci.2)).foldl (outEdge b ci.1) st) st).fixups = st.fixups := by
      intro l
      induction l with
      | nil => intro st; exact ⟨rfl, rfl⟩
      | cons p l ih =>
        intro st; rw [List.foldl_cons]
        obtain ⟨a1, a2⟩ := ih (((f.params p.1).zip (f.args b (f.lastInst b) p.2)).foldl (outEdge b p.1) st)
        obtain ⟨b1, b2⟩ := h1 p.1 ((f.params p.1).zip (f.args b (f.lastInst b) p.2)) st
        exact ⟨a1.trans b1, a2.trans b2⟩
    exact h2 _ _
  · exact ⟨rfl, rfl⟩

theorem procBlock_resv {ord : HashOrder} {multi : Bool} {f : Func} {lo : Nat → IndexSet} {b : Nat} {st st' : St}
    (h : procBlock ord multi f lo st b = .ok st') (hr : Resv st) : Resv st' := by
  unfold procBlock at h
  obtain ⟨st1, h1, h⟩ := bind_ok h
  obtain ⟨st2, h2, h⟩ := bind_ok h
  have e0 : Resv (outParams f b { st with live := lo b }) :=
    Resv.same (st := st) hr (outParams_resv f b { st with live := lo b }).1 (outParams_resv f b { st with live := lo b }).2
  have e1 : Resv st1 := foldlM_resv (by
      intro st x st' h hr
      unfold liveOut at h
      obtain ⟨_, _, h⟩ := bind_ok h
      cases h; exact hr.same rfl rfl) _ _ _ h1 e0
  have e2 : Resv st2 := foldlM_resv (fun st x st' h hr => procInst_resv h hr) _ _ _ h2 e1
  exact foldlM_resv (by
      intro st x st' h hr
      unfold procParam at h
      obtain ⟨st1, h1, h⟩ := bind_ok h
      cases h
      refine Resv.same (st := st1) ?_ rfl rfl
      unfold paramRange at h1
      split at h1
      · cases h1; exact hr.same rfl rfl
      · obtain ⟨_, _, h1⟩ := bind_ok h1
        cases h1; exact hr.same rfl rfl) _ _ _ h e2

theorem build_resv {ord : HashOrder} {multi : Bool} {f : Func} {lo : Nat → IndexSet} {st : St}
    (h : build ord multi f lo = .ok st) : Resv st := by
  unfold build at h
  exact foldlM_resv (fun st x st' h hr => procBlock_resv h hr) _ _ _ h ⟨List.Pairwise.nil, List.Sublist.slnil⟩

end Regalloc.Build
