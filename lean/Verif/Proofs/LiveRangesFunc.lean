import Verif.Proofs.LiveRangesBlock

namespace Regalloc.Build

/-! ## Registers live at the end of a block -/

theorem outEdge_fold (b c : Nat) (l : List (VReg × VReg)) : ∀ st : St, Liveness.Good st.live →
    let st' := l.foldl (outEdge b c) st
    Liveness.Good st'.live ∧ (∀ v, v < 2 ^ 30 → (st'.live.get v = true ↔ (∃ p ∈ l, p.2.vreg = v) ∨ st.live.get v = true)) ∧
      (∀ t, t ∈ st'.outs ↔ (∃ p ∈ l, t = (b, c, p.1.vreg, p.2.vreg)) ∨ t ∈ st.outs) ∧
      st'.ranges = st.ranges ∧ st'.pregs = st.pregs ∧ st'.fixups = st.fixups ∧ st'.ins = st.ins := by
  induction l with
  | nil => intro st h; exact ⟨h, by simp, by simp, rfl, rfl, rfl, rfl⟩
  | cons p l ih =>
    intro st h
    obtain ⟨h1, h2, h3, h4, h5, h6, h7⟩ := ih (outEdge b c st p) (h.set p.2 true)
    refine ⟨h1, ?_, ?_, h4, h5, h6, h7⟩
    · intro v hv
      rw [List.foldl_cons, h2 v hv]
      unfold outEdge
      rw [h.get_set p.2 hv]
      simp only [List.mem_cons, exists_eq_or_imp]
      split
      · rename_i e; subst e; simp
      · rename_i e
        have e' : ¬ (p.2.vreg = v) := fun h => e h.symm
        simp [e']
    · intro t
      rw [List.foldl_cons, h3]
      unfold outEdge
      simp only [List.mem_cons, exists_eq_or_imp]
      constructor
      · rintro (h8 | h8 | h8)
        · exact .inl (.inr h8)
        · exact .inl (.inl h8)
        · exact .inr h8
      · rintro ((h8 | h8) | h8)
        · exact .inr (.inl h8)
        · exact .inl h8
        · exact .inr (.inr h8)

theorem outEdges_fold (f : Func) (b : Nat) (l : List (Nat × Nat)) : ∀ st : St, Liveness.Good st.live →
    let st' := l.foldl (fun st ci => ((f.params ci.1).zip (f.args b (f.lastInst b) ci.2)).foldl (outEdge b ci.1) st) st
    Liveness.Good st'.live ∧
      (∀ v, v < 2 ^ 30 → (st'.live.get v = true ↔
        (∃ ci ∈ l, ∃ p ∈ (f.params ci.1).zip (f.args b (f.lastInst b) ci.2), p.2.vreg = v) ∨ st.live.get v = true)) ∧
      (∀ t, t ∈ st'.outs ↔ (∃ ci ∈ l, ∃ p ∈ (f.params ci.1).zip (f.args b (f.lastInst b) ci.2),
        t = (b, ci.1, p.1.vreg, p.2.vreg)) ∨ t ∈ st.outs) ∧
      st'.ranges = st.ranges ∧ st'.pregs = st.pregs ∧ st'.fixups = st.fixups ∧ st'.ins = st.ins := by
  induction l with
  | nil => intro st h; exact ⟨h, by simp, by simp, rfl, rfl, rfl, rfl⟩
  | cons ci l ih =>
    intro st h
    obtain ⟨g1, g2, g3, g4, g5, g6, g7⟩ := outEdge_fold b ci.1 ((f.params ci.1).zip (f.args b (f.lastInst b) ci.2)) st h
    obtain ⟨h1, h2, h3, h4, h5, h6, h7⟩ := ih _ g1
    refine ⟨h1, ?_, ?_, h4.trans g4, h5.trans g5, h6.trans g6, h7.trans g7⟩
    · intro v hv
      rw [List.foldl_cons, h2 v hv, g2 v hv]
      simp only [List.mem_cons, exists_eq_or_imp]
      constructor
      · rintro (h8 | h8 | h8)
        · exact .inl (.inr h8)
        · exact .inl (.inl h8)
        · exact .inr h8
      · rintro ((h8 | h8) | h8)
        · exact .inr (.inl h8)
        · exact .inl h8
        · exact .inr (.inr h8)
    · intro t
      rw [List.foldl_cons, h3, g3]
      simp only [List.mem_cons, exists_eq_or_imp]
      constructor
      · rintro (h8 | h8 | h8)
        · exact .inl (.inr h8)
        · exact .inl (.inl h8)
        · exact .inr h8
      · rintro ((h8 | h8) | h8)
        · exact .inr (.inl h8)
        · exact .inl h8
        · exact .inr (.inr h8)

/-- The parameter and the argument passed for it on an edge that leaves block `b`. -/
def EdgeArg (f : Func) (b c : Nat) (p a : VReg) : Prop :=
  ∃ k j : Nat, (f.succs b)[k]? = some c ∧ (f.params c)[j]? = some p ∧ (f.args b (f.lastInst b) k)[j]? = some a

theorem outParams_spec {f : Func} (hr : Ready f) (b : Nat) (st : St) (h : Liveness.Good st.live) :
    Liveness.Good (outParams f b st).live ∧
      (∀ v, v < 2 ^ 30 → ((outParams f b st).live.get v = true ↔ st.live.get v = true ∨ PassedOn f b v)) ∧
      (∀ t, t ∈ (outParams f b st).outs ↔ (∃ c p a, EdgeArg f b c p a ∧ t = (b, c, p.vreg, a.vreg)) ∨ t ∈ st.outs) ∧
      (outParams f b st).ranges = st.ranges ∧ (outParams f b st).pregs = st.pregs ∧ (outParams f b st).fixups = st.fixups ∧
      (outParams f b st).ins = st.ins := by
  unfold outParams
  split
  · obtain ⟨h1, h2, h3, h4⟩ := outEdges_fold f b (f.succs b).zipIdx st h
    refine ⟨h1, ?_, ?_, h4⟩
    · intro v hv
      rw [h2 v hv]
      rw [or_comm]
      refine or_congr Iff.rfl ?_
      constructor
      · rintro ⟨⟨c, k⟩, h5, ⟨p, a⟩, h6, h7⟩
        rw [List.mem_zipIdx_iff_getElem?] at h5
        exact ⟨k, c, h5, List.mem_map.mpr ⟨a, (List.of_mem_zip h6).2, h7⟩⟩
      · rintro ⟨k, c, h5, h6⟩
        obtain ⟨a, h7, h8⟩ := List.mem_map.mp h6
        obtain ⟨j, hj⟩ := List.mem_iff_getElem?.mp h7
        have hl := hr.arity b k c h5
        have hjl := (List.getElem?_eq_some_iff.mp hj).1
        refine ⟨(c, k), List.mem_zipIdx_iff_getElem?.mpr h5, ((f.params c)[j]'(by omega), a), ?_, h8⟩
        apply List.mem_iff_getElem?.mpr
        refine ⟨j, ?_⟩
        rw [List.getElem?_zip_eq_some]
        exact ⟨List.getElem?_eq_getElem _, hj⟩
    · intro t
      rw [h3]
      refine or_congr ?_ Iff.rfl
      constructor
      · rintro ⟨⟨c, k⟩, h5, ⟨p, a⟩, h6, h7⟩
        rw [List.mem_zipIdx_iff_getElem?] at h5
        obtain ⟨j, hj⟩ := List.mem_iff_getElem?.mp h6
        rw [List.getElem?_zip_eq_some] at hj
        exact ⟨c, p, a, ⟨k, j, h5, hj.1, hj.2⟩, h7⟩
      · rintro ⟨c, p, a, ⟨k, j, h5, h6, h7⟩, h8⟩
        refine ⟨(c, k), List.mem_zipIdx_iff_getElem?.mpr h5, (p, a), ?_, h8⟩
        apply List.mem_iff_getElem?.mpr
        exact ⟨j, by rw [List.getElem?_zip_eq_some]; exact ⟨h6, h7⟩⟩
  · rename_i hnb
    have hs : f.succs b = [] := by
      apply Classical.byContradiction
      intro hs; exact hnb (hr.branches b hs)
    refine ⟨h, ?_, ?_, rfl, rfl, rfl, rfl⟩
    · intro v _
      constructor
      · exact .inl
      · rintro (h1 | ⟨k, c, h1, _⟩)
        · exact h1
        · rw [hs] at h1; simp at h1
    · intro t
      constructor
      · exact .inr
      · rintro (⟨c, p, a, ⟨k, j, h1, _⟩, _⟩ | h1)
        · rw [hs] at h1; simp at h1
        · exact h1

theorem liveOuts_safe {f : Func} (hr : Ready f) {b : Nat} (hb : b < f.numBlocks) {old : Nat → Nat → Prop} {prev : List Ev}
    {st : St} {np few : Prop} (ord : HashOrder) (multi : Bool) (hold : ∀ v p, old v p → ptBefore (f.insns b).2 ≤ p)
    (hg : Liveness.Good st.live) (hreg : ∀ v, v < 2 ^ 30 → Wf (st.ranges v) ∧ (∀ p, Covered (st.ranges v) p ↔ old v p) ∧
      (st.ranges v).flatMap (·.uses) = recs f v prev) :
    Safe np few (fun st' => GInv f (ptBefore (f.insns b).1) (ptBefore (f.insns b).2) old (fun v => st.live.get v = true) prev [] st' ∧
        SameRest st st')
      ((st.live.iter ord).foldlM (liveOut multi f b) st) := by
  obtain ⟨hnd, hmem⟩ := iter_spec ord hg.wf
  have hmem : ∀ v, v ∈ st.live.iter ord ↔ v < 2 ^ 30 ∧ st.live.get v = true := by
    intro v
    rw [hmem]
    constructor
    · rintro ⟨h1, h2⟩; exact ⟨hg.small v h1 h2, h2⟩
    · rintro ⟨h1, h2⟩; exact ⟨by omega, h2⟩
  have hne := hr.nonempty b hb
  generalize st.live.iter ord = all at hnd hmem
  refine (Safe.foldlM (fun l st' => (∀ v, v ∈ l → v ∈ all) ∧ l.Nodup ∧ st'.live = st.live ∧ SameRest st st' ∧
    ∀ v, v < 2 ^ 30 → (v ∈ l → st'.ranges v = st.ranges v) ∧
      (v ∉ l → VInv (ptBefore (f.insns b).1) (ptBefore (f.insns b).2) (old v) (st.live.get v = true) [] [] (st.live.get v)
        (st'.ranges v) (recs f v prev))) ?_ all st ?_).mono ?_
  · rintro v l s ⟨h1, h2, h3, h4, h5⟩
    obtain ⟨hv, hl⟩ := (hmem v).mp (h1 v (List.mem_cons_self ..))
    obtain ⟨w1, w2, w3⟩ := hreg v hv
    have hrs := (h5 v hv).1 (List.mem_cons_self ..)
    have hlast : ptAfter (f.lastInst b) + 1 = ptBefore (f.insns b).2 := by
      show 2 * ((f.insns b).2 - 1) + 1 + 1 = 2 * (f.insns b).2
      omega
    obtain ⟨r, rest, g1, g2, g3, g4, g5, _⟩ := addRange_ok multi w1 (lo := ptBefore (f.insns b).1) (hi := ptBefore (f.insns b).2)
      (by show 2 * _ < 2 * _; omega) (fun p hp => hold v p ((w2 p).mp hp))
    have hstep : liveOut multi f b s v = .ok (s.setRanges v (r :: rest)) := by
      unfold liveOut
      rw [hrs, hlast, g1]
      rfl
    rw [hstep]
    obtain ⟨h6, h7⟩ := List.nodup_cons.mp h2
    refine ⟨fun w hw => h1 w (List.mem_cons_of_mem _ hw), h7, h3, h4, ?_⟩
    intro w hw
    dsimp only [St.setRanges, Ion.upd]
    refine ⟨?_, ?_⟩
    · intro hwl
      have : w ≠ v := fun e => h6 (e ▸ hwl)
      rw [if_neg this]
      exact (h5 w hw).1 (List.mem_cons_of_mem _ hwl)
    · intro hwl
      by_cases e : w = v
      · subst e
        rw [if_pos rfl]
        refine ⟨g3, ?_, ?_, ?_, ?_⟩
        · intro p
          rw [g4, w2]
          constructor
          · rintro (h8 | h8)
            · exact .inr ⟨h8.1, h8.2, .inl ⟨hl, by simp⟩⟩
            · exact .inl h8
          · rintro (h8 | ⟨h8, h9, _⟩)
            · exact .inr h8
            · exact .inl ⟨h8, h9⟩
        · simp [hl, LiveB]
        · intro _; exact ⟨r, rest, rfl, g2⟩
        · rw [g5, w3]
      · rw [if_neg e]
        exact (h5 w hw).2 (by simp [e, hwl])
  · refine ⟨fun _ h => h, hnd, rfl, ⟨rfl, rfl, rfl, rfl⟩, ?_⟩
    intro v hv
    refine ⟨fun _ => rfl, ?_⟩
    intro hva
    have hl : st.live.get v = false := by
      cases hc : st.live.get v with
      | false => rfl
      | true => exact absurd ((hmem v).mpr ⟨hv, hc⟩) hva
    obtain ⟨w1, w2, w3⟩ := hreg v hv
    refine ⟨w1, ?_, ?_, ?_, w3⟩
    · intro p; rw [w2]; simp [LiveE, hl]
    · simp [hl, LiveB]
    · intro h; rw [hl] at h; cases h
  · rintro st' ⟨_, _, h3, h4, h5⟩
    refine ⟨⟨by rw [h3]; exact hg, ?_⟩, h4⟩
    intro v hv
    have := (h5 v hv).2 (by simp)
    rw [h3]
    exact this

/-! ## Block parameters -/

/-- State after the instructions, some parameters having been processed. -/
theorem params_safe {f : Func} (hr : Ready f) {b : Nat} (hb : b < f.numBlocks) {old : Nat → Nat → Prop} {out : Nat → Prop}
    {prev done : List Ev} {st : St} {np few : Prop} (multi : Bool) (hold : ∀ v p, old v p → ptBefore (f.insns b).2 ≤ p)
    (h : GInv f (ptBefore (f.insns b).1) (ptBefore (f.insns b).2) old out prev done st)
    (hnodef : ∀ v ∈ f.params b, defsOf f v.vreg done = [])
    (huses : ∀ v, ∀ u ∈ usesOf f v done, ptBefore (f.insns b).1 ≤ u) :
    Safe np few (fun st' => st'.pregs = st.pregs ∧ st'.fixups = st.fixups ∧ st'.outs = st.outs ∧
        (∀ t, t ∈ st'.ins ↔ (∃ p ∈ f.params b, ∃ q ∈ f.preds b, t = (p.vreg, b, q)) ∨ t ∈ st.ins) ∧
        ∀ v, v < 2 ^ 30 → Wf (st'.ranges v) ∧ (st'.ranges v).flatMap (·.uses) = recs f v (done ++ prev) ∧
          ∀ p, Covered (st'.ranges v) p ↔ old v p ∨ (ptBefore (f.insns b).1 ≤ p ∧ p < ptBefore (f.insns b).2 ∧
            LiveE (usesOf f v done) (defsOf f v done) (out v) p) ∨
            (v ∈ (f.params b).map VReg.vreg ∧ p = ptBefore (f.insns b).1))
      ((f.params b).foldlM (procParam multi f b) st) := by
  have hne := hr.nonempty b hb
  have hnd := hr.params b
  refine (Safe.foldlM (fun l st' => ∃ pre, pre ++ l = f.params b ∧ Liveness.Good st'.live ∧
        st'.pregs = st.pregs ∧ st'.fixups = st.fixups ∧ st'.outs = st.outs ∧
        (∀ t, t ∈ st'.ins ↔ (∃ p ∈ pre, ∃ q ∈ f.preds b, t = (p.vreg, b, q)) ∨ t ∈ st.ins) ∧
        ∀ v, v < 2 ^ 30 →
          (v ∉ pre.map VReg.vreg → st'.live.get v = st.live.get v ∧ st'.ranges v = st.ranges v) ∧
          (v ∈ pre.map VReg.vreg → Wf (st'.ranges v) ∧ (st'.ranges v).flatMap (·.uses) = recs f v (done ++ prev) ∧
          ∀ p, Covered (st'.ranges v) p ↔ old v p ∨ (ptBefore (f.insns b).1 ≤ p ∧ p < ptBefore (f.insns b).2 ∧
            LiveE (usesOf f v done) (defsOf f v done) (out v) p) ∨ p = ptBefore (f.insns b).1)) ?_ (f.params b) st ?_).mono ?_
  · rintro a l s ⟨pre, h1, h2, h3, h4, h5, h6, h7⟩
    have ha : a ∈ f.params b := by rw [← h1]; simp
    have hav := Liveness.vreg_lt a
    have hnew : a.vreg ∉ pre.map VReg.vreg := by
      rw [← h1, List.map_append] at hnd
      intro hm
      exact (List.nodup_append.mp hnd).2.2 _ hm a.vreg (by simp) rfl
    obtain ⟨hl, hrs⟩ := (h7 a.vreg hav).1 hnew
    have hv := h.reg a.vreg hav
    have hds := hnodef a ha
    -- the effect on the register
    have hpar : ∃ live' rs', paramRange multi f b s a = .ok { s.setRanges a.vreg rs' with live := live' } ∧
        Liveness.Good live' ∧ (∀ v, v < 2 ^ 30 → v ≠ a.vreg → live'.get v = s.live.get v) ∧
        Wf rs' ∧ rs'.flatMap (·.uses) = recs f a.vreg (done ++ prev) ∧
        ∀ p, Covered rs' p ↔ old a.vreg p ∨ (ptBefore (f.insns b).1 ≤ p ∧ p < ptBefore (f.insns b).2 ∧
            LiveE (usesOf f a.vreg done) (defsOf f a.vreg done) (out a.vreg) p) ∨ p = ptBefore (f.insns b).1 := by
      unfold paramRange
      cases hc : s.live.get a.vreg with
      | true =>
        refine ⟨s.live.set a.vreg false, s.ranges a.vreg, ?_, h2.set _ _, ?_, ?_, ?_, ?_⟩
        · simp only [if_true]
          congr 1
          have : Ion.upd s.ranges a.vreg (s.ranges a.vreg) = s.ranges := by
            funext w; unfold Ion.upd; split
            · rename_i e; rw [e]
            · rfl
          unfold St.setRanges
          rw [this]
        · intro v hv' hne'; rw [h2.get_set _ hv', if_neg hne']
        · rw [hrs]; exact hv.wf
        · rw [hrs]; exact hv.uses
        · intro p
          rw [hrs, hv.cov]
          constructor
          · rintro (h8 | h8)
            · exact .inl h8
            · exact .inr (.inl h8)
          · rintro (h8 | h8 | h8)
            · exact .inl h8
            · exact .inr h8
            · subst h8
              refine .inr ⟨Nat.le_refl _, by show 2 * _ < 2 * _; omega, ?_⟩
              rw [hl] at hc
              rcases hv.isLive.mp hc with ⟨ho, _⟩ | ⟨u, hu, _⟩
              · exact .inl ⟨ho, by rw [hds]; simp⟩
              · exact .inr (.inl ⟨u, hu, huses _ u hu, by rw [hds]; simp⟩)
      | false =>
        rw [hl] at hc
        have hnl : ¬ LiveB (usesOf f a.vreg done) (defsOf f a.vreg done) (out a.vreg) := by
          rw [← hv.isLive, hc]; simp
        have hdead : ∀ p, ¬ LiveE (usesOf f a.vreg done) (defsOf f a.vreg done) (out a.vreg) p := by
          intro p hp
          apply hnl
          rw [hds] at hp ⊢
          rcases hp with hp | ⟨u, hu, _⟩ | ⟨d, hd, _⟩
          · exact .inl ⟨hp.1, rfl⟩
          · exact .inr ⟨u, hu, by simp⟩
          · simp at hd
        obtain ⟨r, rest, g1, g2, g3, g4, g5, _⟩ := addRange_ok multi hv.wf (lo := ptBefore (f.insns b).1)
          (hi := ptBefore (f.insns b).1 + 1) (Nat.lt_succ_self _) (by
            intro p hp
            rcases (hv.cov p).mp hp with h8 | ⟨_, _, h8⟩
            · have : 2 * (f.insns b).2 ≤ p := hold _ p h8
              show 2 * (f.insns b).1 + 1 ≤ p
              omega
            · exact absurd h8 (hdead p))
        refine ⟨s.live, r :: rest, ?_, h2, fun _ _ _ => rfl, g3, g5.trans hv.uses, ?_⟩
        · rw [hrs, g1]
          rfl
        · intro p
          rw [g4, hv.cov]
          constructor
          · rintro (h8 | h8 | h8)
            · exact .inr (.inr (by omega))
            · exact .inl h8
            · exact .inr (.inl h8)
          · rintro (h8 | h8 | h8)
            · exact .inr (.inl h8)
            · exact .inr (.inr h8)
            · exact .inl ⟨by omega, by omega⟩
    obtain ⟨live', rs', e1, e2, e3, e4, e5, e6⟩ := hpar
    unfold procParam
    rw [e1]
    refine ⟨pre ++ [a], by rw [List.append_assoc]; exact h1, e2, h3, h4, h5, ?_, ?_⟩
    · intro t
      dsimp only [St.setRanges]
      rw [List.mem_append, h6]
      simp only [List.mem_map, List.mem_reverse, List.mem_append, List.mem_singleton]
      constructor
      · rintro (⟨q, h8, rfl⟩ | ⟨p, h8, h9⟩ | h8)
        · exact .inl ⟨a, .inr rfl, q, h8, rfl⟩
        · exact .inl ⟨p, .inl h8, h9⟩
        · exact .inr h8
      · rintro (⟨p, h8 | rfl, q, h9, h10⟩ | h8)
        · exact .inr (.inl ⟨p, h8, q, h9, h10⟩)
        · exact .inl ⟨q, h9, h10.symm⟩
        · exact .inr (.inr h8)
    · intro v hv'
      dsimp only [St.setRanges, Ion.upd]
      by_cases e : v = a.vreg
      · subst e
        refine ⟨fun h8 => absurd (by simp) h8, fun _ => ?_⟩
        rw [if_pos rfl]
        exact ⟨e4, e5, e6⟩
      · rw [if_neg e, e3 v hv' e]
        refine ⟨fun h8 => (h7 v hv').1 (fun h9 => h8 (by rw [List.map_append]; exact List.mem_append_left _ h9)), fun h8 => ?_⟩
        refine (h7 v hv').2 ?_
        rw [List.map_append, List.mem_append] at h8
        rcases h8 with h8 | h8
        · exact h8
        · simp at h8; exact absurd h8 e
  · exact ⟨[], rfl, h.good, rfl, rfl, rfl, by simp, fun v _ => ⟨fun _ => ⟨rfl, rfl⟩, by simp⟩⟩
  · rintro st' ⟨pre, h1, _, h3, h4, h5, h6, h7⟩
    rw [List.append_nil] at h1
    subst h1
    refine ⟨h3, h4, h5, h6, ?_⟩
    intro v hv
    by_cases hm : v ∈ (f.params b).map VReg.vreg
    · obtain ⟨g1, g2, g3⟩ := (h7 v hv).2 hm
      refine ⟨g1, g2, ?_⟩
      intro p
      rw [g3]
      simp only [hm, true_and]
    · obtain ⟨_, g2⟩ := (h7 v hv).1 hm
      have hv' := h.reg v hv
      rw [g2]
      refine ⟨hv'.wf, hv'.uses, ?_⟩
      intro p
      rw [hv'.cov]
      simp only [hm, false_and, or_false]

/-! ## The whole function -/

/-- Instruction `i` belongs to one of the blocks from `n` on. -/
def InstFrom (f : Func) (n i : Nat) : Prop := ∃ c, n ≤ c ∧ c < f.numBlocks ∧ (f.insns c).1 ≤ i ∧ i < (f.insns c).2

/-- Live at the end of block `c`. -/
def OutOf (f : Func) (liveouts : Nat → IndexSet) (c v : Nat) : Prop := (liveouts c).get v = true ∨ PassedOn f c v

/-- Live at a point of one of the blocks from `n` on. -/
def LiveFrom (f : Func) (liveouts : Nat → IndexSet) (n v p : Nat) : Prop :=
  ∃ c, n ≤ c ∧ c < f.numBlocks ∧ InBlock f c p ∧ LiveAt f (OutOf f liveouts c v) c v p

/-- The value of `v` is needed after instruction `i`. -/
def NeededIn (f : Func) (liveouts : Nat → IndexSet) (i v : Nat) : Prop :=
  ∃ c, c < f.numBlocks ∧ i ∈ f.blockInsts c ∧ NeededAfter f (OutOf f liveouts c v) c v i

/-- State after the blocks from `n` on. -/
structure OInv (f : Func) (liveouts : Nat → IndexSet) (n : Nat) (all : List Ev) (st : St) : Prop where
  p : PInv f (InstFrom f n) st
  e : EInv f all (InstFrom f n) st.fixups
  x : FInv f (InstFrom f n) (NeededIn f liveouts) st.fixups
  reg : ∀ v, v < 2 ^ 30 → Wf (st.ranges v) ∧ (∀ p, Covered (st.ranges v) p ↔ LiveFrom f liveouts n v p) ∧
      (st.ranges v).flatMap (·.uses) = recs f v all
  outs : ∀ t, t ∈ st.outs ↔ ∃ b c p a, n ≤ b ∧ b < f.numBlocks ∧ EdgeArg f b c p a ∧ t = (b, c, p.vreg, a.vreg)
  ins : ∀ t, t ∈ st.ins ↔ ∃ b, n ≤ b ∧ b < f.numBlocks ∧ ∃ p ∈ f.params b, ∃ q ∈ f.preds b, t = (p.vreg, b, q)

theorem procBlock_safe {f : Func} (hr : Ready f) {np few : Prop} (hnp : np → NoClash f)
    (hfew : few → ∀ i, (f.operands i).length ≤ 2 ^ 16) (ord : HashOrder) (multi : Bool)
    (liveouts : Nat → IndexSet) (hg : ∀ b, Liveness.Good (liveouts b)) {b : Nat} (hb : b < f.numBlocks) {all : List Ev} {st : St}
    (h : OInv f liveouts (b + 1) all st) :
    Safe np few (fun st' => ∃ all', OInv f liveouts b all' st') (procBlock ord multi f liveouts st b) := by
  have hne := hr.nonempty b hb
  have hfar : ∀ i, InstFrom f (b + 1) i → (f.insns b).2 ≤ i := by
    rintro i ⟨c, h1, h2, h3, _⟩
    have := hr.ordered b c (by omega) h2
    omega
  have hold : ∀ v p, LiveFrom f liveouts (b + 1) v p → ptBefore (f.insns b).2 ≤ p := by
    rintro v p ⟨c, h1, h2, h3, _⟩
    have := hr.ordered b c (by omega) h2
    have : 2 * (f.insns c).1 ≤ p := h3.1
    show 2 * (f.insns b).2 ≤ p
    omega
  obtain ⟨o1, o2, o3, o4, o5, o6, o7⟩ := outParams_spec hr b { st with live := liveouts b } (hg b)
  unfold procBlock
  refine (liveOuts_safe hr hb (old := LiveFrom f liveouts (b + 1)) (prev := all) ord multi hold o1 ?_).bind ?_
  · intro v hv
    rw [o4]
    exact h.reg v hv
  rintro st1 ⟨g1, s1⟩
  have hout : ∀ v, v < 2 ^ 30 → ((outParams f b { st with live := liveouts b }).live.get v = true ↔ OutOf f liveouts b v) :=
    fun v hv => o2 v hv
  have hS : SInv f b (LiveFrom f liveouts (b + 1)) (fun v => (outParams f b { st with live := liveouts b }).live.get v = true)
      all [] (fun j => InstFrom f (b + 1) j ∨ ((f.insns b).1 + ((f.insns b).2 - (f.insns b).1) ≤ j ∧ j < (f.insns b).2))
      (NeededIn f liveouts) st1 := by
    have hDeq : (fun j => InstFrom f (b + 1) j ∨ ((f.insns b).1 + ((f.insns b).2 - (f.insns b).1) ≤ j ∧ j < (f.insns b).2)) =
        InstFrom f (b + 1) := by
      funext j
      apply propext
      constructor
      · rintro (h1 | h1)
        · exact h1
        · omega
      · exact .inl
    rw [hDeq]
    refine ⟨g1, ⟨?_, ?_⟩, ?_, ?_⟩
    · rw [s1.1, o5, s1.2.1, o6]; exact h.p.pregs
    · rw [s1.2.1, o6]; exact h.p.fixups
    · rw [s1.2.1, o6]; exact h.e
    · rw [s1.2.1, o6]; exact h.x
  have hprev : ∀ ev ∈ all, (f.insns b).2 ≤ ev.1 := fun ev hev => hfar _ (h.e.mem hev)
  have hN : ∀ v i, v < 2 ^ 30 → (f.insns b).1 ≤ i → i < (f.insns b).2 →
      (NeededAfter f ((outParams f b { st with live := liveouts b }).live.get v = true) b v i ↔ NeededIn f liveouts i v) := by
    intro v i hv h1 h2
    unfold NeededIn
    have h3 : NeededAfter f ((outParams f b { st with live := liveouts b }).live.get v = true) b v i ↔
        NeededAfter f (OutOf f liveouts b v) b v i := by
      unfold NeededAfter; rw [hout v hv]
    rw [h3]
    constructor
    · intro h4; exact ⟨b, hb, mem_blockInsts.mpr ⟨h1, h2⟩, h4⟩
    · rintro ⟨c, h4, h5, h6⟩
      have h5 := mem_blockInsts.mp h5
      have : c = b := by
        rcases Nat.lt_trichotomy c b with h7 | h7 | h7
        · have := hr.ordered c b h7 hb; omega
        · exact h7
        · have := hr.ordered b c h7 h4; omega
      subst this
      exact h6
  refine (insts_safe hr hnp hfew multi hold (InstFrom f (b + 1)) hfar hN hprev ((f.insns b).2 - (f.insns b).1) (by omega) [] st1 hS (by simp)).bind ?_
  rintro st2 ⟨done, hd, hS2, i1, i2⟩
  have hD : (fun j => InstFrom f (b + 1) j ∨ ((f.insns b).1 ≤ j ∧ j < (f.insns b).2)) = InstFrom f b := by
    funext j
    apply propext
    constructor
    · rintro (⟨c, h1, h2⟩ | h1)
      · exact ⟨c, by omega, h2⟩
      · exact ⟨b, Nat.le_refl _, hb, h1⟩
    · rintro ⟨c, h1, h2⟩
      by_cases e : c = b
      · subst e; exact .inr h2.2
      · exact .inl ⟨c, by omega, h2⟩
  rw [hD] at hS2
  have hev : ∀ v p, (p ∈ usesOf f v done ↔ UsedAt f b v p) ∧ (p ∈ defsOf f v done ↔ DefinedAt f b v p) := by
    intro v p
    obtain ⟨h1, h2⟩ := usesOf_iff hS2.e (b := b) (Nat.le_refl _) (fun i hi => ⟨b, Nat.le_refl _, hb, hi⟩) hd hprev v p
    refine ⟨h1.trans ⟨And.left, fun h3 => ⟨h3, ?_⟩⟩, h2.trans ⟨And.left, fun h3 => ⟨h3, ?_⟩⟩⟩
    · obtain ⟨i, h4, o, _, _, _, _, rfl⟩ := h3
      have h4 := mem_blockInsts.mp h4
      unfold usePoint
      split
      · show _ ≤ (2 * i + 1) / 2; omega
      · show _ ≤ 2 * i / 2; omega
    · obtain ⟨i, h4, o, _, _, _, _, rfl⟩ := h3
      have h4 := mem_blockInsts.mp h4
      unfold defPoint
      split
      · show _ ≤ (2 * i + 1) / 2; omega
      · show _ ≤ 2 * i / 2; omega
  refine (params_safe hr hb multi hold hS2.g ?_ ?_).mono ?_
  · intro v hv
    cases hc : defsOf f v.vreg done with
    | nil => rfl
    | cons d ds =>
      exfalso
      exact hr.params_def b v hv d ((hev v.vreg d).2.mp (by rw [hc]; exact List.mem_cons_self ..))
  · intro v u hu
    obtain ⟨ev, h1, _, _, h2⟩ := mem_usesOf.mp hu
    have h3 := evPt_div f ev
    have h4 := hd ev h1
    show 2 * _ ≤ _
    omega
  · rintro st3 ⟨p1, p2, p3, p4, p5⟩
    refine ⟨done ++ all, ⟨?_, ?_⟩, ?_, ?_, ?_, ?_, ?_⟩
    · rw [p1, p2]; exact hS2.p.pregs
    · rw [p2]; exact hS2.p.fixups
    · rw [p2]; exact hS2.e
    · rw [p2]; exact hS2.x
    · intro v hv
      obtain ⟨q1, q2, q3⟩ := p5 v hv
      refine ⟨q1, ?_, q2⟩
      intro p
      rw [q3]
      have hL : (ptBefore (f.insns b).1 ≤ p ∧ p < ptBefore (f.insns b).2 ∧
            LiveE (usesOf f v done) (defsOf f v done) ((outParams f b { st with live := liveouts b }).live.get v = true) p) ∨
            (v ∈ (f.params b).map VReg.vreg ∧ p = ptBefore (f.insns b).1) ↔
          InBlock f b p ∧ LiveAt f (OutOf f liveouts b v) b v p := by
        have hu := fun q => (hev v q).1
        have hdf := fun q => (hev v q).2
        unfold LiveE LiveAt InBlock
        simp only [hu, hdf, hout v hv]
        constructor
        · rintro (⟨h1, h2, h3 | ⟨u, h3, h4, h5⟩ | ⟨d, h3, h4⟩⟩ | ⟨h1, rfl⟩)
          · exact ⟨⟨h1, h2⟩, .inl h3⟩
          · exact ⟨⟨h1, h2⟩, .inr (.inl ⟨u, h4, h3, h5⟩)⟩
          · exact ⟨⟨h1, h2⟩, .inr (.inr (.inl ⟨d, h4.1, h3, h4.2⟩))⟩
          · refine ⟨⟨Nat.le_refl _, ?_⟩, .inr (.inr (.inr ⟨h1, rfl⟩))⟩
            show 2 * _ < 2 * _
            omega
        · rintro ⟨⟨h1, h2⟩, h3 | ⟨u, h3, h4, h5⟩ | ⟨d, h3, h4, h5⟩ | h3⟩
          · exact .inl ⟨h1, h2, .inl h3⟩
          · exact .inl ⟨h1, h2, .inr (.inl ⟨u, h4, h3, h5⟩)⟩
          · exact .inl ⟨h1, h2, .inr (.inr ⟨d, h4, h3, h5⟩)⟩
          · exact .inr h3
      rw [hL]
      unfold LiveFrom
      constructor
      · rintro (⟨c, h1, h2⟩ | h1)
        · exact ⟨c, by omega, h2⟩
        · exact ⟨b, Nat.le_refl _, hb, h1⟩
      · rintro ⟨c, h1, h2⟩
        by_cases e : c = b
        · subst e; exact .inr h2.2
        · exact .inl ⟨c, by omega, h2⟩
    · intro t
      rw [p3, i2, s1.2.2.2, o3]
      dsimp only
      rw [h.outs]
      constructor
      · rintro (⟨c, p, a, h1, h2⟩ | ⟨b', c, p, a, h1, h2⟩)
        · exact ⟨b, c, p, a, Nat.le_refl _, hb, h1, h2⟩
        · exact ⟨b', c, p, a, by omega, h2⟩
      · rintro ⟨b', c, p, a, h1, h2, h3⟩
        by_cases e : b' = b
        · subst e; exact .inl ⟨c, p, a, h3⟩
        · exact .inr ⟨b', c, p, a, by omega, h2, h3⟩
    · intro t
      rw [p4, i1, s1.2.2.1, o7]
      dsimp only
      rw [h.ins]
      constructor
      · rintro (h1 | ⟨b', h1, h2⟩)
        · exact ⟨b, Nat.le_refl _, hb, h1⟩
        · exact ⟨b', by omega, h2⟩
      · rintro ⟨b', h1, h2⟩
        by_cases e : b' = b
        · subst e; exact .inl h2.2
        · exact .inr ⟨b', by omega, h2⟩

theorem build_safe {f : Func} (hr : Ready f) {np few : Prop} (hnp : np → NoClash f)
    (hfew : few → ∀ i, (f.operands i).length ≤ 2 ^ 16) (ord : HashOrder) (multi : Bool)
    (liveouts : Nat → IndexSet) (hg : ∀ b, Liveness.Good (liveouts b)) :
    Safe np few (fun st' => ∃ all', OInv f liveouts 0 all' st') (build ord multi f liveouts) := by
  have key : ∀ n, n ≤ f.numBlocks → ∀ all st, OInv f liveouts n all st →
      Safe np few (fun st' => ∃ all', OInv f liveouts 0 all' st')
        ((List.range n).reverse.foldlM (procBlock ord multi f liveouts) st) := by
    intro n
    induction n with
    | zero => intro _ all st h; exact ⟨all, h⟩
    | succ n ih =>
      intro hn all st h
      rw [List.range_succ, List.reverse_append, List.reverse_singleton, List.singleton_append, List.foldlM_cons]
      refine (procBlock_safe hr hnp hfew ord multi liveouts hg (by omega) h).bind ?_
      rintro st1 ⟨all1, h1⟩
      exact ih (by omega) all1 st1 h1
  refine key f.numBlocks (Nat.le_refl _) [] start ⟨⟨?_, by simp [start]⟩, ⟨by simp, ?_, by simp, by simp⟩, ?_, ?_, ?_, ?_⟩
  · intro e
    simp only [start, List.not_mem_nil, false_and, exists_false, or_false, false_iff]
    rintro ⟨i, ⟨c, h1, h2, _⟩, _⟩
    omega
  · intro i k
    simp only [List.not_mem_nil, false_and, exists_false, false_iff]
    rintro ⟨⟨c, h1, h2, _⟩, _⟩
    omega
  · intro fx
    simp only [start, List.not_mem_nil, false_iff]
    rintro ⟨i, k, o, p, ⟨c, h1, h2, _⟩, _⟩
    omega
  · intro v _
    refine ⟨⟨by simp [start], by simp [start], by simp [start], by simp [start]⟩, ?_, rfl⟩
    intro p
    constructor
    · rintro ⟨r, hr, _⟩; simp [start] at hr
    · rintro ⟨c, h1, h2, _⟩; omega
  · intro t
    simp only [start, List.not_mem_nil, false_iff]
    rintro ⟨b, c, p, a, h1, h2, _⟩
    omega
  · intro t
    simp only [start, List.not_mem_nil, false_iff]
    rintro ⟨b, h1, h2, _⟩
    omega

end Regalloc.Build
