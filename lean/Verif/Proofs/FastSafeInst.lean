import Verif.Proofs.FastSafeOps
import Verif.Proofs.FastBlock

/-
The single-pass allocator does not panic: instructions.
-/
namespace Regalloc
namespace Fast

section
variable {cx : Cx} {C : Nat → VReg} {q : Par} {s s' : FS}

theorem NP.reset (F : Fix cx C) (h : NP cx C q s) : NP cx C q (reset cx s) :=
  { h with
    scratch := fun _ _ hr => ⟨F.env.scratch_stack hr, fun hx => F.env.scratch_init hr hx.1⟩
    avail := fun _ hp => hp }

/-- The reused inputs recorded so far. -/
def ReOk (cx : Cx) (i : Nat) (RE : Nat → Option Nat) : Prop :=
  ∀ j k, RE j = some k → ∃ o, (cx.f.operands i)[k]? = some o ∧ o.constraint = .Reuse j

theorem countOps_safe {i : Nat} (hO : WorkableOps cx C i) : ∀ (l : List (Nat × Op)), (∀ x ∈ l, (cx.f.operands i)[x.1]? = some x.2) →
    ∀ {s : FS} {q : Par}, NP cx C q s → ReOk cx i q.RE →
    Safe (l.foldlM (countOp cx i) s) (fun s' => ∃ RE, NP cx C { q with RE := RE } s' ∧ ReOk cx i RE)
  | [], _, s, q, h, hr => Safe.ok ⟨q.RE, h, hr⟩
  | (idx, o) :: l, hl, s, q, h, hr => by
    rw [List.foldlM_cons]
    dsimp only [bind, Except.bind]
    have ih := fun {s : FS} {q : Par} => countOps_safe hO l (fun x hx => hl x (by simp [hx])) (s := s) (q := q)
    have ho : (cx.f.operands i)[idx]? = some o := hl (idx, o) (by simp)
    have hc : Safe (countOp cx i s (idx, o)) (fun s' => ∃ RE, NP cx C { q with RE := RE } s' ∧ ReOk cx i RE) := by
      unfold countOp
      dsimp only
      split
      · rename_i j hj
        obtain ⟨_, oj, e1, _, _, _⟩ := hO.reuse o (List.mem_of_getElem? ho) j hj
        rw [e1]
        have h1 : NP cx C { q with RE := set1 q.RE j (some idx) } { s with reused := set1 s.reused j (some idx) } :=
          { h with re := (by show set1 s.reused j (some idx) = _; rw [h.re]) }
        have h2 : ReOk cx i (set1 q.RE j (some idx)) := by
          intro j' k hk
          by_cases e : j' = j
          · subst e; rw [set1_same] at hk; cases hk; exact ⟨o, ho, hj⟩
          · rw [set1_ne _ _ e] at hk; exact hr j' k hk
        dsimp only
        split
        · exact Safe.ok ⟨_, h1.counters _ _, h2⟩
        · exact Safe.ok ⟨_, h1, h2⟩
      · exact Safe.ok ⟨q.RE, h.counters _ _, hr⟩
      · exact Safe.ok ⟨q.RE, h, hr⟩
    split
    · exact hc.err ‹_›
    · rename_i t ht
      obtain ⟨RE, k1, k2⟩ := hc.2 _ ht
      exact (ih k1 k2).mono (fun u ⟨R, h1, h2⟩ => ⟨R, h1, h2⟩)

theorem reserve_safe (h : NP cx C q s) (o : Op) (idx : Nat) (p : PReg) : Safe (reserve s o idx p) (fun s' => NP cx C q s') := by
  have r1 : ∀ (a : PRegSet) r, (a.remove p).contains r = true → a.contains r = true := fun a r hr => ((cont_remove _ _ _).mp hr).2
  have k1 : NP cx C q { s with availE := s.availE.remove p, availL := s.availL.remove p } :=
    h.same rfl rfl (fun r hr => r1 _ r hr) (fun r hr => r1 _ r hr) rfl rfl rfl rfl rfl rfl rfl
  have k2 : NP cx C q { s with availE := s.availE.remove p } :=
    h.same rfl rfl (fun r hr => r1 _ r hr) (fun r hr => hr) rfl rfl rfl rfl rfl rfl rfl
  have k3 : NP cx C q { s with availL := s.availL.remove p } :=
    h.same rfl rfl (fun r hr => hr) (fun r hr => r1 _ r hr) rfl rfl rfl rfl rfl rfl rfl
  unfold reserve
  dsimp only
  split
  · split
    · exact Safe.many
    · split
      · split
        · exact Safe.many
        · exact Safe.ok k1
      · exact Safe.ok k2
  · split
    · exact Safe.many
    · exact Safe.ok k3
  · split
    · exact Safe.many
    · exact Safe.ok k1

theorem reserveFixed_safe (F : Fix cx C) (i : Nat) (x : Nat × Op × PReg) (st : FS × PRegSet × Nat) (h : NP cx C q st.1) :
    Safe (reserveFixed cx i st x) (fun r => NP cx C q r.1) := by
  obtain ⟨s, seen, nc⟩ := st
  obtain ⟨idx, o, p⟩ := x
  unfold reserveFixed
  dsimp only at h ⊢
  have hr := reserve_safe h o idx p
  split
  · exact hr.err ‹_›
  · rename_i s1 h1
    have k1 := hr.2 _ h1
    split
    · exact Safe.ok k1
    · split
      · rename_i hc
        have hp := poke_safe k1 (F.env.allocatable_cls hc)
        split
        · exact hp.err ‹_›
        · rename_i s2 h2
          exact Safe.ok ((hp.2 _ h2).1.counters _ _)
      · exact Safe.ok k1

theorem instSetup_safe (F : Fix cx C) {i : Nat} (hO : WorkableOps cx C i) (h : NP cx C q s) (hr : q.RE = fun _ => none) :
    Safe (instSetup cx s i) (fun r => ∃ RE, NP cx C { q with RE := RE } r.1 ∧ ReOk cx i RE) := by
  unfold instSetup
  have hc := countOps_safe hO (cx.opsOf i) (fun x hx => mem_opsOf.mp hx) (h.reset F) (by rw [hr]; intro j k e; cases e)
  split
  · exact hc.err ‹_›
  · rename_i s1 h1
    obtain ⟨RE, k1, k2⟩ := hc.2 _ h1
    have hf := Safe.foldlM (P := fun r : FS × PRegSet × Nat => NP cx C { q with RE := RE } r.1) (g := reserveFixed cx i)
      (fixedOps cx i) (fun x _ a ha => reserveFixed_safe F i x a ha) (a := (s1, PRegSet.empty, 0)) k1
    split
    · exact hf.err ‹_›
    · rename_i s2 seen nc h2
      have k3 := hf.2 _ h2
      refine Safe.ok ⟨RE, ?_, k2⟩
      exact k3.same rfl rfl (fun _ h => h) (fun p hp => ((cont_inter _ _ _).mp hp).1) rfl rfl rfl rfl rfl rfl rfl

theorem NP.clear (h : NP cx C q s) (p : PReg) : NP cx C q { s with inPreg := set1 s.inPreg p none } := by
  refine { h with inC := ?_, inLive := ?_ }
  · intro r x hx
    dsimp only at hx
    by_cases e : r = p
    · subst e; rw [set1_same] at hx; cases hx
    · rw [set1_ne _ _ e] at hx; exact h.inC r x hx
  · intro r x hx
    dsimp only at hx
    by_cases e : r = p
    · subst e; rw [set1_same] at hx; cases hx
    · rw [set1_ne _ _ e] at hx; exact h.inLive r x hx

theorem instEvict_safe (F : Fix cx C) {i nc : Nat} (h : NP cx C q s) (hB : q.B ≤ SpillSlot.MAX) :
    Safe (instEvict cx s nc i) (fun s' => NP cx C q s') := by
  unfold instEvict
  have h1 := Safe.foldlM (P := fun t : FS => NP cx C q t) (g := evictFixed cx i) (fixedOps cx i) (fun x _ t ht => by
    obtain ⟨idx, o, p⟩ := x
    unfold evictFixed
    dsimp only
    split
    · exact Safe.ok ht
    · rename_i v hv
      split
      · exact Safe.ok ht
      · have he := evict_safe (i := i) (pos := .After) F ht hB (p := p) (by rw [hv]; rfl)
        split
        · exact he.err ‹_›
        · rename_i u hu
          exact Safe.ok ((he.2 _ hu).1.clear p)) (a := s) h
  split
  · exact h1.err ‹_›
  · rename_i t ht
    have h2 := Safe.foldlM (P := fun r : FS × Nat => NP cx C q r.1) (g := evictClobber cx i) (cx.clob i).toList (fun p _ st hst => by
      unfold evictClobber
      have he : Safe (evictClobber1 cx i st.1 p) (fun u => NP cx C q u) := by
        unfold evictClobber1
        split
        · exact Safe.ok hst
        · rename_i v hv
          have he := evict_safe (i := i) (pos := .After) F hst hB (p := p) (by rw [hv]; rfl)
          split
          · exact he.err ‹_›
          · rename_i u hu
            exact Safe.ok ((he.2 _ hu).1.clear p)
      split
      · exact he.err ‹_›
      · rename_i u hu
        have k := he.2 _ hu
        split
        · split
          · exact Safe.ok (k.counters _ _)
          · exact Safe.ok k
        · exact Safe.ok k) (a := (t, nc)) (h1.2 _ ht)
    split
    · exact h2.err ‹_›
    · rename_i u n hu
      exact Safe.ok (h2.2 _ hu)

/-- The registers finished when the operands `dl` were processed. -/
def Done (P : Nat → Prop) (dl : List (Nat × Op)) (w : Nat) : Prop := P w ∨ ∃ x ∈ dl, x.2.kind = .Def ∧ w = x.2.vreg.vreg

/-- Some operands, after `dl`. -/
theorem ops_safe (F : Fix cx C) {b i : Nat} (hO : WorkableOps cx C i) (hbr : cx.f.isBranch i = true → ∀ o ∈ cx.f.operands i, o.kind = .Use)
    (hre : ReOk cx i q.RE) (hB : q.B ≤ SpillSlot.MAX) {P0 : Nat → Prop}
    (hd : ∀ (k k' : Nat) (o o' : Op), (cx.f.operands i)[k]? = some o → (cx.f.operands i)[k']? = some o' → o.kind = .Def → o'.kind = .Def →
      o.vreg.vreg = o'.vreg.vreg → k = k')
    (hd0 : ∀ o ∈ cx.f.operands i, o.kind = .Def → ¬ P0 o.vreg.vreg)
    (hu0 : ∀ o ∈ cx.f.operands i, o.kind = .Use → o.asFixedNonallocatable = none → ¬ P0 o.vreg.vreg ∧
      ∀ o' ∈ cx.f.operands i, o'.kind = .Def → o'.vreg.vreg ≠ o.vreg.vreg) :
    ∀ (l dl : List (Nat × Op)), (∀ x ∈ l, (cx.f.operands i)[x.1]? = some x.2) → (∀ x ∈ dl, (cx.f.operands i)[x.1]? = some x.2) →
      (l.map Prod.fst).Nodup → (∀ x ∈ l, x.1 ∉ dl.map Prod.fst) →
      (∀ x ∈ l, ∀ k, x.2.kind = .Use → q.RE x.1 = some k → k ∈ dl.map Prod.fst) →
      ∀ {s : FS} {AL : Nat → Nat → Allocation}, NP cx C { q with P := Done P0 dl, AL := AL, LV := fun _ => False, NV := fun _ => False } s →
      (∀ k o j, k ∈ dl.map Prod.fst → (cx.f.operands i)[k]? = some o → o.constraint = .Reuse j → (AL i k).asReg.isSome = true) →
      Safe (l.foldlM (allocOp cx b i) s) (fun s' => ∃ AL', NP cx C { q with P := Done P0 (l.reverse ++ dl), AL := AL', LV := fun _ => False, NV := fun _ => False } s' ∧
        ∀ k o j, k ∈ (l.reverse ++ dl).map Prod.fst → (cx.f.operands i)[k]? = some o → o.constraint = .Reuse j → (AL' i k).asReg.isSome = true)
  | [], dl, _, _, _, _, _, s, AL, h, hal => Safe.ok ⟨AL, h, hal⟩
  | (idx, o) :: l, dl, hl, hdl, hnd, hnm, huse, s, AL, h, hal => by
    rw [List.foldlM_cons]
    dsimp only [bind, Except.bind]
    have ho : (cx.f.operands i)[idx]? = some o := hl (idx, o) (by simp)
    have hm := List.mem_of_getElem? ho
    rw [List.map_cons, List.nodup_cons] at hnd
    have step : Safe (allocOp cx b i s (idx, o)) (fun s' => ∃ AL', NP cx C { q with P := Done P0 ((idx, o) :: dl), AL := AL', LV := fun _ => False, NV := fun _ => False } s' ∧
        ∀ k o' j, k ∈ ((idx, o) :: dl).map Prod.fst → (cx.f.operands i)[k]? = some o' → o'.constraint = .Reuse j → (AL' i k).asReg.isSome = true) := by
      unfold allocOp
      dsimp only
      split
      · rename_i hk
        have hbf : cx.f.isBranch i = false := by
          cases hb : cx.f.isBranch i with
          | false => rfl
          | true => have := hbr hb o hm; rw [hk] at this; cases this
        refine (allocDef_safe (b := b) (idx := idx) F h hB hbf hO hm hk ?_).mono ?_
        · rintro (hp | ⟨x, hx, hxk, e⟩)
          · exact hd0 o hm hk hp
          · have := hd idx x.1 o x.2 ho (hdl x hx) hk hxk e
            exact hnm (idx, o) (by simp) (by show idx ∈ _; rw [this]; exact List.mem_map_of_mem hx)
        · rintro t ⟨a, h1, h2⟩
          refine ⟨_, h1.grow _ ?_ (fun _ h => h), ?_⟩
          · rintro w ((hp | ⟨x, hx, hxk, e⟩) | rfl)
            · exact .inl hp
            · exact .inr ⟨x, by simp [hx], hxk, e⟩
            · exact .inr ⟨(idx, o), by simp, hk, rfl⟩
          · intro k o' j hkm hk' hj
            dsimp only
            by_cases e : k = idx
            · subst e
              rw [ho] at hk'; cases hk'
              rw [setAL_same]; exact h2 ⟨j, hj⟩
            · rw [setAL_ne _ _ _ _ e]
              exact hal k o' j ((List.mem_cons.mp hkm).resolve_left e) hk' hj
      · rename_i hk
        refine (allocUse_safe (idx := idx) F h hB hO hm hk ?_ ?_).mono ?_
        · intro hna
          obtain ⟨g1, g2⟩ := hu0 o hm hk hna
          rintro (hp | ⟨x, hx, hxk, e⟩)
          · exact g1 hp
          · exact g2 x.2 (List.mem_of_getElem? (hdl x hx)) hxk e.symm
        · intro k hk'
          have hkd := huse (idx, o) (by simp) k hk hk'
          obtain ⟨ok, e1, e2⟩ := hre idx k hk'
          exact hal k ok idx hkd e1 e2
        · rintro t ⟨a, h1⟩
          refine ⟨_, h1.grow _ ?_ (fun _ h => h), ?_⟩
          · rintro w (hp | ⟨x, hx, hxk, e⟩)
            · exact .inl hp
            · exact .inr ⟨x, by simp [hx], hxk, e⟩
          · intro k o' j hkm hk' hj
            dsimp only
            by_cases e : k = idx
            · subst e
              rw [ho] at hk'; cases hk'
              exact absurd hj (hO.uses o hm hk j)
            · rw [setAL_ne _ _ _ _ e]
              exact hal k o' j ((List.mem_cons.mp hkm).resolve_left e) hk' hj
    split
    · exact step.err ‹_›
    · rename_i t ht
      obtain ⟨AL', k1, k2⟩ := step.2 _ ht
      have := ops_safe (b := b) F hO hbr hre hB hd hd0 hu0 l ((idx, o) :: dl) (fun x hx => hl x (by simp [hx]))
        (by
          intro x hx
          rcases List.mem_cons.mp hx with rfl | hx
          · exact ho
          · exact hdl x hx)
        hnd.2
        (by
          intro x hx hm
          rw [List.map_cons, List.mem_cons] at hm
          rcases hm with e | hm
          · exact hnd.1 (e ▸ List.mem_map_of_mem hx)
          · exact hnm x (by simp [hx]) hm)
        (by
          intro x hx k h1 h2
          rw [List.map_cons]
          exact List.mem_cons_of_mem _ (huse x (by simp [hx]) k h1 h2))
        k1 k2
      simpa [List.reverse_cons] using this

theorem instOps_safe (F : Fix cx C) {b i : Nat} (hO : WorkableOps cx C i) (hbr : cx.f.isBranch i = true → ∀ o ∈ cx.f.operands i, o.kind = .Use)
    (hre : ReOk cx i q.RE) (hB : q.B ≤ SpillSlot.MAX)
    (hd : ∀ (k k' : Nat) (o o' : Op), (cx.f.operands i)[k]? = some o → (cx.f.operands i)[k']? = some o' → o.kind = .Def → o'.kind = .Def →
      o.vreg.vreg = o'.vreg.vreg → k = k')
    (hd0 : ∀ o ∈ cx.f.operands i, o.kind = .Def → ¬ q.P o.vreg.vreg)
    (hu0 : ∀ o ∈ cx.f.operands i, o.kind = .Use → o.asFixedNonallocatable = none → ¬ q.P o.vreg.vreg ∧
      ∀ o' ∈ cx.f.operands i, o'.kind = .Def → o'.vreg.vreg ≠ o.vreg.vreg)
    (h : NP cx C q s) :
    Safe (instOps cx s b i) (fun s' => ∃ AL', NP cx C { q with P := fun w => q.P w ∨ DDi cx i w, AL := AL', LV := fun _ => False, NV := fun _ => False } s') := by
  unfold instOps
  have h0 : NP cx C { q with P := Done q.P [], AL := q.AL, LV := fun _ => False, NV := fun _ => False } s :=
    h.plain.grow _ (fun v hv => .inl hv) (fun _ h => h)
  have h1 := ops_safe (b := b) F hO hbr hre hB hd hd0 hu0 (opsAt cx i .Late) [] (fun x hx => (mem_opsAt.mp hx).1) (by simp) (opsAt_nodup .Late)
    (by simp)
    (by
      intro x hx k hk hk'
      obtain ⟨ok, e1, e2⟩ := hre x.1 k hk'
      obtain ⟨_, oj, g1, _, g3, _⟩ := hO.reuse ok (List.mem_of_getElem? e1) x.1 e2
      obtain ⟨j1, j2⟩ := mem_opsAt.mp hx
      rw [j1] at g1; cases g1
      rw [j2] at g3; cases g3)
    h0 (by simp)
  split
  · exact h1.err ‹_›
  · rename_i t ht
    obtain ⟨AL', k1, k2⟩ := h1.2 _ ht
    refine (ops_safe (b := b) F hO hbr hre hB hd hd0 hu0 (opsAt cx i .Early) ((opsAt cx i .Late).reverse ++ []) (fun x hx => (mem_opsAt.mp hx).1)
      (by
        intro x hx
        simp only [List.append_nil, List.mem_reverse] at hx
        exact (mem_opsAt.mp hx).1)
      (opsAt_nodup .Early) ?_ ?_ k1 k2).mono ?_
    · intro x hx hm
      simp only [List.append_nil, List.mem_map, List.mem_reverse] at hm
      obtain ⟨y, hy, e⟩ := hm
      obtain ⟨j1, j2⟩ := mem_opsAt.mp hx
      obtain ⟨j3, j4⟩ := mem_opsAt.mp hy
      rw [e, j1] at j3
      have j3 := Option.some.inj j3
      rw [← j3, j2] at j4; cases j4
    · intro x hx k hk hk'
      obtain ⟨ok, e1, e2⟩ := hre x.1 k hk'
      obtain ⟨g0, _⟩ := hO.reuse ok (List.mem_of_getElem? e1) x.1 e2
      simp only [List.append_nil, List.mem_map, List.mem_reverse]
      exact ⟨(k, ok), mem_opsAt.mpr ⟨e1, g0⟩, rfl⟩
    · rintro u ⟨AL2, k3, _⟩
      refine ⟨AL2, k3.grow _ ?_ (fun _ h => h)⟩
      rintro w (hw | ⟨x, hx, hk, rfl⟩)
      · exact .inl hw
      · refine .inr ⟨x.1, x.2, ?_, ?_, hk, rfl⟩
        all_goals simp only [List.append_nil, List.mem_append, List.mem_reverse] at hx
        · rcases hx with hx | hx
          · exact (mem_opsAt.mp hx).1
          · exact (mem_opsAt.mp hx).1
        · rcases hx with hx | hx
          · exact ⟨_, (mem_opsAt.mp hx).1⟩
          · exact ⟨_, (mem_opsAt.mp hx).1⟩

theorem useMoves_safe (F : Fix cx C) {i : Nat} (hO : WorkableOps cx C i) (hB : q.B ≤ SpillSlot.MAX) (h : NP cx C q s) :
    Safe ((cx.opsOf i).foldlM (useMove cx i) s) (fun s' => NP cx C q s') := by
  refine Safe.foldlM _ (fun x hx t ht => ?_) h
  unfold useMove
  split
  · exact Safe.ok ht
  · rename_i hn
    dsimp only
    split
    · refine (addMove_safe F ht hB ?_).mono (fun _ h => h.1)
      refine hO.regs x.2 (List.mem_of_getElem? (mem_opsOf.mp hx)) ?_
      cases e : x.2.asFixedNonallocatable with
      | none => rfl
      | some p => exact absurd (.inr (by rw [e]; rfl)) hn
    · exact Safe.ok ht

/-! ### Branches -/

/-- Where the parallel moves come from. -/
def ArgMoves (cx : Cx) (C : Nat → VReg) (L : List (VReg × Option VReg)) (s : FS) (pm : PMoves) : Prop :=
  ∀ c, ∀ m ∈ pm c, ∃ v p nv np, (v, some p) ∈ L ∧ vcls v = c ∧ Known cx C v ∧ s.slot v.vreg = some nv ∧ s.slot p.vreg = some np ∧
    m = ⟨stk nv, stk np, some v⟩

theorem ArgMoves.mono {L : List (VReg × Option VReg)} {pm : PMoves} (h : ArgMoves cx C L s pm) (hs : ∀ v n, s.slot v = some n → s'.slot v = some n) :
    ArgMoves cx C L s' pm := by
  intro c m hm
  obtain ⟨v, p, nv, np, h1, h2, h3, h4, h5, h6⟩ := h c m hm
  exact ⟨v, p, nv, np, h1, h2, h3, hs _ _ h4, hs _ _ h5, h6⟩

/-- With the current slots as lower bound. -/
theorem NP.now (h : NP cx C q s) : NP cx C { q with SL := s.slot } s := h.rebase s.slot (fun _ _ h => h) q.LV h.lv q.NV h.nv

theorem argToSlot_safe (F : Fix cx C) (h : NP cx C q s) (hB : q.B ≤ SpillSlot.MAX) {i n : Nat} {v : VReg} (hv : Known cx C v)
    (hn : s.slot v.vreg = some n) : Safe (argToSlot cx s i v n) (fun s' => NP cx C q.plain s') := by
  have h29 := h.num29 hB hn
  unfold argToSlot
  dsimp only
  split
  · rename_i hx
    obtain ⟨lv, e, k⟩ := insert_safe F h (isNone_stk h29) hv (h.an _ hx)
    rw [e]
    exact Safe.ok k.plain
  · rename_i hx
    have hx : (s.alloc v.vreg).isNone = false := by simpa using hx
    have h1 : NP cx C { q with LV := fun w => w = v.vreg, NV := fun _ => False } s :=
      h.rebase q.SL h.sl _ (fun w hw => by rw [hw]; exact ne_none_of hx) _ (fun _ h => h.elim)
    have hm : Safe (if s.alloc v.vreg ≠ stk n then addMove cx s i (stk n) (s.alloc v.vreg) (vcls v) .Before else .ok s)
        (fun s' => NP cx C { q with LV := fun w => w = v.vreg, NV := fun _ => False } s') := by
      split
      · exact (addMove_safe F h1 hB hv).mono (fun _ h => h.1)
      · exact Safe.ok h1
    split
    · exact hm.err ‹_›
    · rename_i t ht
      have k := hm.2 _ ht
      exact Safe.ok (k.setAlloc (isNone_stk h29) (.inl (k.lv _ rfl))).plain

theorem branchArgs_safe (F : Fix cx C) {i : Nat} {L : List (VReg × Option VReg)} (hB : q.B ≤ SpillSlot.MAX)
    (hL : ∀ x ∈ L, Known cx C x.1 ∧ ∃ p, x.2 = some p ∧ Known cx C p) (h : NP cx C q.plain s) :
    Safe (L.foldlM (branchArg cx i) (s, fun _ => [])) (fun r => NP cx C q.plain r.1 ∧ ArgMoves cx C L r.1 r.2) := by
  refine Safe.foldlM (P := fun r : FS × PMoves => NP cx C q.plain r.1 ∧ ArgMoves cx C L r.1 r.2) _ (fun x hx st hst => ?_)
    ⟨h, fun c m hm => by cases hm⟩
  obtain ⟨s, pm⟩ := st
  obtain ⟨v, p?⟩ := x
  obtain ⟨hv, p, hp, hpk⟩ := hL _ hx
  dsimp only at hv hp hst
  subst hp
  obtain ⟨hs, hpm⟩ := hst
  unfold branchArg
  dsimp only
  split
  · exact Safe.ok ⟨hs, hpm⟩
  · have g1 := getSpillslot_safe F hs hB hpk.2
    split
    · exact g1.err ‹_›
    · rename_i np s1 h1
      obtain ⟨k1, k2, _, k4⟩ := g1.2 _ h1
      dsimp only at k1 k2 k4
      have g2 := getSpillslot_safe F k1 hB hv.2
      split
      · exact g2.err ‹_›
      · rename_i nv s2 h2
        obtain ⟨j1, j2, _, j4⟩ := g2.2 _ h2
        dsimp only at j1 j2 j4
        have g3 := argToSlot_safe (i := i) F j1.now hB hv j2
        split
        · exact g3.err ‹_›
        · rename_i s3 h3
          have l1 := g3.2 _ h3
          have mono := l1.sl
          have l2 : NP cx C q.plain s3 := l1.rebase q.SL (fun v n hv => mono v n (j1.sl v n hv)) _ (fun _ h => h.elim) _ (fun _ h => h.elim)
          refine Safe.ok ⟨l2, ?_⟩
          have hpm' : ArgMoves cx C L s3 pm := hpm.mono (fun w n hw => mono w n (j4 w n (k4 w n hw)))
          intro c m hm
          dsimp only at hm ⊢
          by_cases e : c = vcls v
          · subst e
            rw [set1_same, List.mem_append] at hm
            rcases hm with hm | hm
            · exact hpm' _ m hm
            · rw [List.mem_singleton] at hm
              exact ⟨v, p, nv, np, hx, rfl, hv, mono _ _ j2, mono _ _ (j4 _ _ k2), hm⟩
          · rw [set1_ne _ _ e] at hm
            exact hpm' c m hm

theorem findFree_ne {l : Lru} {sc : Option PReg} {av : PRegSet} (h : ∀ m, l.last? m ≠ none) : (findFree l sc av).1 ≠ none := by
  unfold findFree
  cases sc with
  | some r => simp
  | none =>
    dsimp only
    split
    · rename_i e; exact absurd e (h _)
    · simp
    · simp

theorem resolveClass_safe (F : Fix cx C) {i : Nat} {L : List (VReg × Option VReg)} (hB : q.B + 4 * maxSize cx ≤ SpillSlot.MAX)
    (hL : ∀ v v' p p', (v, some p) ∈ L → (v', some p') ∈ L → p.vreg = p'.vreg → v = v')
    {st : FS × PRegSet} {pm : PMoves} {c : RegClass} (h : NP cx C q st.1)
    (hav : ∀ p, st.2.contains p = true → st.1.availE.contains p = true ∧ st.1.availL.contains p = true) (hpm : ArgMoves cx C L st.1 pm) :
    Safe (resolveClass cx i pm st c) (fun r => NP cx C { q with B := q.B + 4 * maxSize cx } r.1 ∧ ArgMoves cx C L r.1 pm ∧
      ∀ p, r.2.contains p = true → r.1.availE.contains p = true ∧ r.1.availL.contains p = true) := by
  obtain ⟨s, av⟩ := st
  dsimp only at h hav hpm
  have hbud : NP cx C { q with B := q.B + 4 * maxSize cx } s := h.budget (by omega)
  unfold resolveClass
  dsimp only
  by_cases hemp : pm c = []
  · rw [hemp]
    have e1 : Moves.resolve? ([] : List (Move (Option VReg))) = some (.NoScratch []) := rfl
    rw [e1]
    dsimp only
    have e2 : ∀ e : Moves.ScratchEnv, regCalls e (.NoScratch []) = 0 := fun e => rfl
    have e3 : ∀ e : Moves.ScratchEnv, slotCalls e (.NoScratch []) = 0 := fun e => rfl
    rw [e2, e3, if_neg (by unfold slotsBad; simp)]
    have e4 : ∀ e : Moves.ScratchEnv, Moves.compute? e (.NoScratch ([] : List (Move (Option VReg)))) = some [] := fun e => rfl
    rw [e4]
    exact Safe.ok ⟨hbud, hpm, hav⟩
  · have hB' : q.B ≤ SpillSlot.MAX := by omega
    have hne : ∀ m, (s.lrus c).last? m ≠ none := by
      obtain ⟨m, hm⟩ := List.exists_mem_of_ne_nil _ hemp
      obtain ⟨v, p, nv, np, h1, h2, h3, h4, h5, h6⟩ := hpm c m hm
      rw [← h2]
      exact fun m => last_safe F h.lru h3 m
    have hslots := h.pot
    have hM : SpillSlot.MAX = 2 ^ 24 - 1 := by decide
    have hS := size_le cx c
    have h0 := F.env.size_pos c
    have a1 := slotAt_ge (bl := cx.byLast) (n := s.numSlots) h0
    have a2 := slotAt_lt_next (bl := cx.byLast) (n := s.numSlots) h0
    have a3 := slotAt_ge (bl := cx.byLast) (n := slotNext (cx.size c) s.numSlots) h0
    have a4 := slotAt_lt_next (bl := cx.byLast) (n := slotNext (cx.size c) s.numSlots) h0
    have a5 : slotNext (cx.size c) s.numSlots ≤ s.numSlots + 2 * cx.size c := slotNext_le' h0
    have a6 : slotNext (cx.size c) (slotNext (cx.size c) s.numSlots) ≤ slotNext (cx.size c) s.numSlots + 2 * cx.size c := slotNext_le' h0
    have hn4 : s.numSlots + 4 * maxSize cx ≤ SpillSlot.MAX := by
      generalize 2 * maxSize cx * unslotted cx.f.numVregs s.slot = x at hslots
      omega
    generalize han : answers (s.lrus c) (s.scratch c) av = an
    generalize hee : resolverEnv cx c an s.numSlots = e
    have hr1n : an.r1 ≠ none := by rw [← han]; exact findFree_ne hne
    have hr2n : an.r2 ≠ none := by rw [← han]; exact findFree_ne hne
    have hr1 : ∀ p, an.r1 = some (some p) → cx.isStack (Allocation.reg p) = false := by
      intro p hp
      rw [← han] at hp
      rcases findFree_1 hp with hq | ⟨_, hq, _⟩
      · exact (h.scratch c p hq).1
      · exact F.env.isStack_reg (last_mem h.lru hq).1
    have hr2 : ∀ p, an.r2 = some (some p) → (cx.regs c).contains p = true ∧ an.av1.contains p = true := by
      intro p hp
      rw [← han] at hp ⊢
      unfold answers at hp ⊢
      dsimp only at hp ⊢
      rw [findFree_2] at hp
      rcases findFree_1 hp with hq | ⟨_, hq, _⟩
      · cases hq
      · exact last_mem h.lru hq
    have hav1 : ∀ p, an.av1.contains p = true → av.contains p = true := by
      intro p hp
      rw [← han] at hp
      exact findFree_3 _ _ _ hp
    have hav2 : ∀ p, an.av2.contains p = true → av.contains p = true := by
      intro p hp
      rw [← han] at hp
      exact findFree_3 _ _ _ (findFree_3 _ _ _ hp)
    have hr12 : ∀ p, an.r1 = some (some p) → an.r2 ≠ some (some p) := by
      intro p h1 h2
      obtain ⟨_, g2⟩ := hr2 p h2
      rw [← han] at h1
      rcases findFree_1 h1 with hq | ⟨_, hq, hrem⟩
      · exact (h.scratch c p hq).2 (hav p (hav1 p g2))
      · rw [← han] at g2
        unfold answers at g2
        dsimp only at g2
        rw [hrem] at g2
        exact ((cont_remove _ _ _).mp g2).1 rfl
    have hfr : ∀ k, e.findReg k = ((if k = 0 then an.r1 else an.r2).getD none).map Allocation.reg := by intro k; rw [← hee]; rfl
    have hst : e.isStack = cx.isStack := by rw [← hee]; rfl
    have hbo : e.borrowed = cx.victim c := by rw [← hee]; rfl
    have hfr' : ∀ k r, e.findReg k = some r → ∃ p, r = Allocation.reg p ∧
        ((k = 0 ∧ an.r1 = some (some p)) ∨ (k ≠ 0 ∧ an.r2 = some (some p))) := by
      intro k r hr
      rw [hfr] at hr
      by_cases hk : k = 0
      · rw [if_pos hk] at hr
        cases hx : an.r1 with
        | none => rw [hx] at hr; cases hr
        | some y =>
          rw [hx] at hr
          cases y with
          | none => cases hr
          | some p => exact ⟨p, (Option.some.inj hr).symm, .inl ⟨hk, rfl⟩⟩
      · rw [if_neg hk] at hr
        cases hx : an.r2 with
        | none => rw [hx] at hr; cases hr
        | some y =>
          rw [hx] at hr
          cases y with
          | none => cases hr
          | some p => exact ⟨p, (Option.some.inj hr).symm, .inr ⟨hk, rfl⟩⟩
    have hgs : ∀ k, ∃ g, e.getSlot k = stk g ∧ s.numSlots ≤ g ∧ g < 2 ^ 29 := by
      intro k
      rw [← hee]
      unfold resolverEnv
      dsimp only
      split
      · exact ⟨_, rfl, by omega, by omega⟩
      · exact ⟨_, rfl, by omega, by omega⟩
    have hok : e.Ok (pm c) := by
      refine ⟨?_, ?_, ?_, ?_, ?_⟩
      · intro k _ r hr
        obtain ⟨p, rfl, hq⟩ := hfr' k r hr
        refine ⟨?_, isNone_reg p, ?_⟩
        · rw [hst]
          rcases hq with ⟨_, hq⟩ | ⟨_, hq⟩
          · exact hr1 p hq
          · exact F.env.isStack_reg (hr2 p hq).1
        · rintro ⟨m, hmm, hx⟩
          obtain ⟨v, p', nv, np, h1, h2, h3, h4, h5, rfl⟩ := hpm c m hmm
          rcases hx with hx | hx
          · exact reg_ne_stk (h.num29 hB' h4) hx.symm
          · exact reg_ne_stk (h.num29 hB' h5) hx.symm
      · rintro r ⟨h0, h1⟩
        obtain ⟨p, hp, hq⟩ := hfr' 0 r h0
        obtain ⟨p', hp', hq'⟩ := hfr' 1 r h1
        rw [hp] at hp'
        cases reg_inj hp'
        rcases hq with ⟨_, hq⟩ | ⟨hq, _⟩
        · rcases hq' with ⟨hq', _⟩ | ⟨_, hq'⟩
          · omega
          · exact hr12 p hq hq'
        · exact hq rfl
      · intro k hk
        obtain ⟨g, hg, h1, h2⟩ := hgs k
        rw [hg]
        refine ⟨by rw [hst]; exact isStack_stk cx h2, isNone_stk h2, ?_⟩
        rintro ⟨m, hmm, hx⟩
        obtain ⟨v, p', nv, np, g1, g2, g3, g4, g5, rfl⟩ := hpm c m hmm
        rcases hx with hx | hx
        · have := stk_inj (h.num29 hB' g4) h2 hx
          have := h.slotLt _ _ g4
          omega
        · have := stk_inj (h.num29 hB' g5) h2 hx
          have := h.slotLt _ _ g5
          omega
      · rw [← hee]
        unfold resolverEnv
        dsimp only
        rw [if_pos rfl, if_neg (by omega)]
        intro hx
        have := stk_inj (by omega) (by omega) hx
        omega
      · rw [hst, hbo]
        unfold Cx.victim
        cases hmx : (cx.regs c).maxPreg with
        | none =>
          rw [Option.getD_none, isStack_reg]
          cases hf : cx.fixedStack.contains PReg.invalid with
          | false => rfl
          | true => exact absurd ((fixedStack_iff cx _).mp hf) F.env.invalid
        | some p =>
          rw [Option.getD_some]
          have hp : p ∈ (cx.regs c).toList := List.mem_of_getLast? hmx
          exact F.env.isStack_reg ((mem_toList _ _).mp hp)
    have hreal : Moves.RealLocs (pm c) := by
      intro m hmm
      obtain ⟨v, p', nv, np, g1, g2, g3, g4, g5, rfl⟩ := hpm c m hmm
      exact ⟨isNone_stk (h.num29 hB' g4), isNone_stk (h.num29 hB' g5)⟩
    have hu : Moves.UniqueWriters (pm c) := by
      intro m hm m' hm' e
      obtain ⟨v, p, nv, np, g1, g2, g3, g4, g5, rfl⟩ := hpm c m hm
      obtain ⟨v', p', nv', np', k1, k2, k3, k4, k5, rfl⟩ := hpm c m' hm'
      dsimp only at e
      have := stk_inj (h.num29 hB' g5) (h.num29 hB' k5) e
      subst this
      have := hL v v' p p' g1 k1 (h.slotInj _ _ _ g5 k5)
      subst this
      rw [g4] at k4
      cases k4
      rfl
    obtain ⟨r, out, hr, hout, _, _⟩ := Moves.C03_scratch_resolver.{0} (pm c) e hu hreal hok
    rw [hr]
    dsimp only
    have hsc : slotCalls e r ≤ 2 := slotCalls_le
    generalize slotCalls e r = k at hsc
    have hbad : slotsBad cx c s.numSlots k = false ∧ slotsAfter cx c s.numSlots k ≤ s.numSlots + 4 * maxSize cx ∧ s.numSlots ≤ slotsAfter cx c s.numSlots k := by
      have z : decide (cx.size c = 0) = false := by simp; omega
      have z1 : decide (slotAt cx.byLast (cx.size c) s.numSlots > SpillSlot.MAX) = false := by simp; omega
      have z2 : decide (slotAt cx.byLast (cx.size c) (slotNext (cx.size c) s.numSlots) > SpillSlot.MAX) = false := by simp; omega
      match k, hsc with
      | 0, _ => exact ⟨rfl, by unfold slotsAfter; omega, by unfold slotsAfter; omega⟩
      | 1, _ =>
        refine ⟨?_, ?_, ?_⟩
        · simp only [slotsBad, z, z1, Bool.or_false]
        · show slotNext (cx.size c) s.numSlots ≤ _; omega
        · show _ ≤ slotNext (cx.size c) s.numSlots; omega
      | 2, _ =>
        refine ⟨?_, ?_, ?_⟩
        · simp only [slotsBad, z, z1, z2, Bool.or_false]
        · show slotNext (cx.size c) (slotNext (cx.size c) s.numSlots) ≤ _; omega
        · show _ ≤ slotNext (cx.size c) (slotNext (cx.size c) s.numSlots); omega
    rw [if_neg (by
      rintro (⟨_, hx⟩ | ⟨_, hx⟩ | hx)
      · exact hr1n hx
      · exact hr2n hx
      · rw [hbad.1] at hx; cases hx), hout]
    refine Safe.ok ⟨{ hbud with slotLt := ?_, pot := ?_ }, fun c m hm => hpm c m hm, ?_⟩
    · intro v n hv
      have := h.slotLt v n hv
      have := hbad.2.2
      dsimp only
      omega
    · have := hbad.2.1
      dsimp only
      generalize 2 * maxSize cx * unslotted cx.f.numVregs s.slot = x at *
      omega
    · intro p hp
      dsimp only at hp ⊢
      split at hp
      · exact hav p hp
      · split at hp
        · exact hav p (hav1 p hp)
        · exact hav p (hav2 p hp)

theorem processBranch_safe (F : Fix cx C) {b i : Nat} (hB : q.B + 12 * maxSize cx ≤ SpillSlot.MAX)
    (hK : ∀ x ∈ branchPairs cx.f b i, Known cx C x.1 ∧ ∃ p, x.2 = some p ∧ Known cx C p)
    (hL : ∀ v v' p p', (v, some p) ∈ branchPairs cx.f b i → (v', some p') ∈ branchPairs cx.f b i → p.vreg = p'.vreg → v = v')
    (h : NP cx C q.plain s) : Safe (processBranch cx s b i) (fun s' => NP cx C { q.plain with B := q.B + 12 * maxSize cx } s') := by
  unfold processBranch
  have h1 := branchArgs_safe (i := i) F (by omega) hK h
  split
  · exact h1.err ‹_›
  · rename_i t pm ht
    obtain ⟨k1, k2⟩ := h1.2 _ ht
    have r1 := Safe.cons (l := [RegClass.Float, .Vector]) (resolveClass_safe (i := i) (c := .Int) (st := (t, t.availE.intersectFrom t.availL)) F
      (by show q.B + _ ≤ _; omega) hL k1 (fun p hp => (cont_inter _ _ _).mp hp) k2)
      (Q' := fun r => NP cx C { q.plain with B := q.B + 12 * maxSize cx } r.1) (by
        rintro x1 ⟨j1, j2, j3⟩
        refine Safe.cons (resolveClass_safe (i := i) (c := .Float) F (by show q.B + _ + _ ≤ _; omega) hL j1 j3 j2) ?_
        rintro x2 ⟨l1, l2, l3⟩
        refine Safe.cons (resolveClass_safe (i := i) (c := .Vector) F (by show q.B + _ + _ + _ ≤ _; omega) hL l1 l3 l2) ?_
        rintro x3 ⟨m1, _⟩
        exact Safe.ok (m1.budget (by show q.B + _ + _ + _ ≤ _; omega)))
    split
    · exact r1.err ‹_›
    · rename_i u av hu
      exact Safe.ok (r1.2 _ hu)

end

end Fast
end Regalloc
