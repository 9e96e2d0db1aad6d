import Verif.Proofs.FastDef

/-
Single-pass allocator: reservation of fixed registers and evictions before the
operands of an instruction are allocated.
-/
namespace Regalloc
namespace Fast
open Exec

/-- Induction over a monadic fold, with the elements seen so far. -/
theorem foldlM_inv {α σ : Type} {f : σ → α → R σ} (M : List α → σ → Prop) {l : List α} {s s' : σ} (h0 : M [] s)
    (hs : ∀ pre x post t t', l = pre ++ x :: post → M pre t → f t x = .ok t' → M (pre ++ [x]) t')
    (h : l.foldlM f s = .ok s') : M l s' := by
  suffices H : ∀ (post pre : List α) (t : σ), l = pre ++ post → M pre t → post.foldlM f t = .ok s' → M l s' by
    exact H l [] s rfl h0 h
  intro post
  induction post with
  | nil =>
    intro pre t hl hm h
    rw [List.append_nil] at hl
    subst hl
    cases h
    exact hm
  | cons x post ih =>
    intro pre t hl hm h
    rw [List.foldlM_cons] at h
    cases hx : f t x with
    | error e => rw [hx] at h; cases h
    | ok t' =>
      rw [hx] at h
      exact ih (pre ++ [x]) t' (by rw [hl, List.append_assoc]; rfl) (hs pre x post t t' hl hm hx) h

theorem mem_opsOf {cx : Cx} {i : Nat} {k : Nat} {o : Op} : (k, o) ∈ cx.opsOf i ↔ (cx.f.operands i)[k]? = some o := by
  unfold Cx.opsOf
  rw [List.mem_map]
  constructor
  · rintro ⟨⟨o', k'⟩, h, e⟩
    cases e
    exact List.mem_zipIdx_iff_getElem?.mp h
  · intro h
    exact ⟨(o, k), List.mem_zipIdx_iff_getElem?.mpr h, rfl⟩

theorem opsOf_fst (cx : Cx) (i : Nat) : (cx.opsOf i).map Prod.fst = List.range (cx.f.operands i).length := by
  unfold Cx.opsOf
  rw [List.map_map]
  have : (Prod.fst ∘ fun (x : Op × Nat) => (x.2, x.1)) = Prod.snd := rfl
  rw [this, List.zipIdx_map_snd, List.range_eq_range']

theorem opsOf_nodup (cx : Cx) (i : Nat) : ((cx.opsOf i).map Prod.fst).Nodup := by
  rw [opsOf_fst]; exact List.nodup_range

theorem mem_fixedOps {cx : Cx} {i : Nat} {k : Nat} {o : Op} {p : PReg} :
    (k, o, p) ∈ fixedOps cx i ↔ (cx.f.operands i)[k]? = some o ∧ o.constraint = .FixedReg p := by
  unfold fixedOps
  rw [List.mem_filterMap]
  have hf : ∀ (o : Op) p, fixedOf o = some p ↔ o.constraint = .FixedReg p := by
    intro o p
    unfold fixedOf
    split
    · next q hq => rw [hq]; constructor <;> (intro h; cases h; rfl)
    · next hq => constructor
                 · intro h; cases h
                 · intro h; exact absurd h (hq p)
  constructor
  · rintro ⟨⟨k', o'⟩, h1, h2⟩
    simp only [Option.map_eq_some_iff] at h2
    obtain ⟨q, hq, e⟩ := h2
    cases e
    exact ⟨mem_opsOf.mp h1, (hf o p).mp hq⟩
  · rintro ⟨h1, h2⟩
    refine ⟨(k, o), mem_opsOf.mpr h1, ?_⟩
    simp only [Option.map_eq_some_iff]
    exact ⟨p, (hf o p).mpr h2, rfl⟩

theorem fixedOps_nodup (cx : Cx) (i : Nat) : ((fixedOps cx i).map Prod.fst).Nodup := by
  unfold fixedOps
  have h := opsOf_nodup cx i
  revert h
  generalize cx.opsOf i = l
  induction l with
  | nil => intro _; exact List.nodup_nil
  | cons x l ih =>
    intro h
    rw [List.map_cons, List.nodup_cons] at h
    have ih := ih h.2
    rw [List.filterMap_cons]
    split
    · exact ih
    · next y hy =>
      rw [List.map_cons, List.nodup_cons]
      refine ⟨?_, ih⟩
      have hy1 : y.1 = x.1 := by
        simp only [Option.map_eq_some_iff] at hy
        obtain ⟨_, _, e⟩ := hy
        rw [← e]
      rw [hy1]
      intro hm
      refine h.1 ?_
      rw [List.mem_map] at hm ⊢
      obtain ⟨z, hz, e⟩ := hm
      rw [List.mem_filterMap] at hz
      obtain ⟨w, hw, e2⟩ := hz
      simp only [Option.map_eq_some_iff] at e2
      obtain ⟨_, _, e3⟩ := e2
      exact ⟨w, hw, by rw [← e, ← e3]⟩

/-- Everything but the counters, the reservations and the use order is the same. -/
structure Same (s s' : FS) : Prop where
  edits : s'.edits = s.edits
  scratch : s'.scratch = s.scratch
  alloc : s'.alloc = s.alloc
  slot : s'.slot = s.slot
  inPreg : s'.inPreg = s.inPreg
  numSlots : s'.numSlots = s.numSlots
  live : s'.live = s.live
  allocs : s'.allocs = s.allocs

theorem Same.refl (s : FS) : Same s s := ⟨rfl, rfl, rfl, rfl, rfl, rfl, rfl, rfl⟩

theorem Same.trans {s1 s2 s3 : FS} (h : Same s1 s2) (g : Same s2 s3) : Same s1 s3 :=
  ⟨g.edits.trans h.edits, g.scratch.trans h.scratch, g.alloc.trans h.alloc, g.slot.trans h.slot,
    g.inPreg.trans h.inPreg, g.numSlots.trans h.numSlots, g.live.trans h.live, g.allocs.trans h.allocs⟩

/-- The counting loop. -/
theorem count_spec {cx : Cx} {C : Nat → VReg} {i : Nat} (hi : IOk cx C i) {s s' : FS}
    (hr : s.reused = fun _ => none) (h : (cx.opsOf i).foldlM (countOp cx i) s = .ok s') :
    Same s s' ∧ s'.availE = s.availE ∧ s'.availL = s.availL ∧ s'.lrus = s.lrus ∧
      ∀ j k, s'.reused j = some k ↔ ∃ o, (cx.f.operands i)[k]? = some o ∧ o.constraint = .Reuse j := by
  have H := foldlM_inv (fun pre t => Same s t ∧ t.availE = s.availE ∧ t.availL = s.availL ∧ t.lrus = s.lrus ∧
      ∀ j k, t.reused j = some k ↔ ∃ o, (k, o) ∈ pre ∧ o.constraint = .Reuse j) (l := cx.opsOf i)
    ⟨Same.refl s, rfl, rfl, rfl, by intro j k; rw [hr]; simp⟩ ?_ h
  · obtain ⟨h1, h2, h3, h4, h5⟩ := H
    refine ⟨h1, h2, h3, h4, ?_⟩
    intro j k
    rw [h5]
    simp only [mem_opsOf]
  · rintro pre ⟨k, o⟩ post t t' hl ⟨h1, h2, h3, h4, h5⟩ hstep
    have ho : (cx.f.operands i)[k]? = some o := mem_opsOf.mp (by rw [hl]; simp)
    have hpre : ∀ k' o', (k', o') ∈ pre → (cx.f.operands i)[k']? = some o' := fun k' o' h' =>
      mem_opsOf.mp (by rw [hl]; simp [h'])
    have noRe : (∀ j, o.constraint ≠ .Reuse j) → ∀ (t' : FS), t'.reused = t.reused →
        ∀ j k', t'.reused j = some k' ↔ ∃ o', (k', o') ∈ pre ++ [(k, o)] ∧ o'.constraint = .Reuse j := by
      intro hn t' e j k'
      rw [e, h5]
      constructor
      · rintro ⟨o', h1, h2⟩; exact ⟨o', List.mem_append_left _ h1, h2⟩
      · rintro ⟨o', h1, h2⟩
        rcases List.mem_append.mp h1 with h1 | h1
        · exact ⟨o', h1, h2⟩
        · simp only [List.mem_singleton, Prod.mk.injEq] at h1
          rw [h1.2] at h2
          exact absurd h2 (hn j)
    unfold countOp at hstep
    dsimp only at hstep
    split at hstep
    · next j hj =>
      split at hstep
      · cases hstep
      · have key : ∃ na, t' = { t with reused := set1 t.reused j (some k), numAny := na } := by
          split at hstep
          · cases hstep; exact ⟨_, rfl⟩
          · cases hstep; exact ⟨t.numAny, rfl⟩
        obtain ⟨na, rfl⟩ := key
        refine ⟨⟨h1.edits, h1.scratch, h1.alloc, h1.slot, h1.inPreg, h1.numSlots, h1.live, h1.allocs⟩, h2, h3, h4, ?_⟩
        intro j' k'
        show set1 t.reused j (some k) j' = some k' ↔ _
        by_cases e : j' = j
        · subst e
          rw [set1_same]
          constructor
          · intro e; cases e; exact ⟨o, by simp, hj⟩
          · rintro ⟨o', h1, h2⟩
            have ho' : (cx.f.operands i)[k']? = some o' := mem_opsOf.mp (by rw [hl]; simp at h1 ⊢; grind)
            rw [hi.reuseUniq k k' o o' j' ho ho' hj h2]
        · rw [set1_ne _ _ e, h5]
          constructor
          · rintro ⟨o', h1, h2⟩; exact ⟨o', List.mem_append_left _ h1, h2⟩
          · rintro ⟨o', h1, h2⟩
            rcases List.mem_append.mp h1 with h1 | h1
            · exact ⟨o', h1, h2⟩
            · simp only [List.mem_singleton, Prod.mk.injEq] at h1
              rw [h1.2, hj] at h2
              cases h2; exact absurd rfl e
    · next hc =>
      cases hstep
      refine ⟨⟨h1.edits, h1.scratch, h1.alloc, h1.slot, h1.inPreg, h1.numSlots, h1.live, h1.allocs⟩, h2, h3, h4, ?_⟩
      exact noRe (by rw [hc]; intro j h; cases h) _ rfl
    · next hc _ =>
      cases hstep
      exact ⟨h1, h2, h3, h4, noRe hc _ rfl⟩

/-- Reservation of one fixed register. -/
theorem reserve_spec {cx : Cx} {C : Nat → VReg} {i : Nat} (hi : IOk cx C i) {s s' : FS} {k : Nat} {o : Op} {p : PReg}
    (ho : (cx.f.operands i)[k]? = some o) (hc : o.constraint = .FixedReg p) (h : reserve s o k p = .ok s') :
    ∃ e l, s' = { s with availE := e, availL := l } ∧ (∀ q, e.contains q = true → s.availE.contains q = true) ∧
      (∀ q, l.contains q = true → s.availL.contains q = true) ∧
      (occE o → ¬ e.contains p = true) ∧ (occL o → ¬ l.contains p = true) ∧
      (o.asFixedNonallocatable = none → (occE o → s.availE.contains p = true) ∧ (occL o → s.availL.contains p = true)) := by
  have r1 : ∀ (t : PRegSet) p q, (t.remove p).contains q = true → t.contains q = true :=
    fun t p q h => ((cont_remove t q p).mp h).2
  have r2 : ∀ (t : PRegSet) p, ¬ (t.remove p).contains p = true := fun t p h => ((cont_remove t p p).mp h).1 rfl
  unfold reserve at h
  dsimp only at h
  unfold occE occL
  split at h
  · next hp hk =>
    rw [hp, hk]
    split at h
    · cases h
    · next h1 =>
      have hE : o.asFixedNonallocatable = none → s.availE.contains p = true := by
        intro e; rw [e] at h1; simpa using h1
      split at h
      · split at h
        · cases h
        · cases h
          exact ⟨_, _, rfl, r1 _ p, r1 _ p, fun _ => r2 _ _, fun _ => r2 _ _, fun e => ⟨fun _ => hE e, by simp⟩⟩
      · cases h
        exact ⟨_, _, rfl, r1 _ p, fun _ h => h, fun _ => r2 _ _, by simp, fun e => ⟨fun _ => hE e, by simp⟩⟩
  · next hp hk =>
    rw [hp, hk]
    split at h
    · cases h
    · next h1 =>
      have hL : o.asFixedNonallocatable = none → s.availL.contains p = true := by
        intro e; rw [e] at h1; simpa using h1
      cases h
      refine ⟨_, _, rfl, fun _ h => h, r1 _ p, ?_, fun _ => r2 _ _, fun e => ⟨?_, fun _ => hL e⟩⟩ <;>
      · rw [hc]; simp
  · split at h
    · cases h
    · next h1 =>
      cases h
      refine ⟨_, _, rfl, r1 _ p, r1 _ p, fun _ => r2 _ _, fun _ => r2 _ _, ?_⟩
      intro e
      rw [e] at h1
      simp at h1
      exact ⟨fun _ => h1.1, fun _ => h1.2⟩

/-- The reservation loop and the removal of the clobbers. -/
structure Rsv (cx : Cx) (i : Nat) (ops : List (Nat × Op × PReg)) (s s' : FS) : Prop where
  same : Same s s'
  reused : s'.reused = s.reused
  lru : LruOk cx s'.lrus
  availE : ∀ q, s'.availE.contains q = true → s.availE.contains q = true
  availL : ∀ q, s'.availL.contains q = true → s.availL.contains q = true
  ph : ∀ k o p, (k, o, p) ∈ ops → (occE o → ¬ s'.availE.contains p = true) ∧ (occL o → ¬ s'.availL.contains p = true)
  init : ∀ k o p, (k, o, p) ∈ ops → o.asFixedNonallocatable = none →
    (occE o → s.availE.contains p = true) ∧ (occL o → s.availL.contains p = true)
  compat : ∀ k o k' o' p, (k, o, p) ∈ ops → (k', o', p) ∈ ops → k ≠ k' → o.asFixedNonallocatable = none →
    o'.asFixedNonallocatable = none → ¬ (occE o ∧ occE o') ∧ ¬ (occL o ∧ occL o')

theorem reserve_all {cx : Cx} {C : Nat → VReg} {i : Nat} (he : EnvOk cx) (hi : IOk cx C i) {s : FS} {n : Nat}
    {st : FS × PRegSet × Nat} (hl : LruOk cx s.lrus)
    (h : (fixedOps cx i).foldlM (reserveFixed cx i) (s, PRegSet.empty, n) = .ok st) :
    Rsv cx i (fixedOps cx i) s st.1 := by
  refine foldlM_inv (fun pre t => Rsv cx i pre s t.1) ?_ ?_ h
  · exact ⟨Same.refl s, rfl, hl, fun _ h => h, fun _ h => h, by simp, by simp, by simp⟩
  · rintro pre ⟨k, o, p⟩ post ⟨t, seen, nc⟩ st' hpre r hstep
    have hmem : (k, o, p) ∈ fixedOps cx i := by rw [hpre]; simp
    obtain ⟨ho, hc⟩ := mem_fixedOps.mp hmem
    have hnd := fixedOps_nodup cx i
    rw [hpre, List.map_append, List.map_cons] at hnd
    have hnk : ∀ k' o' p', (k', o', p') ∈ pre → k' ≠ k := by
      rintro k' o' p' hm rfl
      exact (List.nodup_append.mp hnd).2.2 k' (List.mem_map.mpr ⟨_, hm, rfl⟩) k' (by simp) rfl
    unfold reserveFixed at hstep
    dsimp only at hstep
    split at hstep
    · cases hstep
    · next t1 h1 =>
      obtain ⟨e, l, rfl, m1, m2, m3, m4, m5⟩ := reserve_spec hi ho hc h1
      have key : ∃ lr na, st'.1 = { t with availE := e, availL := l, lrus := lr, numAvail := na } ∧ LruOk cx lr := by
        split at hstep
        · cases hstep; exact ⟨t.lrus, t.numAvail, rfl, r.lru⟩
        · split at hstep
          · next hal =>
            split at hstep
            · cases hstep
            · next t2 h2 =>
              cases hstep
              unfold poke at h2
              split at h2
              · cases h2
              · next lr hlr =>
                cases h2
                exact ⟨_, _, rfl, lruOk_poke r.lru (he.allocatable_cls hal) hlr⟩
          · cases hstep; exact ⟨t.lrus, t.numAvail, rfl, r.lru⟩
      obtain ⟨lr, na, hst, hlr⟩ := key
      have old : ∀ {k' o' p'}, (k', o', p') ∈ pre ++ [(k, o, p)] → (k', o', p') ∈ pre ∨ (k' = k ∧ o' = o ∧ p' = p) := by
        intro k' o' p' h
        simpa using h
      have init' : ∀ k o p, (k, o, p) ∈ pre → (occE o → ¬ t.availE.contains p = true) ∧ (occL o → ¬ t.availL.contains p = true) :=
        r.ph
      rw [hst]
      refine ⟨?_, r.reused, hlr, fun q h => r.availE q (m1 q h), fun q h => r.availL q (m2 q h), ?_, ?_, ?_⟩
      · exact ⟨r.same.edits, r.same.scratch, r.same.alloc, r.same.slot, r.same.inPreg, r.same.numSlots, r.same.live, r.same.allocs⟩
      · intro k' o' p' hm
        rcases old hm with hm | ⟨rfl, rfl, rfl⟩
        · obtain ⟨h1, h2⟩ := r.ph k' o' p' hm
          exact ⟨fun h q => h1 h (m1 _ q), fun h q => h2 h (m2 _ q)⟩
        · exact ⟨m3, m4⟩
      · intro k' o' p' hm hna
        rcases old hm with hm | ⟨rfl, rfl, rfl⟩
        · exact r.init k' o' p' hm hna
        · obtain ⟨h1, h2⟩ := m5 hna
          exact ⟨fun h => r.availE _ (h1 h), fun h => r.availL _ (h2 h)⟩
      · intro k1 o1 k2 o2 q hm1 hm2 hne hn1 hn2
        rcases old hm1 with g1 | ⟨rfl, rfl, rfl⟩ <;> rcases old hm2 with g2 | ⟨rfl, rfl, e⟩
        · exact r.compat k1 o1 k2 o2 q g1 g2 hne hn1 hn2
        · subst e
          obtain ⟨h1, h2⟩ := r.ph k1 o1 q g1
          obtain ⟨h3, h4⟩ := m5 hn2
          exact ⟨fun h => h1 h.1 (h3 h.2), fun h => h2 h.1 (h4 h.2)⟩
        · obtain ⟨h1, h2⟩ := r.ph k2 o2 q g2
          obtain ⟨h3, h4⟩ := m5 hn1
          exact ⟨fun h => h1 h.2 (h3 h.1), fun h => h2 h.2 (h4 h.1)⟩
        · exact absurd rfl hne

/-- A register that no one is allocated to is forgotten. -/
theorem Inv.clearIn {cx C P} {s : FS} (I : Inv cx C P s) {p : PReg} (h : ∀ w, s.alloc w ≠ Allocation.reg p) :
    Inv cx C P { s with inPreg := set1 s.inPreg p none } := by
  have hin : ∀ q x, set1 s.inPreg p none q = some x → s.inPreg q = some x := by
    intro q x hq
    by_cases e : q = p
    · subst e; rw [set1_same] at hq; cases hq
    · rw [set1_ne _ _ e] at hq; exact hq
  refine ⟨?_, I.inAvail, fun q x hq => I.inReg q x (hin q x hq), fun q x hq => I.inLive q x (hin q x hq), I.noReg,
    fun q x hq => I.inC q x (hin q x hq), fun q x hq => I.inCls q x (hin q x hq), I.slotLt, I.slotInj, I.numLe, I.live, I.lru⟩
  intro v
  rcases I.alloc v with h' | ⟨q, x, h', hx⟩ | h'
  · exact .inl h'
  · refine .inr (.inl ⟨q, x, h', ?_, hx.2⟩)
    have e : q ≠ p := by rintro rfl; exact h v h'
    show set1 s.inPreg p none q = some x
    rw [set1_ne _ _ e]; exact hx.1
  · exact .inr (.inr h')

/-- The effect of evictions. -/
structure Ev (cx : Cx) (C : Nat → VReg) (P : Nat → Prop) (i : Nat) (s s' : FS) : Prop where
  inv : Inv cx C P s'
  scrOk : ScrOk cx s'
  alloc : ∀ w, s'.alloc w = s.alloc w ∨ ∃ n, s'.slot w = some n ∧ s'.alloc w = stk n
  slot : ∀ v n, s.slot v = some n → s'.slot v = some n
  inPreg : ∀ p, s'.inPreg p = s.inPreg p ∨ s'.inPreg p = none
  availE : ∀ p, s'.availE.contains p = true → s.availE.contains p = true
  availL : ∀ p, s'.availL.contains p = true → s.availL.contains p = true
  allocs : s'.allocs = s.allocs
  reused : s'.reused = s.reused
  scratch : ∀ c, s'.scratch c = s.scratch c ∨
    ∃ r, s'.scratch c = some r ∧ s.availE.contains r = true ∧ s.availL.contains r = true
  sat : ∃ E : List Edit, s'.edits = E.map (fun e => (pt i .After, e)) ++ s.edits ∧
    ∀ {Val : Type} (F : Nat → Option Nat) (L1 L2 : Nat → Prop) (V : Nat → Val) (A : Allocation → Val), FOk F s' →
      Sat F s' L1 L2 (fun _ _ => False) V A → Sat F s L1 L2 (fun _ _ => False) V (execE E A)

theorem Ev.refl {cx C P i s} (I : Inv cx C P s) (S : ScrOk cx s) : Ev cx C P i s s :=
  ⟨I, S, fun _ => .inl rfl, fun _ _ h => h, fun _ => .inl rfl, fun _ h => h, fun _ h => h, rfl, rfl, fun _ => .inl rfl,
    [], rfl, fun _ _ _ _ _ _ h => h⟩

theorem Ev.trans {cx C P i s1 s2 s3} (h : Ev cx C P i s1 s2) (g : Ev cx C P i s2 s3) : Ev cx C P i s1 s3 := by
  refine ⟨g.inv, g.scrOk, ?_, fun v n e => g.slot v n (h.slot v n e), ?_, fun p e => h.availE p (g.availE p e),
    fun p e => h.availL p (g.availL p e), g.allocs.trans h.allocs, g.reused.trans h.reused, ?_, ?_⟩
  · intro w
    rcases g.alloc w with e | e
    · rcases h.alloc w with e' | ⟨n, e1, e2⟩
      · exact .inl (e.trans e')
      · exact .inr ⟨n, g.slot _ _ e1, e.trans e2⟩
    · exact .inr e
  · intro p
    rcases g.inPreg p with e | e
    · rw [e]; exact h.inPreg p
    · exact .inr e
  · intro c
    rcases g.scratch c with e | ⟨r, e1, e2, e3⟩
    · rcases h.scratch c with e' | ⟨r, e1, e2, e3⟩
      · exact .inl (e.trans e')
      · exact .inr ⟨r, e.trans e1, e2, e3⟩
    · exact .inr ⟨r, e1, h.availE _ e2, h.availL _ e3⟩
  · obtain ⟨E1, hE1, hS1⟩ := h.sat
    obtain ⟨E2, hE2, hS2⟩ := g.sat
    refine ⟨E2 ++ E1, by rw [hE2, hE1, List.map_append, List.append_assoc], ?_⟩
    intro Val F L1 L2 V A hF hS
    rw [execE_append]
    exact hS1 F L1 L2 V _ (hF.of_mono g.slot) (hS2 F L1 L2 V A hF hS)

/-- Evicting the occupant of a register. -/
theorem evictOne_spec {cx C P} {s s' : FS} {i : Nat} {p : PReg} (he : EnvOk cx) (I : Inv cx C P s) (S : ScrOk cx s)
    (h : evict cx s i p .After = .ok s') : Ev cx C P i s { s' with inPreg := set1 s'.inPreg p none } := by
  obtain ⟨I1, S1, fr, hno, E, hE, hS⟩ := evict_spec he h I S
  refine ⟨I1.clearIn hno, S1.mono rfl (fun _ h => h) (fun _ h => h) (fun _ _ h => h), ?_, fr.slot, ?_, fr.availE, fr.availL,
    fr.allocs, fr.reused, fr.scratch, E, hE, ?_⟩
  · intro w
    rcases fr.alloc w with e | ⟨_, e⟩
    · exact .inl e
    · exact .inr e
  · intro q
    show set1 s'.inPreg p none q = _ ∨ set1 s'.inPreg p none q = _
    by_cases e : q = p
    · subst e; rw [set1_same]; exact .inr rfl
    · rw [set1_ne _ _ e, fr.inPreg]; exact .inl rfl
  · intro Val F L1 L2 V A hF hSat
    exact hS F L1 L2 _ V A (hF.of_eq rfl) (hSat.of_eq rfl) (fun _ _ h => h.elim)

/-- Changing only the counters. -/
theorem Ev.count {cx C P i s s'} (h : Ev cx C P i s s') (na : EPos → RegClass → Int) :
    Ev cx C P i s { s' with numAvail := na } := by
  refine ⟨h.inv.of_eq rfl rfl rfl rfl rfl h.inv.lru, h.scrOk.mono rfl (fun _ h => h) (fun _ h => h) (fun _ _ h => h),
    h.alloc, h.slot, h.inPreg, h.availE, h.availL, h.allocs, h.reused, h.scratch, ?_⟩
  obtain ⟨E, hE, hS⟩ := h.sat
  exact ⟨E, hE, fun F L1 L2 V A hF hSat => hS F L1 L2 V A (hF.of_eq rfl) (hSat.of_eq rfl)⟩

theorem instEvict_spec {cx C P} {s s' : FS} {i nc : Nat} (he : EnvOk cx) (I : Inv cx C P s) (S : ScrOk cx s)
    (h : instEvict cx s nc i = .ok s') : Ev cx C P i s s' ∧
      (∀ k o p, (k, o, p) ∈ fixedOps cx i → s'.inPreg p = none ∨ s'.inPreg p = some o.vreg) ∧
      ∀ p, (cx.clob i).contains p = true → s'.inPreg p = none := by
  unfold instEvict at h
  split at h
  · cases h
  · next s1 h1 =>
    have H1 := foldlM_inv (fun pre t => Ev cx C P i s t ∧
      ∀ k o p, (k, o, p) ∈ pre → t.inPreg p = none ∨ t.inPreg p = some o.vreg) ⟨Ev.refl I S, by simp⟩ ?_ h1
    · obtain ⟨ev1, hf1⟩ := H1
      split at h
      · cases h
      · next s2 n2 h2 =>
        cases h
        have H2 := foldlM_inv (fun pre (t : FS × Nat) => Ev cx C P i s1 t.1 ∧ ∀ p ∈ pre, t.1.inPreg p = none)
          ⟨Ev.refl ev1.inv ev1.scrOk, by simp⟩ ?_ h2
        · obtain ⟨ev2, hf2⟩ := H2
          refine ⟨ev1.trans ev2, ?_, ?_⟩
          · intro k o p hm
            rcases ev2.inPreg p with e | e
            · rw [e]; exact hf1 k o p hm
            · exact .inl e
          · intro p hp
            exact hf2 p ((mem_toList _ _).mpr hp)
        · rintro pre p post ⟨t, n⟩ ⟨t', n'⟩ hpre ⟨ev, hf⟩ hstep
          unfold evictClobber at hstep
          split at hstep
          · cases hstep
          · next t1 ht1 =>
            have key : Ev cx C P i s1 t1 ∧ ∀ q ∈ pre ++ [p], t1.inPreg q = none := by
              unfold evictClobber1 at ht1
              split at ht1
              · next hn =>
                cases ht1
                refine ⟨ev, ?_⟩
                intro q hq
                rcases List.mem_append.mp hq with hq | hq
                · exact hf q hq
                · simp only [List.mem_singleton] at hq; subst hq; exact hn
              · split at ht1
                · cases ht1
                · next t2 ht2 =>
                  cases ht1
                  have ev' := evictOne_spec he ev.inv ev.scrOk ht2
                  refine ⟨ev.trans ev', ?_⟩
                  intro q hq
                  by_cases e : q = p
                  · subst e; exact set1_same _ _ _
                  · rcases List.mem_append.mp hq with hq | hq
                    · rcases ev'.inPreg q with e' | e'
                      · rw [e']; exact hf q hq
                      · exact e'
                    · simp only [List.mem_singleton] at hq; exact absurd hq e
            obtain ⟨k1, k2⟩ := key
            split at hstep
            · split at hstep
              · cases hstep; exact ⟨k1.count _, k2⟩
              · cases hstep; exact ⟨k1, k2⟩
            · cases hstep; exact ⟨k1, k2⟩
    · rintro pre ⟨k, o, p⟩ post t t' hpre ⟨ev, hf⟩ hstep
      have old : ∀ {k' o' p'}, (k', o', p') ∈ pre ++ [(k, o, p)] → (k', o', p') ∈ pre ∨ (k' = k ∧ o' = o ∧ p' = p) := by
        intro k' o' p' h
        simpa using h
      unfold evictFixed at hstep
      dsimp only at hstep
      split at hstep
      · next hn =>
        cases hstep
        refine ⟨ev, ?_⟩
        intro k' o' p' hm
        rcases old hm with hm | ⟨rfl, rfl, rfl⟩
        · exact hf k' o' p' hm
        · exact .inl hn
      · next v hv =>
        split at hstep
        · next e =>
          cases hstep
          refine ⟨ev, ?_⟩
          intro k' o' p' hm
          rcases old hm with hm | ⟨rfl, rfl, rfl⟩
          · exact hf k' o' p' hm
          · rw [hv, e]; exact .inr rfl
        · split at hstep
          · cases hstep
          · next t2 ht2 =>
            cases hstep
            have ev' := evictOne_spec he ev.inv ev.scrOk ht2
            refine ⟨ev.trans ev', ?_⟩
            intro k' o' p' hm
            by_cases e : p' = p
            · subst e; exact .inl (set1_same _ _ _)
            · rcases old hm with hm | ⟨rfl, rfl, rfl⟩
              · rcases ev'.inPreg p' with e' | e'
                · rw [e']; exact hf k' o' p' hm
                · exact .inl e'
              · exact absurd rfl e

/-- Locations of the operands with a fixed register. -/
def loc0 (cx : Cx) (i : Nat) (k : Nat) : Option Allocation :=
  match (cx.f.operands i)[k]? with
  | none => none
  | some o =>
    match o.asFixedNonallocatable with
    | some _ => none
    | none => (fixedOf o).map Allocation.reg

theorem loc0_iff {cx : Cx} {i k : Nat} {a : Allocation} : loc0 cx i k = some a ↔
    ∃ o p, (k, o, p) ∈ fixedOps cx i ∧ o.asFixedNonallocatable = none ∧ a = Allocation.reg p := by
  unfold loc0
  split
  · next h =>
    constructor
    · intro h; cases h
    · rintro ⟨o, p, h1, _⟩
      rw [(mem_fixedOps.mp h1).1] at h; cases h
  · next o ho =>
    split
    · next q hq =>
      constructor
      · intro h; cases h
      · rintro ⟨o', p, h1, h2, _⟩
        rw [(mem_fixedOps.mp h1).1] at ho; cases ho
        rw [h2] at hq; cases hq
    · next hna =>
      have hf : ∀ p, fixedOf o = some p ↔ o.constraint = .FixedReg p := by
        intro p
        unfold fixedOf
        split
        · next q hq => rw [hq]; constructor <;> (intro h; cases h; rfl)
        · next hq => constructor
                     · intro h; cases h
                     · intro h; exact absurd h (hq p)
      rw [Option.map_eq_some_iff]
      constructor
      · rintro ⟨p, h1, h2⟩
        exact ⟨o, p, mem_fixedOps.mpr ⟨ho, (hf p).mp h1⟩, hna, h2.symm⟩
      · rintro ⟨o', p, h1, h2, h3⟩
        obtain ⟨q1, q2⟩ := mem_fixedOps.mp h1
        rw [ho] at q1; cases q1
        exact ⟨p, (hf p).mpr q2, h3.symm⟩

/-- Which registers are held anywhere. -/
def Held (s : FS) (w : Nat) : Prop := s.alloc w ≠ Allocation.none

theorem PD_false (cx : Cx) (i : Nat) (P0 : Nat → Prop) : PD cx i P0 (fun _ => False) = P0 := by
  funext w
  refine propext ⟨?_, .inl⟩
  rintro (h | ⟨_, _, _, h, _⟩)
  · exact h
  · exact h.elim

/-- The state before the operands are processed. -/
theorem start_spec {cx C} {P0 : Nat → Prop} {s s' : FS} {b i : Nat} (he : EnvOk cx) (hi : IOk cx C i) (I : Inv cx C P0 s)
    (hr : s.reused = fun _ => none) (hal : ∀ k, s.allocs i k = Allocation.none) {s1 : FS} {nc : Nat}
    (h1 : instSetup cx s i = .ok (s1, nc)) (h2 : instEvict cx s1 nc i = .ok s') :
    Stp cx C P0 i (Held s) s' (loc0 cx i) (fun _ => False) ∧
      (∀ w, s'.alloc w = s.alloc w ∨ ∃ n, s'.slot w = some n ∧ s'.alloc w = stk n) ∧
      (∀ v n, s.slot v = some n → s'.slot v = some n) ∧ s'.allocs = s.allocs ∧
      ∃ E : List Edit, s'.edits = E.map (fun e => (pt i .After, e)) ++ s.edits ∧
        ∀ {Val : Type} (F : Nat → Option Nat) (L1 L2 : Nat → Prop) (V : Nat → Val) (A : Allocation → Val), FOk F s' →
          Sat F s' L1 L2 (fun _ _ => False) V A → Sat F s L1 L2 (fun _ _ => False) V (execE E A) := by
  unfold instSetup at h1
  split at h1
  · cases h1
  · next t1 ht1 =>
    split at h1
    · cases h1
    · next t2 seen nc' ht2 =>
      cases h1
      obtain ⟨sm1, hE1, hL1, hlr1, hre⟩ := count_spec hi (s := reset cx s) hr ht1
      have rs := reserve_all he hi (by rw [hlr1]; exact I.lru) ht2
      dsimp only at rs
      have sm := sm1.trans rs.same
      have eAE : t1.availE = cx.initAvail := hE1
      have eAL : t1.availL = cx.initAvail := hL1
      have eal : t2.alloc = s.alloc := sm.alloc
      have esl : t2.slot = s.slot := sm.slot
      have ein : t2.inPreg = s.inPreg := sm.inPreg
      have I2 : Inv cx C P0 { t2 with availL := t2.availL.intersectFrom (cx.clob i).invert } :=
        I.of_eq eal ein esl sm.numSlots sm.live rs.lru
      have hsc : t2.scratch = cx.env.scratch := sm.scratch
      have S2 : ScrOk cx { t2 with availL := t2.availL.intersectFrom (cx.clob i).invert } := by
        intro c r hrr
        have hrr : cx.env.scratch c = some r := by rw [← hsc]; exact hrr
        have hni := he.scratch_init hrr
        refine ⟨fun h => hni ?_, fun h => hni ?_, he.scratch_stack hrr, ?_⟩
        · rw [← eAE]; exact rs.availE r h
        · rw [← eAL]; exact rs.availL r ((cont_inter _ _ _).mp h).1
        · intro w hw
          exact hni (I.inAvail w r (by rw [← eal]; exact hw))
      obtain ⟨ev, hfix, hclob⟩ := instEvict_spec he I2 S2 h2
      have haw : ∀ w, s'.alloc w = s.alloc w ∨ ∃ n, s'.slot w = some n ∧ s'.alloc w = stk n := by
        intro w
        rcases ev.alloc w with e | e
        · exact .inl (by rw [e]; exact congrFun eal w)
        · exact .inr e
      have hslot : ∀ v n, s.slot v = some n → s'.slot v = some n := by
        intro v n h
        exact ev.slot v n (by rw [← esl] at h; exact h)
      have hheld : ∀ w, Held s w → s'.alloc w ≠ Allocation.none := by
        intro w hw
        rcases haw w with e | ⟨n, e1, e2⟩
        · rw [e]; exact hw
        · rw [e2]; exact stk_ne_none (ev.inv.slot29 e1)
      have hEsub : ∀ p, s'.availE.contains p = true → t2.availE.contains p = true := ev.availE
      have hLsub : ∀ p, s'.availL.contains p = true → t2.availL.contains p = true ∧ ¬ (cx.clob i).contains p = true := by
        intro p hp
        obtain ⟨q1, q2⟩ := (cont_inter _ _ _).mp (ev.availL p hp)
        exact ⟨q1, (cont_invert _ _).mp q2⟩
      have hlp : ∀ {k o p}, (cx.f.operands i)[k]? = some o → loc0 cx i k = some (Allocation.reg p) →
          (k, o, p) ∈ fixedOps cx i ∧ o.asFixedNonallocatable = none := by
        intro k o p ho hl
        obtain ⟨o', p', q1, q2, q3⟩ := loc0_iff.mp hl
        cases reg_inj q3
        have := (mem_fixedOps.mp q1).1
        rw [ho] at this; cases this
        exact ⟨q1, q2⟩
      have hph : ∀ (k : Nat) o p, (cx.f.operands i)[k]? = some o → loc0 cx i k = some (Allocation.reg p) →
          (occE o → ¬ s'.availE.contains p = true) ∧ (occL o → ¬ s'.availL.contains p = true) := by
        intro k o p ho hl
        obtain ⟨q1, q2⟩ := rs.ph k o p (hlp ho hl).1
        exact ⟨fun h q => q1 h (hEsub p q), fun h q => q2 h (hLsub p q).1⟩
      have hEL : ∀ o : Op, occE o ∨ occL o := by
        intro o
        unfold occE occL
        cases o.kind <;> simp
      have hinit : ∀ {k o p}, (k, o, p) ∈ fixedOps cx i → o.asFixedNonallocatable = none → cx.initAvail.contains p = true := by
        intro k o p hm hn
        obtain ⟨q1, q2⟩ := rs.init k o p hm hn
        rcases hEL o with h | h
        · rw [← eAE]; exact q1 h
        · rw [← eAL]; exact q2 h
      refine ⟨⟨by rw [PD_false]; exact ev.inv, ev.scrOk, ?_, fun _ _ _ _ h => h.elim, fun _ _ _ h => h.elim⟩,
        haw, hslot, by rw [ev.allocs]; exact sm.allocs, ?_⟩
      · rw [PD_false]
        refine
          { phase := hph
            real := ?_
            compat := ?_
            through := ?_
            fresh := ?_
            defFree := fun _ _ _ _ h => h.elim
            scr := ?_
            clobL := fun p hp => (hLsub p hp).2
            initE := fun p hp => by rw [← eAE]; exact rs.availE p (hEsub p hp)
            initL := fun p hp => by rw [← eAL]; exact rs.availL p (hLsub p hp).1
            clobW := ?_
            locDone := fun _ _ h => h.elim
            undone := ?_
            hasLoc := fun _ _ h => h.elim
            useLive := fun _ _ h => h.elim
            wLive := fun w hw => .inl (hheld w hw)
            fixedLoc := fun k o p ho hn hc => loc0_iff.mpr ⟨o, p, mem_fixedOps.mpr ⟨ho, hc⟩, hn, rfl⟩
            reused := ?_
            defReg := ?_
            lateClob := fun hf k o p ho hk hp hl => hf k o p ho hk hp (mem_fixedOps.mp (hlp ho hl).1).2
            locOp := ?_
            na := ?_ }
        · intro k o a ho hl
          obtain ⟨o', p, q1, q2, rfl⟩ := loc0_iff.mp hl
          obtain ⟨g1, g2⟩ := mem_fixedOps.mp q1
          rw [ho] at g1; cases g1
          exact .inl ⟨p, rfl, hinit q1 q2, hi.fixCls k o p ho q2 g2⟩
        · intro k k' o o' p ho ho' hne hl hl'
          obtain ⟨q1, q2⟩ := hlp ho hl
          obtain ⟨q3, q4⟩ := hlp ho' hl'
          exact .inr (.inl (rs.compat k o k' o' p q1 q3 hne q2 q4))
        · intro w p k o _ ha ho hl
          obtain ⟨x, hx, hxv⟩ := ev.inv.reg_in ha
          rcases hfix k o p (hlp ho hl).1 with e | e
          · rw [hx] at e; cases e
          · rw [hx] at e; cases e; exact hxv
        · intro w p hW _ ha
          refine absurd ?_ hW
          rcases haw w with e | ⟨n, e1, e2⟩
          · show s.alloc w ≠ _
            rw [← e, ha]; exact reg_ne_none p
          · rw [e2] at ha; exact absurd ha.symm (reg_ne_stk (ev.inv.slot29 e1))
        · intro c r hrr k hl
          obtain ⟨o, p, q1, q2, q3⟩ := loc0_iff.mp hl
          cases reg_inj q3
          rcases ev.scratch c with e | ⟨r', e1, e2, e3⟩
          · rw [e] at hrr
            have hrr : cx.env.scratch c = some r := by rw [← hsc]; exact hrr
            exact he.scratch_init hrr (hinit q1 q2)
          · rw [e1] at hrr; cases hrr
            obtain ⟨g1, g2⟩ := rs.ph k o r q1
            rcases hEL o with h | h
            · exact g1 h e2
            · exact g2 h ((cont_inter _ _ _).mp e3).1
        · intro w p _ ha hc
          obtain ⟨x, hx, _⟩ := ev.inv.reg_in ha
          rw [hclob p hc] at hx; cases hx
        · intro k _
          refine ⟨?_, ?_⟩
          · intro a hl
            obtain ⟨o, p, q1, _⟩ := loc0_iff.mp hl
            exact ⟨o, p, mem_fixedOps.mp q1⟩
          · rw [ev.allocs]
            show t2.allocs i k = _
            rw [sm.allocs]
            exact hal k
        · intro j k
          rw [ev.reused]
          show t2.reused j = some k ↔ _
          rw [rs.reused]
          exact hre j k
        · intro k o a ho hk hl
          obtain ⟨o', p, q1, q2, rfl⟩ := loc0_iff.mp hl
          obtain ⟨g1, g2⟩ := mem_fixedOps.mp q1
          rw [ho] at g1; cases g1
          refine ⟨p, rfl, ?_⟩
          rcases hi.defC k o ho hk with h | ⟨q, h, h'⟩ | ⟨_, _, h, _⟩
          · rw [g2] at h; cases h
          · rw [g2] at h; cases h; exact h'
          · rw [g2] at h; cases h
        · intro k a hl
          obtain ⟨o, p, q1, _⟩ := loc0_iff.mp hl
          exact ⟨o, (mem_fixedOps.mp q1).1⟩
        · intro k o p ho hn
          refine ⟨?_, fun h => h.elim⟩
          unfold loc0
          rw [ho]
          dsimp only
          rw [hn]
      · obtain ⟨E, hE, hS⟩ := ev.sat
        refine ⟨E, by rw [hE]; exact congrArg _ sm.edits, ?_⟩
        intro Val F L1 L2 V A hF hSat
        exact (hS F L1 L2 V A hF hSat).of_eq eal.symm

end Fast
end Regalloc
