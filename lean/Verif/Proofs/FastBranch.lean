import Verif.Proofs.FastResolve

/-
Single-pass allocator: branch arguments (`process_branch`).
-/
namespace Regalloc
namespace Fast
open Exec

section
variable {cx : Cx} {C : Nat → VReg} {P : Nat → Prop} {i : Nat}

/-- The moves of all classes. -/
theorem resolveAll_spec (he : EnvOk cx) {pm : PMoves} {s s' : FS} {av av' : PRegSet} {cs : List RegClass} (hcs : cs.Nodup)
    (I : Inv cx C P s) (S : ScrOk cx s)
    (hav : ∀ p, av.contains p = true → s.availE.contains p = true ∧ ∀ w, s.alloc w ≠ Allocation.reg p)
    (hm : ∀ c, SlotMoves s (pm c)) (hu : ∀ c, Moves.UniqueWriters (pm c))
    (hx : ∀ c c' m m', c ≠ c' → m ∈ pm c → m' ∈ pm c' → m.dst ≠ m'.src ∧ m.dst ≠ m'.dst)
    (h : cs.foldlM (resolveClass cx i pm) (s, av) = .ok (s', av')) :
    Inv cx C P s' ∧ s' = { s with edits := s'.edits, numSlots := s'.numSlots } ∧ s.numSlots ≤ s'.numSlots ∧
      ∃ E : List Edit, s'.edits = E.map (fun e => (pt i .Before, e)) ++ s.edits ∧
        ∀ {Val : Type} (A : Allocation → Val),
          (∀ c ∈ cs, ∀ m ∈ pm c, execE E A m.dst = A m.src) ∧
          (∀ l N, s'.numSlots ≤ N → (∀ c ∈ cs, ∀ m ∈ pm c, m.dst ≠ l) → Un s N l → execE E A l = A l) := by
  have H := foldlM_inv (fun pre (t : FS × PRegSet) => Inv cx C P t.1 ∧
      t.1 = { s with edits := t.1.edits, numSlots := t.1.numSlots } ∧ s.numSlots ≤ t.1.numSlots ∧
      (∀ p, t.2.contains p = true → av.contains p = true) ∧
      ∃ E : List Edit, t.1.edits = E.map (fun e => (pt i .Before, e)) ++ s.edits ∧
        ∀ {Val : Type} (A : Allocation → Val),
          (∀ c ∈ pre, ∀ m ∈ pm c, execE E A m.dst = A m.src) ∧
          (∀ l N, t.1.numSlots ≤ N → (∀ c ∈ pre, ∀ m ∈ pm c, m.dst ≠ l) → Un s N l → execE E A l = A l)) ?_ ?_ h
  · obtain ⟨h1, h2, h3, _, h4⟩ := H
    exact ⟨h1, h2, h3, h4⟩
  · exact ⟨I, rfl, Nat.le_refl _, fun _ h => h, [], rfl, fun A => ⟨by simp, fun _ _ _ _ _ => rfl⟩⟩
  · rintro pre c post ⟨t, at'⟩ ⟨t2, at2⟩ hpre ⟨I1, h1, h2, h3, E1, hE1, hS1⟩ hstep
    dsimp only at I1 h1 h2 h3 hE1 hS1 ⊢
    have hc : c ∉ pre := by
      rw [hpre] at hcs
      intro hc
      exact (List.nodup_append.mp hcs).2.2 c hc c (by simp) rfl
    have eA : t.alloc = s.alloc := by rw [h1]
    have eSl : t.slot = s.slot := by rw [h1]
    have eAv : t.availE = s.availE := by rw [h1]
    have St : ScrOk cx t := by
      refine S.mono (by rw [h1]) ?_ ?_ ?_
      · rw [h1]; exact fun _ h => h
      · rw [h1]; exact fun _ h => h
      · rw [h1]; exact fun _ _ h => h
    have hmt : SlotMoves t (pm c) := by
      unfold SlotMoves
      rw [eSl]; exact hm c
    obtain ⟨I2, g1, g2, g3, E2, hE2, hS2⟩ := resolveClass_spec he (st := (t, at')) (st' := (t2, at2)) I1 St
      (by intro p hp; dsimp only at hp ⊢; rw [eAv, eA]; exact hav p (h3 p hp)) hmt (hu c) hstep
    dsimp only at I2 g1 g2 g3 hE2 hS2
    have slotUn : ∀ v n N, s.slot v = some n → Un s N (stk n) := by
      intro v n N hv
      have hv' := I.slotLt v n hv
      have := I.numLe
      exact .inr ⟨n, rfl, by omega, .inl hv'⟩
    have unT : ∀ l N, t2.numSlots ≤ N → Un s N l → Un t t2.numSlots l := by
      rintro l N hN (⟨p, w, e1, e2⟩ | ⟨n, e1, e2, e3⟩)
      · exact .inl ⟨p, w, e1, by rw [eA]; exact e2⟩
      · exact .inr ⟨n, e1, e2, by omega⟩
    refine ⟨I2, ?_, by omega, fun p hp => h3 p (g3 p hp), E2 ++ E1, by rw [hE2, hE1, List.map_append, List.append_assoc], ?_⟩
    · rw [g1, h1]
    · intro Val A
      rw [execE_append]
      obtain ⟨a1, a2⟩ := hS2 A
      obtain ⟨b1, b2⟩ := hS1 (execE E2 A)
      refine ⟨?_, ?_⟩
      · intro c' hc' m hmm
        rcases List.mem_append.mp hc' with hc' | hc'
        · rw [b1 c' hc' m hmm]
          obtain ⟨v, w, nv, nw, hv, hw, e1, e2⟩ := hm c' m hmm
          have hne : c ≠ c' := fun e => hc (e ▸ hc')
          refine a2 _ (fun m' hm' => (hx c c' m' m hne hm' hmm).1) ?_
          rw [e1]
          exact unT _ t2.numSlots (Nat.le_refl _) (slotUn v nv _ hv)
        · simp only [List.mem_singleton] at hc'
          subst hc'
          obtain ⟨v, w, nv, nw, hv, hw, e1, e2⟩ := hm c' m hmm
          rw [b2 m.dst t.numSlots (Nat.le_refl _) (fun c hcp m' hm' =>
            (hx c c' m' m (fun e => hc (e ▸ hcp)) hm' hmm).2) (by rw [e2]; exact slotUn w nw _ hw)]
          exact a1 m hmm
      · intro l N hN hl hun
        rw [b2 l N (by omega) (fun c hc m hmm => hl c (by simp [hc]) m hmm) hun]
        exact a2 l (fun m hmm => hl c (by simp) m hmm) (unT l N hN hun)

/-- What handling branch arguments leaves alone. -/
structure BFr (s s' : FS) : Prop where
  alloc : ∀ w, s'.alloc w = s.alloc w ∨ ∃ n, s'.slot w = some n ∧ s'.alloc w = stk n
  slot : ∀ v n, s.slot v = some n → s'.slot v = some n
  availE : ∀ p, s'.availE.contains p = true → s.availE.contains p = true
  availL : ∀ p, s'.availL.contains p = true → s.availL.contains p = true
  allocs : s'.allocs = s.allocs
  reused : s'.reused = s.reused

theorem BFr.refl (s : FS) : BFr s s := ⟨fun _ => .inl rfl, fun _ _ h => h, fun _ h => h, fun _ h => h, rfl, rfl⟩

theorem BFr.trans {s1 s2 s3 : FS} (h : BFr s1 s2) (g : BFr s2 s3) : BFr s1 s3 := by
  refine ⟨?_, fun v n e => g.slot v n (h.slot v n e), fun p e => h.availE p (g.availE p e),
    fun p e => h.availL p (g.availL p e), g.allocs.trans h.allocs, g.reused.trans h.reused⟩
  intro w
  rcases g.alloc w with e | e
  · rcases h.alloc w with e' | ⟨n, e1, e2⟩
    · exact .inl (e.trans e')
    · exact .inr ⟨n, g.slot _ _ e1, e.trans e2⟩
  · exact .inr e

theorem Fr.bfr {s s' : FS} (h : Fr s s') : BFr s s' :=
  ⟨fun w => (h.alloc w).imp_right (fun x => x.2), h.slot, h.availE, h.availL, h.allocs, h.reused⟩

/-- A register now lives in its slot. -/
theorem Inv.setStk {s s' : FS} (I : Inv cx C P s) {v n : Nat} (hs : s.slot v = some n) (hal : s.alloc v ≠ Allocation.none)
    (h1 : s' = { s with alloc := set1 s.alloc v (stk n) }) : Inv cx C P s' := by
  subst h1
  have hn29 := I.slot29 hs
  have hstk := stk_ne_none hn29
  refine ⟨?_, ?_, ?_, ?_, ?_, I.inC, I.inCls, I.slotLt, I.slotInj, I.numLe, ?_, I.lru⟩
  · intro w
    dsimp only
    by_cases e : w = v
    · subst e; rw [set1_same]; exact .inr (.inr ⟨n, hs, rfl⟩)
    · rw [set1_ne _ _ e]; exact I.alloc w
  · intro w q
    dsimp only
    by_cases e : w = v
    · subst e; rw [set1_same]; intro h; exact absurd h.symm (reg_ne_stk hn29)
    · rw [set1_ne _ _ e]; exact I.inAvail w q
  · intro q x hq r
    dsimp only
    by_cases e : x.vreg = v
    · rw [e, set1_same]; intro h; exact absurd h.symm (reg_ne_stk hn29)
    · rw [set1_ne _ _ e]; exact I.inReg q x hq r
  · intro q x hq
    dsimp only
    by_cases e : x.vreg = v
    · rw [e, set1_same]; exact .inl hstk
    · rw [set1_ne _ _ e]; exact I.inLive q x hq
  · intro w hw q
    dsimp only
    by_cases e : w = v
    · subst e; rw [set1_same]; intro h; exact absurd h.symm (reg_ne_stk hn29)
    · rw [set1_ne _ _ e]; exact I.noReg w hw q
  · obtain ⟨l, h1, h2, h3⟩ := I.live
    refine ⟨l, h1, ?_, ?_⟩
    · intro x hx
      dsimp only
      by_cases e : x.vreg = v
      · rw [e, set1_same]; exact ⟨by rw [← e]; exact (h2 x hx).1, hstk⟩
      · rw [set1_ne _ _ e]; exact h2 x hx
    · intro w
      dsimp only
      by_cases e : w = v
      · intro _
        subst e
        exact h3 _ hal
      · rw [set1_ne _ _ e]; exact h3 w

/-- A register that was not live so far now lives in its slot. -/
theorem Inv.insStk {s s' : FS} (I : Inv cx C P s) {v : VReg} {n : Nat} {lv : VRegSet} (hs : s.slot v.vreg = some n)
    (hC : v = C v.vreg) (hlt : v.vreg < cx.f.numVregs) (hmax : cx.f.numVregs ≤ VReg.MAX)
    (hal : s.alloc v.vreg = Allocation.none) (hlv : s.live.insert? v = some lv)
    (h1 : s' = { s with live := lv, alloc := set1 s.alloc v.vreg (stk n) }) : Inv cx C P s' := by
  subst h1
  have hn29 := I.slot29 hs
  have hstk := stk_ne_none hn29
  refine ⟨?_, ?_, ?_, ?_, ?_, I.inC, I.inCls, I.slotLt, I.slotInj, I.numLe, ?_, I.lru⟩
  · intro w
    dsimp only
    by_cases e : w = v.vreg
    · subst e; rw [set1_same]; exact .inr (.inr ⟨n, hs, rfl⟩)
    · rw [set1_ne _ _ e]; exact I.alloc w
  · intro w q
    dsimp only
    by_cases e : w = v.vreg
    · subst e; rw [set1_same]; intro h; exact absurd h.symm (reg_ne_stk hn29)
    · rw [set1_ne _ _ e]; exact I.inAvail w q
  · intro q x hq r
    dsimp only
    by_cases e : x.vreg = v.vreg
    · rw [e, set1_same]; intro h; exact absurd h.symm (reg_ne_stk hn29)
    · rw [set1_ne _ _ e]; exact I.inReg q x hq r
  · intro q x hq
    dsimp only
    by_cases e : x.vreg = v.vreg
    · rw [e, set1_same]; exact .inl hstk
    · rw [set1_ne _ _ e]; exact I.inLive q x hq
  · intro w hw q
    dsimp only
    by_cases e : w = v.vreg
    · subst e; rw [set1_same]; intro h; exact absurd h.symm (reg_ne_stk hn29)
    · rw [set1_ne _ _ e]; exact I.noReg w hw q
  · obtain ⟨l, q1, q2, q3⟩ := I.live
    have hnl : v.vreg ∉ l.map VReg.vreg := by
      intro hm
      obtain ⟨x, hx, hxv⟩ := List.mem_map.mp hm
      have := (q2 x hx).2
      rw [hxv] at this; exact this hal
    have hinv : v ≠ VReg.invalid := by
      intro e
      have : VReg.invalid.vreg = VReg.MAX := by decide
      rw [e, this] at hlt
      omega
    obtain ⟨s4, h4, I4⟩ := VRegSet.insert_ok q1 (v := v) ⟨hlt, hinv, hnl⟩
    rw [hlv] at h4; cases h4
    refine ⟨v :: l, I4, ?_, ?_⟩
    · intro x hx
      dsimp only
      rcases List.mem_cons.mp hx with rfl | hx
      · rw [set1_same]; exact ⟨hC, hstk⟩
      · have hne : x.vreg ≠ v.vreg := fun e => hnl (e ▸ List.mem_map_of_mem hx)
        rw [set1_ne _ _ hne]; exact q2 x hx
    · intro w hw
      dsimp only at hw
      by_cases e : w = v.vreg
      · exact .inl ⟨v, by simp, e.symm⟩
      · rw [set1_ne _ _ e] at hw
        rcases q3 w hw with ⟨x, hx, h⟩ | h
        · exact .inl ⟨x, by simp [hx], h⟩
        · exact .inr h

theorem argToSlot_spec (he : EnvOk cx) {s s' : FS} {v : VReg} {n : Nat} (I : Inv cx C P s) (S : ScrOk cx s)
    (hs : s.slot v.vreg = some n) (hC : v = C v.vreg) (hlt : v.vreg < cx.f.numVregs) (hmax : cx.f.numVregs ≤ VReg.MAX)
    (h : argToSlot cx s i v n = .ok s') :
    Inv cx C P s' ∧ ScrOk cx s' ∧ BFr s s' ∧ s'.slot v.vreg = some n ∧ s'.alloc v.vreg = stk n ∧
      (∀ w, s.alloc w ≠ Allocation.none → s'.alloc w ≠ Allocation.none) ∧
      ∃ E : List Edit, s'.edits = E.map (fun e => (pt i .Before, e)) ++ s.edits ∧
        ∀ {Val : Type} (F : Nat → Option Nat) (L1 L2 : Nat → Prop) (V : Nat → Val) (A : Allocation → Val),
          FOk F s' → Sat F s' L1 L2 (fun _ _ => False) V A → Sat F s L1 L2 (fun _ _ => False) V (execE E A) := by
  have hn29 := I.slot29 hs
  have hstk := stk_ne_none hn29
  unfold argToSlot at h
  dsimp only at h
  have scr : ∀ t : FS, Inv cx C P t → ScrOk cx t → t.slot v.vreg = some n →
      ∀ t', t'.scratch = t.scratch → t'.availE = t.availE → t'.availL = t.availL →
        t'.alloc = set1 t.alloc v.vreg (stk n) → ScrOk cx t' := by
    intro t _ St _ t' e1 e2 e3 e4
    refine St.mono e1 (by rw [e2]; exact fun _ h => h) (by rw [e3]; exact fun _ h => h) ?_
    intro w r hw
    rw [e4] at hw
    by_cases e : w = v.vreg
    · subst e; rw [set1_same] at hw; exact absurd hw.symm (reg_ne_stk hn29)
    · rwa [set1_ne _ _ e] at hw
  split at h
  · next hnone =>
    have hnone := (isNone_iff I).mp hnone
    split at h
    · cases h
    · next lv hlv =>
      have h := (Except.ok.inj h).symm
      have hI := I.insStk hs hC hlt hmax hnone hlv h
      have ea : s'.alloc = set1 s.alloc v.vreg (stk n) := by rw [h]
      have hav : s'.alloc v.vreg = stk n := by rw [ea, set1_same]
      have haw : ∀ w, w ≠ v.vreg → s'.alloc w = s.alloc w := fun w hw => by rw [ea, set1_ne _ _ hw]
      refine ⟨hI, scr s I S hs s' (by rw [h]) (by rw [h]) (by rw [h]) ea, ?_, by rw [h]; exact hs, hav, ?_, [], by rw [h]; rfl, ?_⟩
      · refine ⟨?_, by rw [h]; exact fun _ _ h => h, by rw [h]; exact fun _ h => h, by rw [h]; exact fun _ h => h,
          by rw [h], by rw [h]⟩
        intro w
        by_cases e : w = v.vreg
        · subst e; exact .inr ⟨n, by rw [h]; exact hs, hav⟩
        · exact .inl (haw w e)
      · intro w hw
        by_cases e : w = v.vreg
        · subst e; exact absurd hnone hw
        · rw [haw w e]; exact hw
      · intro Val F L1 L2 V A hF hS
        refine ⟨?_, hS.slot, hS.extra⟩
        intro w hw hn
        have e : w ≠ v.vreg := by rintro rfl; exact hn hnone
        have := hS.here w hw (by rw [haw w e]; exact hn)
        rw [haw w e] at this
        exact this
  · next hnone =>
    have hnone : s.alloc v.vreg ≠ Allocation.none := fun e => hnone ((isNone_iff I).mpr e)
    by_cases hne : s.alloc v.vreg = stk n
    · rw [if_neg (by simp [hne])] at h
      dsimp only at h
      have h := Except.ok.inj h
      have : set1 s.alloc v.vreg (stk n) = s.alloc := by
        funext w
        by_cases e : w = v.vreg
        · subst e; rw [set1_same, hne]
        · rw [set1_ne _ _ e]
      rw [this] at h
      have h : s = s' := h
      subst h
      exact ⟨I, S, BFr.refl _, hs, hne, fun _ h => h, [], rfl, fun F L1 L2 V A _ hS => hS⟩
    · rw [if_pos hne] at h
      split at h
      · cases h
      · next s1 h1 =>
        have h := (Except.ok.inj h).symm
        obtain ⟨p, hp⟩ : ∃ p, s.alloc v.vreg = Allocation.reg p := by
          rcases I.alloc v.vreg with h' | ⟨q, x, h', _⟩ | ⟨m, hm, h'⟩
          · exact absurd h' hnone
          · exact ⟨q, h'⟩
          · rw [hs] at hm; cases hm; exact absurd h' hne
        obtain ⟨I1, S1, fr, q1, q2, E, hE, hM⟩ := addMove_spec he h1 I S (fun _ _ => .inl ⟨p, hp⟩)
        have hs1 := fr.slot _ _ hs
        have ha1 : s1.alloc v.vreg ≠ Allocation.none := by
          rcases fr.alloc v.vreg with e | ⟨_, m, hm, e⟩
          · rw [e]; exact hnone
          · rw [e]; exact stk_ne_none (I1.slot29 hm)
        have hI := I1.setStk hs1 ha1 h
        have ea : s'.alloc = set1 s1.alloc v.vreg (stk n) := by rw [h]
        have hav : s'.alloc v.vreg = stk n := by rw [ea, set1_same]
        have haw : ∀ w, w ≠ v.vreg → s'.alloc w = s1.alloc w := fun w hw => by rw [ea, set1_ne _ _ hw]
        refine ⟨hI, scr s1 I1 S1 hs1 s' (by rw [h]) (by rw [h]) (by rw [h]) ea, ?_, by rw [h]; exact hs1, hav, ?_, E,
          by rw [h]; exact hE, ?_⟩
        · refine fr.bfr.trans ⟨?_, by rw [h]; exact fun _ _ h => h, by rw [h]; exact fun _ h => h, by rw [h]; exact fun _ h => h,
            by rw [h], by rw [h]⟩
          intro w
          by_cases e : w = v.vreg
          · subst e; exact .inr ⟨n, by rw [h]; exact hs1, hav⟩
          · exact .inl (haw w e)
        · intro w hw
          by_cases e : w = v.vreg
          · subst e; rw [hav]; exact hstk
          · rw [haw w e]
            rcases fr.alloc w with e | ⟨_, m, hm, e⟩
            · rw [e]; exact hw
            · rw [e]; exact stk_ne_none (I1.slot29 hm)
        · intro Val F L1 L2 V A hF hS
          have hF1 : FOk F s1 := hF.of_eq (by rw [h])
          -- leave the register itself out, then put it back
          have hS1 : Sat F s1 (fun w => L1 w ∧ w ≠ v.vreg) L2 (fun _ _ => False) V A := by
            refine ⟨?_, hS.slot, hS.extra⟩
            rintro w ⟨hw, e⟩ hn
            have := hS.here w hw (by rw [haw w e]; exact hn)
            rwa [haw w e] at this
          obtain ⟨hS2, hd⟩ := hM F _ L2 (fun _ _ => False) V A hF1 hS1 (fun _ _ h => h.elim)
            (by
              rintro w ⟨hw, e⟩ h2
              rw [hp] at h2
              exact absurd (I.reg_uniq h2 hp) e)
            (by
              intro w m hw hm e
              rw [hp] at e
              exact absurd e.symm (reg_ne_stk (hF.lt _ _ hm)))
            (fun _ _ h => h.elim)
          refine ⟨?_, hS2.slot, hS2.extra⟩
          intro w hw hn
          by_cases e : w = v.vreg
          · subst e
            rw [hd]
            have := hS.here _ hw (by rw [hav]; exact hstk)
            rwa [hav] at this
          · exact hS2.here w ⟨hw, e⟩ hn

theorem getSpillslot_bfr (he : EnvOk cx) {s s' : FS} {v : VReg} {n : Nat} (h : getSpillslot cx s v = .ok (n, s'))
    (I : Inv cx C P s) (S : ScrOk cx s) : Inv cx C P s' ∧ ScrOk cx s' ∧ BFr s s' ∧ s'.slot v.vreg = some n ∧
      s'.alloc = s.alloc ∧ s'.edits = s.edits := by
  obtain ⟨I1, h1, h2, h3, _⟩ := getSpillslot_spec he h I
  have ea : s'.alloc = s.alloc := by rw [h2]
  refine ⟨I1, ?_, ⟨fun w => .inl (congrFun ea w), h3, ?_, ?_, by rw [h2], by rw [h2]⟩, h1, ea, by rw [h2]⟩
  · refine S.mono (by rw [h2]) (by rw [h2]; exact fun _ h => h) (by rw [h2]; exact fun _ h => h) (by rw [ea]; exact fun _ _ h => h)
  · rw [h2]; exact fun _ h => h
  · rw [h2]; exact fun _ h => h

/-- The function's registers named in branch `i` are the canonical ones, and branch
instructions define nothing. -/
structure BrOk (cx : Cx) (C : Nat → VReg) (b i : Nat) : Prop where
  max : cx.f.numVregs ≤ VReg.MAX
  noDef : ∀ o ∈ cx.f.operands i, o.kind = .Use
  arg : ∀ x ∈ branchPairs cx.f b i, x.1 = C x.1.vreg ∧ x.1.vreg < cx.f.numVregs
  par : ∀ x ∈ branchPairs cx.f b i, ∀ p, x.2 = some p → p = C p.vreg ∧ vcls p = vcls x.1
  uniq : ∀ x ∈ branchPairs cx.f b i, ∀ y ∈ branchPairs cx.f b i, ∀ p, x.2 = some p → y.2 = some p → x = y

/-- The moves collected for the pairs `l`. -/
def PmOk (s : FS) (l : List (VReg × Option VReg)) (pm : PMoves) : Prop :=
  (∀ c m, m ∈ pm c → ∃ v p nv np, (v, some p) ∈ l ∧ vcls v = c ∧ s.slot v.vreg = some nv ∧ s.slot p.vreg = some np ∧
    m = ⟨stk nv, stk np, some v⟩) ∧
  ∀ v p?, (v, p?) ∈ l → ∃ p nv np, p? = some p ∧ s.slot v.vreg = some nv ∧ s.slot p.vreg = some np ∧
    (⟨stk nv, stk np, some v⟩ : Move (Option VReg)) ∈ pm (vcls v)

theorem branchArgs_spec (he : EnvOk cx) {b : Nat} {s s' : FS} {pm : PMoves} (hb : BrOk cx C b i) (I : Inv cx C P s)
    (S : ScrOk cx s) (h : (branchPairs cx.f b i).foldlM (branchArg cx i) (s, fun _ => []) = .ok (s', pm)) :
    Inv cx C P s' ∧ ScrOk cx s' ∧ BFr s s' ∧ PmOk s' (branchPairs cx.f b i) pm ∧
      (∀ x ∈ branchPairs cx.f b i, ∀ n, s'.slot x.1.vreg = some n → s'.alloc x.1.vreg = stk n) ∧
      (∀ w, s.alloc w ≠ Allocation.none → s'.alloc w ≠ Allocation.none) ∧
      ∃ E : List Edit, s'.edits = E.map (fun e => (pt i .Before, e)) ++ s.edits ∧
        ∀ {Val : Type} (F : Nat → Option Nat) (L1 L2 : Nat → Prop) (V : Nat → Val) (A : Allocation → Val),
          FOk F s' → Sat F s' L1 L2 (fun _ _ => False) V A → Sat F s L1 L2 (fun _ _ => False) V (execE E A) := by
  refine foldlM_inv (fun pre (t : FS × PMoves) => Inv cx C P t.1 ∧ ScrOk cx t.1 ∧ BFr s t.1 ∧ PmOk t.1 pre t.2 ∧
      (∀ x ∈ pre, ∀ n, t.1.slot x.1.vreg = some n → t.1.alloc x.1.vreg = stk n) ∧
      (∀ w, s.alloc w ≠ Allocation.none → t.1.alloc w ≠ Allocation.none) ∧
      ∃ E : List Edit, t.1.edits = E.map (fun e => (pt i .Before, e)) ++ s.edits ∧
        ∀ {Val : Type} (F : Nat → Option Nat) (L1 L2 : Nat → Prop) (V : Nat → Val) (A : Allocation → Val),
          FOk F t.1 → Sat F t.1 L1 L2 (fun _ _ => False) V A → Sat F s L1 L2 (fun _ _ => False) V (execE E A)) ?_ ?_ h
  · exact ⟨I, S, BFr.refl _, ⟨by simp, by simp⟩, by simp, fun _ h => h, [], rfl, fun F L1 L2 V A _ hS => hS⟩
  · rintro pre ⟨v, p?⟩ post ⟨t, pmt⟩ ⟨t', pmt'⟩ hpre ⟨I1, S1, f1, m1, a1, n1, E1, hE1, hS1⟩ hstep
    dsimp only at I1 S1 f1 m1 a1 n1 hE1 hS1 ⊢
    have hmem : (v, p?) ∈ branchPairs cx.f b i := by rw [hpre]; simp
    obtain ⟨hC, hlt⟩ := hb.arg _ hmem
    dsimp only at hC hlt
    unfold branchArg at hstep
    dsimp only at hstep
    rw [if_neg (by
      simp only [List.any_eq_true, decide_eq_true_eq, not_exists, not_and]
      intro o ho _ hk
      rw [hb.noDef o ho] at hk; cases hk)] at hstep
    split at hstep
    · cases hstep
    · next p =>
      split at hstep
      · cases hstep
      · next np s2 h2 =>
        split at hstep
        · cases hstep
        · next nv s3 h3 =>
          split at hstep
          · cases hstep
          · next s4 h4 =>
            have hstep := Except.ok.inj hstep
            obtain ⟨rfl, rfl⟩ := Prod.mk.inj hstep
            obtain ⟨I2, S2, f2, sl2, ea2, ed2⟩ := getSpillslot_bfr he h2 I1 S1
            obtain ⟨I3, S3, f3, sl3, ea3, ed3⟩ := getSpillslot_bfr he h3 I2 S2
            obtain ⟨I4, S4, f4, sl4, ea4, n4, E4, hE4, hS4⟩ := argToSlot_spec he I3 S3 sl3 hC hlt hb.max h4
            have f14 := f2.trans (f3.trans f4)
            refine ⟨I4, S4, f1.trans f14, ⟨?_, ?_⟩, ?_, ?_, E4 ++ E1, ?_, ?_⟩
            · intro c m hm
              by_cases e : c = vcls v
              · subst e
                rw [set1_same] at hm
                rcases List.mem_append.mp hm with hm | hm
                · obtain ⟨v', p', nv', np', q1, q2, q3, q4, q5⟩ := m1.1 _ m hm
                  exact ⟨v', p', nv', np', by simp [q1], q2, f14.slot _ _ q3, f14.slot _ _ q4, q5⟩
                · simp only [List.mem_singleton] at hm
                  exact ⟨v, p, nv, np, by simp, rfl, sl4, f4.slot _ _ (f3.slot _ _ sl2), hm⟩
              · rw [set1_ne _ _ e] at hm
                obtain ⟨v', p', nv', np', q1, q2, q3, q4, q5⟩ := m1.1 _ m hm
                exact ⟨v', p', nv', np', by simp [q1], q2, f14.slot _ _ q3, f14.slot _ _ q4, q5⟩
            · intro v' p' hm
              rcases List.mem_append.mp hm with hm | hm
              · obtain ⟨q, nv', np', q1, q2, q3, q4⟩ := m1.2 v' p' hm
                refine ⟨q, nv', np', q1, f14.slot _ _ q2, f14.slot _ _ q3, ?_⟩
                by_cases e : vcls v' = vcls v
                · rw [e, set1_same, ← e]; exact List.mem_append.mpr (.inl q4)
                · rw [set1_ne _ _ e]; exact q4
              · simp only [List.mem_singleton, Prod.mk.injEq] at hm
                obtain ⟨rfl, rfl⟩ := hm
                exact ⟨p, nv, np, rfl, sl4, f4.slot _ _ (f3.slot _ _ sl2), by rw [set1_same]; simp⟩
            · intro x hx n hn
              rcases List.mem_append.mp hx with hx | hx
              · obtain ⟨q, nv', np', q1, q2, q3, q4⟩ := m1.2 x.1 x.2 hx
                have := f14.slot _ _ q2
                rw [hn] at this; cases this
                have hat := a1 x hx n q2
                rcases f14.alloc x.1.vreg with e | ⟨m, e1, e2⟩
                · rw [e]; exact hat
                · rw [hn] at e1; cases e1; exact e2
              · simp only [List.mem_singleton] at hx
                subst hx
                dsimp only at hn ⊢
                rw [sl4] at hn; cases hn; exact ea4
            · intro w hw
              refine n4 w ?_
              rw [ea3, ea2]; exact n1 w hw
            · rw [hE4, ed3, ed2, hE1, List.map_append, List.append_assoc]
            · intro Val F L1 L2 V A hF hS
              rw [execE_append]
              refine hS1 F L1 L2 V _ (hF.of_mono f14.slot) ?_
              have := hS4 F L1 L2 V A hF hS
              exact this.of_eq (by rw [ea3, ea2])

/-- `process_branch`: before it, the parameters' slots get the arguments' values. -/
theorem processBranch_spec (he : EnvOk cx) {b : Nat} {s s' : FS} (hb : BrOk cx C b i) (I : Inv cx C P s)
    (S : ScrOk cx s)
    (hav : ∀ w p, s.alloc w = Allocation.reg p → ¬ (s.availE.contains p = true ∧ s.availL.contains p = true))
    (h : processBranch cx s b i = .ok s') :
    Inv cx C P s' ∧ BFr s s' ∧ (∀ x ∈ branchPairs cx.f b i, ∃ n, s'.slot x.1.vreg = some n ∧ s'.alloc x.1.vreg = stk n) ∧
      (∀ x ∈ branchPairs cx.f b i, ∃ p n, x.2 = some p ∧ s'.slot p.vreg = some n) ∧
      (∀ w, s.alloc w ≠ Allocation.none → s'.alloc w ≠ Allocation.none) ∧
      ∃ E : List Edit, s'.edits = E.map (fun e => (pt i .Before, e)) ++ s.edits ∧
        ∀ {Val : Type} (F : Nat → Option Nat) (L1 L2 L1' L2' : Nat → Prop) (V V' : Nat → Val) (A : Allocation → Val),
          FOk F s' → (∀ w n, F w = some n → n < slotBound ∧ (s'.slot w = some n ∨ s'.numSlots ≤ n)) →
          (∀ w, L1 w → (∀ x ∈ branchPairs cx.f b i, ∀ p, x.2 = some p → p.vreg ≠ w) → L1' w ∧ V' w = V w) →
          (∀ w, L2 w → (∀ x ∈ branchPairs cx.f b i, ∀ p, x.2 = some p → p.vreg ≠ w) → L2' w ∧ V' w = V w) →
          (∀ w, L1 w ∨ L2 w → ∀ x ∈ branchPairs cx.f b i, ∀ p, x.2 = some p → p.vreg = w →
            L1' x.1.vreg ∧ V' w = V x.1.vreg ∧ ∀ q, s.alloc w ≠ Allocation.reg q) →
          Sat F s' L1' L2' (fun _ _ => False) V A → Sat F s L1 L2 (fun _ _ => False) V' (execE E A) := by
  unfold processBranch at h
  split at h
  · cases h
  · next s1 pm h1 =>
    obtain ⟨I1, S1, f1, ⟨m1, m2⟩, a1, n1, E1, hE1, hS1⟩ := branchArgs_spec he hb I S h1
    split at h
    · cases h
    · next s2 av2 h2 =>
      have h := Except.ok.inj h
      subst h
      have hreg : ∀ w p, s1.alloc w = Allocation.reg p → s.alloc w = Allocation.reg p := by
        intro w p hw
        rcases f1.alloc w with e | ⟨n, e1, e2⟩
        · rw [← e]; exact hw
        · rw [e2] at hw; exact absurd hw.symm (reg_ne_stk (I1.slot29 e1))
      have hx : ∀ c c' m m', c ≠ c' → m ∈ pm c → m' ∈ pm c' → m.dst ≠ m'.src ∧ m.dst ≠ m'.dst := by
        intro c c' m m' hne hm hm'
        obtain ⟨v, p, nv, np, q1, q2, q3, q4, rfl⟩ := m1 c m hm
        obtain ⟨v', p', nv', np', q1', q2', q3', q4', rfl⟩ := m1 c' m' hm'
        have hp := hb.par _ q1 p rfl
        have hp' := hb.par _ q1' p' rfl
        have hv' := (hb.arg _ q1').1
        dsimp only at hp hp' hv' ⊢
        refine ⟨?_, ?_⟩
        · intro e
          have := stk_inj (I1.slot29 q4) (I1.slot29 q3') e
          subst this
          have := I1.slotInj _ _ _ q4 q3'
          have hpv : p = v' := by rw [hp.1, hv', this]
          rw [hpv] at hp
          exact hne (by rw [← q2, ← q2', ← hp.2])
        · intro e
          have := stk_inj (I1.slot29 q4) (I1.slot29 q4') e
          subst this
          have := I1.slotInj _ _ _ q4 q4'
          have hpv : p = p' := by rw [hp.1, hp'.1, this]
          subst hpv
          exact hne (by rw [← q2, ← q2', ← hp.2, ← hp'.2])
      have hu : ∀ c, Moves.UniqueWriters (pm c) := by
        intro c m hm m' hm' e
        obtain ⟨v, p, nv, np, q1, q2, q3, q4, rfl⟩ := m1 c m hm
        obtain ⟨v', p', nv', np', q1', q2', q3', q4', rfl⟩ := m1 c m' hm'
        have := stk_inj (I1.slot29 q4) (I1.slot29 q4') e
        subst this
        have := I1.slotInj _ _ _ q4 q4'
        have hpv : p = p' := by rw [(hb.par _ q1 p rfl).1, (hb.par _ q1' p' rfl).1, this]
        subst hpv
        have := hb.uniq _ q1 _ q1' p rfl rfl
        cases this
        rw [q3] at q3'; cases q3'
        rfl
      obtain ⟨I2, heq, hnum, E2, hE2, hS2⟩ := resolveAll_spec he (s := s1) (s' := s2) (by decide) I1 S1 (by
          intro p hp
          rw [cont_inter] at hp
          refine ⟨hp.1, ?_⟩
          intro w hw
          exact hav w p (hreg w p hw) ⟨f1.availE _ hp.1, f1.availL _ hp.2⟩) (by
          intro c m hm
          obtain ⟨v, p, nv, np, q1, q2, q3, q4, rfl⟩ := m1 c m hm
          exact ⟨v.vreg, p.vreg, nv, np, q3, q4, rfl, rfl⟩) hu hx h2
      have ea : s2.alloc = s1.alloc := by rw [heq]
      have es : s2.slot = s1.slot := by rw [heq]
      have f2 : BFr s1 s2 := ⟨fun w => .inl (congrFun ea w), by rw [es]; exact fun _ _ h => h,
        by rw [heq]; exact fun _ h => h, by rw [heq]; exact fun _ h => h, by rw [heq], by rw [heq]⟩
      refine ⟨I2, f1.trans f2, ?_, ?_, by rw [ea]; exact n1, E2 ++ E1, by rw [hE2, hE1, List.map_append, List.append_assoc], ?_⟩
      · intro x hx
        obtain ⟨p, nv, np, q1, q2, q3, q4⟩ := m2 x.1 x.2 hx
        rw [es, ea]
        exact ⟨nv, q2, a1 x hx nv q2⟩
      · intro x hx
        obtain ⟨p, nv, np, q1, q2, q3, q4⟩ := m2 x.1 x.2 hx
        rw [es]
        exact ⟨p, np, q1, q3⟩
      · intro Val F L1 L2 L1' L2' V V' A hF hfresh c1 c2 c3 hS
        rw [execE_append]
        have hF1 : FOk F s1 := hF.of_eq es.symm
        refine hS1 F L1 L2 V' _ hF1 ?_
        obtain ⟨e1, e2⟩ := hS2 A
        have hcs : ∀ c : RegClass, c ∈ [RegClass.Int, .Float, .Vector] := by intro c; cases c <;> simp
        -- a parameter's slot gets the argument
        have hpar : ∀ x ∈ branchPairs cx.f b i, ∀ p, x.2 = some p → L1' x.1.vreg → ∀ np, s1.slot p.vreg = some np →
            execE E2 A (stk np) = V x.1.vreg := by
          intro x hx p hp hL np hnp
          obtain ⟨p', nv, np', q1, q2, q3, q4⟩ := m2 x.1 x.2 hx
          rw [hp] at q1; cases q1
          rw [hnp] at q3; cases q3
          have := e1 _ (hcs _) _ q4
          dsimp only at this
          rw [this]
          have h3 := hS.here x.1.vreg hL (by rw [ea, a1 x hx nv q2]; exact stk_ne_none (I1.slot29 q2))
          rwa [ea, a1 x hx nv q2] at h3
        have hdst : ∀ l, (∀ n, l = stk n → ∀ w, F w = some n → ∀ x ∈ branchPairs cx.f b i, ∀ p, x.2 = some p → p.vreg ≠ w) →
            ((∃ p, l = Allocation.reg p) ∨ ∃ n w, l = stk n ∧ F w = some n) →
            ∀ c ∈ [RegClass.Int, .Float, .Vector], ∀ m ∈ pm c, m.dst ≠ l := by
          intro l hl hl' c _ m hm e
          obtain ⟨v, p, nv, np, q1, q2, q3, q4, rfl⟩ := m1 c m hm
          dsimp only at e
          exact hl np e.symm p.vreg (hF1.ext _ _ q4) _ q1 p rfl rfl
        have keep : ∀ w n, F w = some n → (∀ x ∈ branchPairs cx.f b i, ∀ p, x.2 = some p → p.vreg ≠ w) →
            execE E2 A (stk n) = A (stk n) := by
          intro w n hn hw
          obtain ⟨hb1, hb2⟩ := hfresh w n hn
          refine e2 _ s2.numSlots (Nat.le_refl _) (hdst _ ?_ (.inr ⟨n, w, rfl, hn⟩)) (.inr ⟨n, rfl, hb1, ?_⟩)
          · intro m hm w' hw'
            have := stk_inj (hF.lt _ _ hn) (hF.lt _ _ hw') hm
            subst this
            have := hF.inj _ _ _ hn hw'
            subst this
            exact hw
          · rcases hb2 with hb2 | hb2
            · rw [es] at hb2; exact .inl (I1.slotLt _ _ hb2)
            · exact .inr hb2
        refine ⟨?_, ?_, fun _ _ h => h.elim⟩
        · intro w hw hn
          by_cases hp : ∀ x ∈ branchPairs cx.f b i, ∀ p, x.2 = some p → p.vreg ≠ w
          · obtain ⟨g1, g2⟩ := c1 w hw hp
            rw [g2]
            have h3 := hS.here w g1 (by rw [ea]; exact hn)
            rw [ea] at h3
            rw [← h3]
            rcases I1.alloc w with h' | ⟨q, x, h', _⟩ | ⟨m, hm, h'⟩
            · exact absurd h' hn
            · rw [h']
              refine e2 _ s2.numSlots (Nat.le_refl _) (hdst _ ?_ (.inl ⟨q, rfl⟩)) (.inl ⟨q, w, rfl, h'⟩)
              intro m hm w' hw'
              exact absurd hm (reg_ne_stk (hF.lt _ _ hw'))
            · rw [h']
              exact keep w m (hF1.ext _ _ hm) hp
          · simp only [Classical.not_forall, Classical.not_not] at hp
            obtain ⟨x, hx, p, hp, rfl⟩ := hp
            obtain ⟨g1, g2, g3⟩ := c3 p.vreg (.inl hw) x hx p hp rfl
            rw [g2]
            rcases I1.alloc p.vreg with h' | ⟨q, y, h', _⟩ | ⟨m, hm, h'⟩
            · exact absurd h' hn
            · exact absurd (hreg _ _ h') (g3 q)
            · rw [h']; exact hpar x hx p hp g1 m hm
        · intro w n hw hn
          by_cases hp : ∀ x ∈ branchPairs cx.f b i, ∀ p, x.2 = some p → p.vreg ≠ w
          · obtain ⟨g1, g2⟩ := c2 w hw hp
            rw [keep w n hn hp, g2]
            exact hS.slot w n g1 hn
          · simp only [Classical.not_forall, Classical.not_not] at hp
            obtain ⟨x, hx, p, hp, rfl⟩ := hp
            obtain ⟨g1, g2, _⟩ := c3 p.vreg (.inr hw) x hx p hp rfl
            rw [g2]
            obtain ⟨p', nv, np, q1, q2, q3, q4⟩ := m2 x.1 x.2 hx
            rw [hp] at q1; cases q1
            have := hF1.ext _ _ q3
            rw [hn] at this; cases this
            exact hpar x hx p hp g1 n q3

end

end Fast
end Regalloc
