import Verif.Proofs.FastDebug

/-
Single-pass allocator: a register that is live across a block boundary is reported in its slot.
-/
namespace Regalloc
namespace Fast
open Exec Debug

variable {cx : Cx} {C : Nat → VReg} {P : Nat → Prop}

/-- The parameters of a block. -/
theorem paramsD (he : EnvOk cx) {b : Nat} {st st' : FS × Dbg} (I : Inv cx C P st.1)
    (hnd : ((cx.f.params b).map VReg.vreg).Nodup) (hnP : ∀ v ∈ cx.f.params b, ¬ P v.vreg)
    (h : (cx.f.params b).foldlM (stepD (reloadParam cx b) (dbgParam cx b)) (reset cx st.1, st.2) = .ok st') :
    (∀ w, (∀ v ∈ cx.f.params b, v.vreg ≠ w) → st'.2 w = st.2 w) ∧
    (∀ v ∈ cx.f.params b, st.1.alloc v.vreg ≠ Allocation.none → ∃ n, st'.1.slot v.vreg = some n ∧ (st'.2 v.vreg).2.2 = stk n) ∧
    Inv cx C (fun w => P w ∨ ∃ v ∈ cx.f.params b, v.vreg = w) st'.1 := by
  have key := foldlM_inv (fun pre t => Inv cx C (fun w => P w ∨ ∃ v ∈ pre, v.vreg = w) t.1 ∧ ScrOk cx t.1 ∧
      Rld (cx.f.insns b).1 (reset cx st.1) t.1 (fun w => ∃ v ∈ pre, v.vreg = w) ∧
      (∀ w, (∀ v ∈ pre, v.vreg ≠ w) → t.2 w = st.2 w) ∧
      ∀ v ∈ pre, st.1.alloc v.vreg ≠ Allocation.none → ∃ n, t.1.slot v.vreg = some n ∧ (t.2 v.vreg).2.2 = stk n)
    ⟨(reset_inv I).congrP (by simp), reset_scr he I, Rld.refl, fun _ _ => rfl, by simp⟩ ?_ h
  · exact ⟨key.2.2.2.1, key.2.2.2.2, key.1⟩
  · rintro pre v post t t' hl ⟨It, St, Rt, d1, d2⟩ hf
    have hvm : v ∈ cx.f.params b := by rw [hl]; simp
    have hpre : ¬ ∃ x ∈ pre, x.vreg = v.vreg := by
      rintro ⟨x, hx, e⟩
      rw [hl, List.map_append, List.map_cons] at hnd
      have := (List.nodup_append.mp hnd).2.2 x.vreg (List.mem_map_of_mem hx) v.vreg (by simp)
      exact this e
    have hA : ¬ (P v.vreg ∨ ∃ x ∈ pre, x.vreg = v.vreg) := by
      rintro (hp | hx)
      · exact hnP v hvm hp
      · exact hpre hx
    have hB : ∀ w, (P w ∨ ∃ x ∈ pre ++ [v], x.vreg = w) ↔ (P w ∨ ∃ x ∈ pre, x.vreg = w) ∨ w = v.vreg := by
      intro w
      simp only [List.mem_append, List.mem_singleton]
      constructor
      · rintro (hp | ⟨x, hx | rfl, e⟩)
        · exact .inl (.inl hp)
        · exact .inl (.inr ⟨x, hx, e⟩)
        · exact .inr e.symm
      · rintro ((hp | ⟨x, hx, e⟩) | e)
        · exact .inl hp
        · exact .inr ⟨x, .inl hx, e⟩
        · exact .inr ⟨v, .inr rfl, e.symm⟩
    unfold stepD at hf
    cases h2 : reloadParam cx b t.1 v with
    | error e => rw [h2] at hf; cases hf
    | ok s1 =>
      rw [h2] at hf
      have hf := Except.ok.inj hf
      subst hf
      obtain ⟨a1, a2, a3, a4⟩ := reloadParam_spec he It St hA hB h2
      have hdw : ∀ w, w ≠ v.vreg → dbgParam cx b t.2 t.1 s1 v w = t.2 w := by
        intro w hw
        unfold dbgParam
        split
        · rfl
        · exact set1_ne _ _ hw
      refine ⟨a1, a2, Rt.trans a3 ?_ ?_, ?_, ?_⟩
      · rintro w ⟨x, hx, e⟩; exact ⟨x, List.mem_append_left _ hx, e⟩
      · rintro w rfl; exact ⟨v, by simp, rfl⟩
      · intro w hw
        show dbgParam cx b t.2 t.1 s1 v w = _
        rw [hdw w (fun e => hw v (by simp) e.symm)]
        exact d1 w (fun x hx => hw x (List.mem_append_left _ hx))
      · intro x hx hal
        rcases List.mem_append.mp hx with hx | hx
        · obtain ⟨n, e1, e2⟩ := d2 x hx hal
          refine ⟨n, a3.slot _ _ e1, ?_⟩
          show (dbgParam cx b t.2 t.1 s1 v x.vreg).2.2 = _
          rw [hdw _ (fun e => hpre ⟨x, hx, e⟩)]
          exact e2
        · rw [List.mem_singleton] at hx
          subst hx
          have hal' : t.1.alloc x.vreg ≠ Allocation.none := (Rt.mono It hal).resolve_right hpre
          obtain ⟨n, hn⟩ := a4 hal'
          refine ⟨n, hn, ?_⟩
          show (dbgParam cx b t.2 t.1 s1 x x.vreg).2.2 = _
          unfold dbgParam
          rw [if_neg hal', set1_same, hn]

/-- Read in a block without being defined by an instruction there. -/
def Across (cx : Cx) (w : Nat) : Prop := ∃ b, b < cx.f.numBlocks ∧ ReadIn cx b w ∧ ∀ i ∈ cx.f.blockInsts b, ¬ DDi cx i w

section
variable (he : EnvOk cx) (hf : FuncOk cx.f C)
include he hf

theorem readOrder {b b' w : Nat} (hb : b < cx.f.numBlocks) (hb' : b' < cx.f.numBlocks) (hr : ReadIn cx b' w)
    (hd : DefIn cx [b] w) : b ≤ b' := by
  have H := fnOk he hf
  rcases hr with ⟨i', hi', hu'⟩ | ⟨hbr, x, hx, e⟩
  · exact H.useOrder b' b i' w hb' hb hi' hu' hd
  · obtain ⟨k, s, j, v, hs, hv, rfl⟩ := mem_pairs.mp hx
    have hlast := lastInst_mem hf hb'
    have fin : ∀ i, (cx.f.insns b).1 ≤ i → i ≤ cx.f.lastInst b' → b ≤ b' := by
      intro i h1 h2
      rcases Nat.lt_or_ge b' b with h3 | h3
      · have h4 := insns_mono hf h3 hb
        rw [mem_blockInsts] at hlast
        omega
      · exact h3
    obtain ⟨b0, hb0, hd⟩ := hd
    rw [List.mem_singleton] at hb0
    subst hb0
    rcases hd with ⟨p, hp, ep⟩ | ⟨i, hi, hd⟩
    · have := hf.arg_after_param b0 b' k s hb hb' hs p hp v (List.mem_of_getElem? hv) (ep.trans e.symm)
      omega
    · obtain ⟨v', hv', e'⟩ := DDi_iff.mp hd
      have := hf.arg_after_def i b' k s (inst_lt hf hb hi) hb' hs v' hv' v (List.mem_of_getElem? hv) (e'.trans e.symm)
      rw [mem_blockInsts] at hi
      exact fin i hi.1 (by omega)

/-- Registers live across a block boundary and defined in the blocks processed so far are
reported in their slots. -/
def DbgOk (cx : Cx) (bs : List Nat) (t : FS) (d : Dbg) : Prop :=
  ∀ w, Across cx w → DefIn cx bs w → ∃ n, t.slot w = some n ∧ (d w).2.2 = stk n

theorem blockD {b : Nat} {bs : List Nat} {st st' : FS × Dbg} {eb ea : Nat → List Edit}
    (hbn : b < cx.f.numBlocks) (hbs : ∀ b', b' ∈ bs ↔ b < b' ∧ b' < cx.f.numBlocks) (G : Glob cx C bs st.1 eb ea)
    (D : DbgOk cx bs st.1 st.2) (h : allocBlockD cx st b = .ok st') : DbgOk cx (b :: bs) st'.1 st'.2 := by
  have H := fnOk he hf
  have hnin : ∀ i ∈ cx.f.blockInsts b, ∀ b' ∈ bs, i ∉ cx.f.blockInsts b' := by
    intro i hi b' hb' hi'
    have := H.apart b b' i hbn ((hbs b').mp hb').2 hi hi'
    have := ((hbs b').mp hb').1
    omega
  have hB : BOk cx C (DefIn cx bs) b := by
    refine ⟨H.ne b hbn, H.iok b hbn, H.last b hbn, H.br b hbn, ?_, H.defUse b hbn, H.defDef b hbn⟩
    rintro i hi w hud hd
    obtain ⟨b', hb', hd⟩ := hd.single
    have hb'' := (hbs b').mp hb'
    rcases hud with hu | hd'
    · have := H.useOrder b b' i w hbn hb''.2 hi hu hd; omega
    · have := H.defOnce b b' w hbn hb''.2 ⟨b, by simp, .inr ⟨i, hi, hd'⟩⟩ hd; omega
  unfold allocBlockD at h
  split at h
  · cases h
  next stm hm =>
  have ht : (cx.f.blockInsts b).reverse.foldlM (allocInst cx b) st.1 = .ok stm.1 := by
    rw [← foldlM_fst (allocInstD_fst (cx := cx) (b := b)) _ st, hm]; rfl
  have hre : reloadAtBegin cx stm.1 b = .ok st'.1 := by rw [← reloadAtBeginD_fst, h]; rfl
  obtain ⟨ebB, eaB, Bd⟩ := body_spec (K := fun w => (¬ ∃ i ∈ cx.f.blockInsts b, DDi cx i w) ∨ st.1.alloc w ≠ Allocation.none)
    he hB G.bb (fun i hi => G.allocs i (hnin i hi))
    (fun i hi w hd hK => hK.resolve_left (fun hn => hn ⟨i, hi, hd⟩)) G.inv G.reused ht
  have hP' : ∀ w, DefIn cx (b :: bs) w ↔ (DefIn cx bs w ∨ ∃ i ∈ cx.f.blockInsts b, DDi cx i w) ∨
      ∃ v ∈ cx.f.params b, v.vreg = w := by
    intro w
    unfold DefIn
    simp only [List.mem_cons]
    constructor
    · rintro ⟨b', rfl | hb', h | h⟩
      · exact .inr h
      · exact .inl (.inr h)
      · exact .inl (.inl ⟨b', hb', .inl h⟩)
      · exact .inl (.inl ⟨b', hb', .inr h⟩)
    · rintro ((⟨b', hb', h⟩ | h) | h)
      · exact ⟨b', .inr hb', h⟩
      · exact ⟨b, .inl rfl, .inr h⟩
      · exact ⟨b, .inl rfl, .inl h⟩
  have hnb : ∀ w, DefIn cx [b] w → ¬ DefIn cx bs w := by
    intro w h1 h2
    obtain ⟨b', hb', hd⟩ := h2.single
    have hb'' := (hbs b').mp hb'
    have := H.defOnce b b' w hbn hb''.2 h1 hd
    omega
  have hpar : ∀ v ∈ cx.f.params b, ¬ (DefIn cx bs v.vreg ∨ ∃ i ∈ cx.f.blockInsts b, DDi cx i v.vreg) := by
    rintro v hv (hd | ⟨i, hi, hd⟩)
    · exact hnb _ ⟨b, by simp, .inl ⟨v, hv, rfl⟩⟩ hd
    · exact H.parDef b hbn v hv i hi hd
  obtain ⟨I', bb', R, hsl⟩ := reloadAtBegin_spec (P' := DefIn cx (b :: bs)) he Bd.inv (H.parNodup b hbn) hpar hP' (H.pred b hbn) hre
  unfold reloadAtBeginD at h
  split at h
  · cases h
  next s1 d1 h1 =>
  split at h
  · cases h
  next s2 h2 =>
  have h := Except.ok.inj h
  subst h
  obtain ⟨pd1, pd2, -⟩ := paramsD he Bd.inv (H.parNodup b hbn) hpar h1
  dsimp only at pd1 pd2 R hsl ⊢
  have hs1 : (cx.f.params b).foldlM (reloadParam cx b) (reset cx stm.1) = .ok s1 := by
    rw [← foldlM_fst (stepD_fst (reloadParam cx b) (dbgParam cx b)) _ (reset cx stm.1, stm.2), h1]; rfl
  obtain ⟨nsI, hI⟩ := instsD (C := C) he (l := (cx.f.blockInsts b).reverse) (fun i hi => H.iok b hbn i (List.mem_reverse.mp hi)) hm
  intro w hac hdef
  obtain ⟨b', hb', hrd, hnd⟩ := hac
  rcases (hP' w).mp hdef with (hd | ⟨i, hi, hd⟩) | ⟨v, hv, rfl⟩
  · -- defined in a later block
    obtain ⟨n, e1, e2⟩ := D w ⟨b', hb', hrd, hnd⟩ hd
    refine ⟨n, R.slot _ _ (Bd.slot _ _ e1), ?_⟩
    rw [pd1 w (fun v hv e => hpar v hv (.inl (by rw [e]; exact hd)))]
    rw [(hI w).1 (fun i hi => ⟨fun hu => hB.pend i (List.mem_reverse.mp hi) w (.inl hu) hd,
      fun hu => hB.pend i (List.mem_reverse.mp hi) w (.inr hu) hd⟩)]
    exact e2
  · -- defined by an instruction of this block
    have hdb : DefIn cx [b] w := ⟨b, by simp, .inr ⟨i, hi, hd⟩⟩
    have hle := readOrder he hf hbn hb' hrd hdb
    have hne : b ≠ b' := by rintro rfl; exact hnd i hi hd
    have hal : st.1.alloc w ≠ Allocation.none :=
      (G.live b' ((hbs b').mpr ⟨by omega, hb'⟩) w hrd).resolve_right (hnb w hdb)
    obtain ⟨n, e1, _⟩ := (G.bb w).resolve_left hal
    refine ⟨n, R.slot _ _ (Bd.slot _ _ e1), ?_⟩
    rw [pd1 w (fun v hv e => hpar v hv (.inr ⟨i, hi, by rw [e]; exact hd⟩))]
    refine (hI w).2 n (Bd.slot _ _ e1) (G.inv.slotLt w n e1) (.inr ?_)
    obtain ⟨l1, l2, hl⟩ := List.append_of_mem (List.mem_reverse.mpr hi)
    refine ⟨l1, i, l2, hl, hd, ?_⟩
    intro j hj hu
    have hjm : j ∈ cx.f.blockInsts b := by
      rw [← List.mem_reverse, hl]; exact List.mem_append_right _ hj
    have hlt := H.defUse b hbn i hi j hjm w hd hu
    have hsort : (cx.f.blockInsts b).Pairwise (· < ·) := List.pairwise_lt_range'
    have hl' : cx.f.blockInsts b = l2.reverse ++ i :: l1.reverse := by
      have := congrArg List.reverse hl
      simpa using this
    rcases List.mem_cons.mp hj with rfl | hj
    · omega
    · rw [hl', List.pairwise_append] at hsort
      have := hsort.2.2 j (List.mem_reverse.mpr hj) i List.mem_cons_self
      omega
  · -- a parameter of this block
    have hdb : DefIn cx [b] v.vreg := ⟨b, by simp, .inl ⟨v, hv, rfl⟩⟩
    have hle := readOrder he hf hbn hb' hrd hdb
    have hal : stm.1.alloc v.vreg ≠ Allocation.none := by
      by_cases e : b' = b
      · subst e
        rcases hrd with ⟨i, hi, hu⟩ | ⟨hbr, x, hx, e⟩
        · exact (Bd.live i hi _ hu).resolve_right (fun ⟨j, hj, hd⟩ => H.parDef b' hbn v hv j hj hd)
        · have := Bd.args hbr x hx
          rw [e] at this
          exact this.resolve_right (fun ⟨j, hj, hd⟩ => H.parDef b' hbn v hv j hj hd)
      · have hal : st.1.alloc v.vreg ≠ Allocation.none :=
          (G.live b' ((hbs b').mpr ⟨by omega, hb'⟩) _ hrd).resolve_right (hnb _ hdb)
        exact (Bd.allocMono _ hal).resolve_right (fun ⟨j, hj, hd⟩ => H.parDef b hbn v hv j hj hd)
    obtain ⟨n, e1, e2⟩ := pd2 v hv hal
    exact ⟨n, hsl s1 hs1 _ _ e1, e2⟩

theorem runEnvD_spec {t : FS} {d : Dbg} (h : runEnvD cx = .ok (t, d)) :
    ∃ eb ea, Glob cx C (List.range cx.f.numBlocks) t eb ea ∧ DbgOk cx (List.range cx.f.numBlocks) t d := by
  unfold runEnvD at h
  have H := fnOk he hf
  have h0 : ([] : List Nat).foldlM (allocBlock cx) (FS.init cx) = .ok (FS.init cx, Dbg.init).1 ∧
      ∃ eb ea, Glob cx C ([] : List Nat).reverse (FS.init cx, Dbg.init).1 eb ea ∧
      DbgOk cx ([] : List Nat).reverse (FS.init cx, Dbg.init).1 (FS.init cx, Dbg.init).2 :=
    ⟨rfl, _, _, init_glob H, fun w _ ⟨b, hb, _⟩ => absurd hb (by simp)⟩
  have key := foldlM_inv (fun pre (t : FS × Dbg) => pre.foldlM (allocBlock cx) (FS.init cx) = .ok t.1 ∧
      ∃ eb ea, Glob cx C pre.reverse t.1 eb ea ∧ DbgOk cx pre.reverse t.1 t.2)
    h0 (by
    rintro pre b post s s' hl ⟨hrun, eb, ea, G, D⟩ hs
    rw [List.reverse_append, List.reverse_singleton, List.singleton_append]
    have hl' : List.range cx.f.numBlocks = post.reverse ++ b :: pre.reverse := by
      have := congrArg List.reverse hl
      simpa using this
    have hpw : (List.range cx.f.numBlocks).Pairwise (· < ·) := List.pairwise_lt_range
    rw [hl', List.pairwise_append] at hpw
    have hbn : b < cx.f.numBlocks := by rw [← List.mem_range, hl']; simp
    have hbs : ∀ b', b' ∈ pre.reverse ↔ b < b' ∧ b' < cx.f.numBlocks := by
      intro b'
      constructor
      · intro hb'
        refine ⟨(List.pairwise_cons.mp hpw.2.1).1 b' hb', ?_⟩
        rw [← List.mem_range, hl']
        simp only [List.mem_append, List.mem_cons]
        exact .inr (.inr hb')
      · rintro ⟨h1, h2⟩
        rw [← List.mem_range, hl'] at h2
        simp only [List.mem_append, List.mem_cons] at h2
        rcases h2 with h2 | rfl | h2
        · have := hpw.2.2 b' h2 b (by simp)
          omega
        · omega
        · exact h2
    have hs' : allocBlock cx s.1 b = .ok s'.1 := by rw [← allocBlockD_fst, hs]; rfl
    obtain ⟨eb', ea', G'⟩ := glob_step H hbn hbs G (atEnd_of hl hrun) hs'
    exact ⟨foldlM_snoc hrun hs', eb', ea', G', blockD he hf hbn hbs G D hs⟩) h
  rw [List.reverse_reverse] at key
  exact key.2

end

end Fast
end Regalloc
