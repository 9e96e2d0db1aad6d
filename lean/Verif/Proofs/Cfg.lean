import Verif.Model.Cfg
import Verif.Proofs.Domtree

namespace Regalloc.Cfg

theorem markInsns_spec (b : Nat) (is : List Nat) (m : List (Option Nat)) (hlt : ∀ i ∈ is, i < m.length) :
    ∃ m', markInsns b is m = some m' ∧ m'.length = m.length ∧
      (∀ i ∈ is, m'[i]? = some (some b)) ∧ ∀ i, i ∉ is → m'[i]? = m[i]? := by
  induction is generalizing m with
  | nil => exact ⟨m, rfl, rfl, by simp, by simp⟩
  | cons i is ih =>
    have hi := hlt i (by simp)
    unfold markInsns
    rw [if_pos hi]
    obtain ⟨m', h1, h2, h3, h4⟩ := ih (m.set i (some b)) (by
      intro j hj; rw [List.length_set]; exact hlt j (List.mem_cons_of_mem _ hj))
    refine ⟨m', h1, by rw [h2, List.length_set], ?_, ?_⟩
    · intro j hj
      by_cases hji : j ∈ is
      · exact h3 j hji
      · have : j = i := by simpa [hji] using hj
        subst this
        rw [h4 j hji]; simp [hi]
    · intro j hj
      rw [List.mem_cons, not_or] at hj
      rw [h4 j hj.2, List.getElem?_set_ne (fun h => hj.1 h.symm)]

theorem markInsns_none {b : Nat} {is : List Nat} {m m' : List (Option Nat)}
    (h : markInsns b is m = some m') : ∀ i ∈ is, i < m.length := by
  induction is generalizing m with
  | nil => simp
  | cons i is ih =>
    unfold markInsns at h
    split at h
    · next hi =>
      intro j hj
      rcases List.mem_cons.mp hj with rfl | hj
      · exact hi
      · have := ih h j hj; rwa [List.length_set] at this
    · simp at h

theorem critCheck_none {f : Func} {b : Nat} (h : critCheck f b = none) :
    inEdges f b > 1 → ∀ p ∈ f.preds b, (f.succs p).length ≤ 1 := by
  intro hi p hp
  unfold critCheck at h
  rw [if_pos hi] at h
  split at h
  · simp at h
  · next hf =>
    rw [List.find?_eq_none] at hf
    have := hf p hp
    simp at this; omega

theorem critCheck_some {f : Func} {b : Nat} {e : RegAllocError} (h : critCheck f b = some e) :
    ∃ p ∈ f.preds b, e = .critEdge p b ∧ inEdges f b > 1 ∧ (f.succs p).length > 1 := by
  unfold critCheck at h
  split at h
  · next hi =>
    split at h
    · next p hp =>
      refine ⟨p, List.mem_of_find?_eq_some hp, by simpa using h.symm, hi, ?_⟩
      simpa using List.find?_some hp
    · simp at h
  · simp at h

theorem branchArgCheck_none {f : Func} {b : Nat} (h : branchArgCheck f b = none) :
    (∃ s ∈ f.succs b, inEdges f s > 1) → f.operands (f.lastInst b) = [] := by
  rintro ⟨s, hs, hi⟩
  unfold branchArgCheck at h
  have : (f.succs b).any (fun s => decide (inEdges f s > 1)) = true := by
    rw [List.any_eq_true]; exact ⟨s, hs, by simpa using hi⟩
  rw [if_pos this] at h
  split at h
  · next he => simpa using he
  · simp at h

theorem branchArgCheck_some {f : Func} {b : Nat} {e : RegAllocError} (h : branchArgCheck f b = some e) :
    e = .disallowedBranchArg (f.lastInst b) ∧ f.operands (f.lastInst b) ≠ [] ∧
      ∃ s ∈ f.succs b, inEdges f s > 1 := by
  unfold branchArgCheck at h
  split at h
  · next ha =>
    rw [List.any_eq_true] at ha
    obtain ⟨s, hs, hi⟩ := ha
    split at h
    · simp at h
    · next he => exact ⟨by simpa using h.symm, by simpa using he, s, hs, by simpa using hi⟩
  · simp at h

theorem countBack_spec (b n : Nat) (ss : List Nat) (c : List Nat × List Nat) (h1 : c.1.length = n)
    (h2 : c.2.length = n) (hb : b < n) :
    ∃ c', countBack b ss c = some c' ∧ c'.1.length = n ∧ c'.2.length = n := by
  induction ss generalizing c with
  | nil => exact ⟨c, rfl, h1, h2⟩
  | cons s ss ih =>
    unfold countBack
    split
    · next hs =>
      have e1 : s < c.1.length := by omega
      have e2 : b < c.2.length := by omega
      rw [List.getElem?_eq_getElem e1, List.getElem?_eq_getElem e2]
      exact ih _ (by simpa using h1) (by simpa using h2)
    · exact ih c h1 h2

/-- Facts established for each scanned block. -/
structure BlockOk (f : Func) (b : Nat) : Prop where
  crit : inEdges f b > 1 → ∀ p ∈ f.preds b, (f.succs p).length ≤ 1
  args : (∃ s ∈ f.succs b, inEdges f s > 1) → f.operands (f.lastInst b) = []
  insns : ∀ i ∈ f.blockInsts b, i < f.numInsts

structure ScanWf (f : Func) (st : Scan) : Prop where
  l1 : st.insnBlock.length = f.numInsts
  l2 : st.blockEntry.length = f.numBlocks
  l3 : st.blockExit.length = f.numBlocks
  l4 : st.backIn.length = f.numBlocks
  l5 : st.backOut.length = f.numBlocks

theorem scanBlock_ok {f : Func} {st st' : Scan} {b : Nat} (W : ScanWf f st) (hb : b < f.numBlocks)
    (h : scanBlock f st b = .ok st') :
    ScanWf f st' ∧ BlockOk f b ∧ (∀ i ∈ f.blockInsts b, st'.insnBlock[i]? = some (some b)) ∧
      (∀ i, i ∉ f.blockInsts b → st'.insnBlock[i]? = st.insnBlock[i]?) ∧
      st'.blockEntry = st.blockEntry.set b (ptBefore (f.insns b).1) ∧
      st'.blockExit = st.blockExit.set b (ptAfter (f.lastInst b)) := by
  unfold scanBlock at h
  split at h
  · simp at h
  · next m hm =>
    split at h
    · simp at h
    · next hc =>
      split at h
      · simp at h
      · next hbr =>
        obtain ⟨c, e1, e2, e3⟩ := countBack_spec b f.numBlocks (f.succs b) (st.backIn, st.backOut) W.l4 W.l5 hb
        rw [e1] at h
        simp only [Outcome.ok.injEq] at h
        subst h
        have hlt := markInsns_none hm
        obtain ⟨m', g1, g2, g3, g4⟩ := markInsns_spec b (f.blockInsts b) st.insnBlock hlt
        rw [hm] at g1
        simp only [Option.some.injEq] at g1
        subst g1
        refine ⟨⟨by simp [g2, W.l1], by simp [W.l2], by simp [W.l3], e2, e3⟩,
          ⟨critCheck_none hc, branchArgCheck_none hbr, ?_⟩, g3, g4, rfl, rfl⟩
        intro i hi; rw [← W.l1]; exact hlt i hi

theorem scanBlocks_ok {f : Func} (bs : List Nat) {st st' : Scan} (W : ScanWf f st)
    (hb : ∀ b ∈ bs, b < f.numBlocks) (hnd : bs.Nodup) (h : scanBlocks f bs st = .ok st') :
    ScanWf f st' ∧ (∀ b ∈ bs, BlockOk f b) ∧
      (∀ b ∈ bs, st'.blockEntry[b]? = some (ptBefore (f.insns b).1) ∧
        st'.blockExit[b]? = some (ptAfter (f.lastInst b))) ∧
      (∀ b, b ∉ bs → st'.blockEntry[b]? = st.blockEntry[b]? ∧ st'.blockExit[b]? = st.blockExit[b]?) ∧
      (∀ i, (∀ b ∈ bs, i ∉ f.blockInsts b) → st'.insnBlock[i]? = st.insnBlock[i]?) ∧
      (∀ i, (∃ b ∈ bs, i ∈ f.blockInsts b) → ∃ b ∈ bs, i ∈ f.blockInsts b ∧
        st'.insnBlock[i]? = some (some b)) := by
  induction bs generalizing st with
  | nil =>
    simp [scanBlocks] at h; subst h
    exact ⟨W, by simp, by simp, by simp, by simp, by simp⟩
  | cons b bs ih =>
    unfold scanBlocks at h
    have hbl := hb b (by simp)
    rw [List.nodup_cons] at hnd
    split at h
    · next st1 h1 =>
      obtain ⟨W1, O, g1, g2, g3, g4⟩ := scanBlock_ok W hbl h1
      obtain ⟨W2, k1, k2, k3, k4, k5⟩ := ih W1 (fun x hx => hb x (List.mem_cons_of_mem _ hx)) hnd.2 h
      refine ⟨W2, ?_, ?_, ?_, ?_, ?_⟩
      · intro x hx
        rcases List.mem_cons.mp hx with rfl | hx
        · exact O
        · exact k1 x hx
      · intro x hx
        rcases List.mem_cons.mp hx with rfl | hx
        · rw [(k3 x hnd.1).1, (k3 x hnd.1).2, g3, g4]
          have e1 : x < st.blockEntry.length := by rw [W.l2]; exact hbl
          have e2 : x < st.blockExit.length := by rw [W.l3]; exact hbl
          simp [e1, e2]
        · exact k2 x hx
      · intro x hx
        rw [List.mem_cons, not_or] at hx
        rw [(k3 x hx.2).1, (k3 x hx.2).2, g3, g4, List.getElem?_set_ne (fun h => hx.1 h.symm),
          List.getElem?_set_ne (fun h => hx.1 h.symm)]
        exact ⟨rfl, rfl⟩
      · intro i hi
        rw [k4 i (fun x hx => hi x (List.mem_cons_of_mem _ hx)), g2 i (hi b (by simp))]
      · intro i hi
        by_cases hc : ∃ x ∈ bs, i ∈ f.blockInsts x
        · obtain ⟨x, hx, hxi, hv⟩ := k5 i hc
          exact ⟨x, List.mem_cons_of_mem _ hx, hxi, hv⟩
        · obtain ⟨x, hx, hxi⟩ := hi
          have : x = b := by
            rcases List.mem_cons.mp hx with rfl | hx
            · rfl
            · exact absurd ⟨x, hx, hxi⟩ hc
          subst this
          refine ⟨x, by simp, hxi, ?_⟩
          rw [k4 i (fun y hy hyi => hc ⟨y, hy, hyi⟩)]
          exact g1 i hxi
    · simp at h
    · simp at h

theorem scanBlocks_err {f : Func} (bs : List Nat) {st : Scan} {e : RegAllocError}
    (h : scanBlocks f bs st = .err e) : ∃ b ∈ bs,
      (∃ p ∈ f.preds b, e = .critEdge p b ∧ inEdges f b > 1 ∧ (f.succs p).length > 1) ∨
      (e = .disallowedBranchArg (f.lastInst b) ∧ f.operands (f.lastInst b) ≠ [] ∧
        ∃ s ∈ f.succs b, inEdges f s > 1) := by
  induction bs generalizing st with
  | nil => simp [scanBlocks] at h
  | cons b bs ih =>
    unfold scanBlocks at h
    split at h
    · obtain ⟨x, hx, h⟩ := ih h
      exact ⟨x, List.mem_cons_of_mem _ hx, h⟩
    · next e' he =>
      simp only [Outcome.err.injEq] at h
      subst h
      refine ⟨b, by simp, ?_⟩
      unfold scanBlock at he
      split at he
      · simp at he
      · split at he
        · next hc => simp only [Outcome.err.injEq] at he; subst he; exact .inl (critCheck_some hc)
        · split at he
          · next hc => simp only [Outcome.err.injEq] at he; subst he; exact .inr (branchArgCheck_some hc)
          · split at he <;> simp at he
    · simp at h

theorem scanBlocks_panic {f : Func} (bs : List Nat) {st : Scan} (W : ScanWf f st)
    (hb : ∀ b ∈ bs, b < f.numBlocks) (hi : ∀ b ∈ bs, ∀ i ∈ f.blockInsts b, i < f.numInsts) :
    scanBlocks f bs st ≠ .panic := by
  induction bs generalizing st with
  | nil => simp [scanBlocks]
  | cons b bs ih =>
    unfold scanBlocks
    have hbl := hb b (by simp)
    cases h1 : scanBlock f st b with
    | ok st1 =>
      simp only
      exact ih (scanBlock_ok W hbl h1).1 (fun x hx => hb x (List.mem_cons_of_mem _ hx))
        (fun x hx => hi x (List.mem_cons_of_mem _ hx))
    | err e => simp
    | panic =>
      exfalso
      unfold scanBlock at h1
      obtain ⟨m', g1, _⟩ := markInsns_spec b (f.blockInsts b) st.insnBlock
        (fun i h => by rw [W.l1]; exact hi b (by simp) i h)
      rw [g1] at h1
      simp only at h1
      split at h1
      · simp at h1
      · split at h1
        · simp at h1
        · obtain ⟨c, e1, _⟩ := countBack_spec b f.numBlocks (f.succs b) (st.backIn, st.backOut) W.l4 W.l5 hbl
          rw [e1] at h1
          simp at h1

/-! ### Loop depth -/

theorem popBack_ok (out : Nat) (st : List Nat) (d : Nat) (hd : d = st.length) (hp : ∀ t ∈ st, 0 < t) :
    ∃ st' d', popBack out st d = some (st', d') ∧ d' = st'.length ∧ (∀ t ∈ st', 0 < t) ∧ d' ≤ d := by
  induction out generalizing st d with
  | zero => exact ⟨st, d, by simp [popBack], hd, hp, Nat.le_refl _⟩
  | succ out ih =>
    cases st with
    | nil => exact ⟨[], d, by simp [popBack], hd, by simp, Nat.le_refl _⟩
    | cons t st =>
      have ht := hp t (by simp)
      unfold popBack
      rw [if_neg (by omega)]
      split
      · next h1 =>
        have : d ≠ 0 := by simp at hd; omega
        rw [if_neg this]
        obtain ⟨st', d', e1, e2, e3, e4⟩ := ih st (d - 1) (by simp at hd; omega)
          (fun x hx => hp x (List.mem_cons_of_mem _ hx))
        exact ⟨st', d', e1, e2, e3, by omega⟩
      · next h1 =>
        refine ih ((t - 1) :: st) d (by simpa using hd) ?_
        intro x hx
        rcases List.mem_cons.mp hx with rfl | hx
        · omega
        · exact hp x (List.mem_cons_of_mem _ hx)

theorem loopDepths_ok (bi bo : List Nat) (n : Nat) (h1 : bi.length = n) (h2 : bo.length = n) (bs : List Nat)
    (hb : ∀ b ∈ bs, b < n) (st : List Nat) (d : Nat) (acc : List Nat) (hd : d = st.length)
    (hp : ∀ t ∈ st, 0 < t) :
    ∃ r, loopDepths bi bo bs st d acc = some r ∧ r.length = acc.length + bs.length := by
  induction bs generalizing st d acc with
  | nil => exact ⟨_, rfl, by simp⟩
  | cons b bs ih =>
    have hbl := hb b (by simp)
    unfold loopDepths
    rw [List.getElem?_eq_getElem (by omega), List.getElem?_eq_getElem (by omega)]
    simp only
    obtain ⟨st', d', e1, e2, e3, _⟩ := popBack_ok bo[b]
      (if bi[b] > 0 then bi[b] :: st else st) (if bi[b] > 0 then d + 1 else d)
      (by split <;> simp [hd]) (by
        split
        · next h =>
          intro t ht
          rcases List.mem_cons.mp ht with rfl | ht
          · exact h
          · exact hp t ht
        · exact hp)
    rw [e1]
    simp only
    obtain ⟨r, g1, g2⟩ := ih (fun x hx => hb x (List.mem_cons_of_mem _ hx)) st' d' _ e2 e3
    exact ⟨r, g1, by rw [g2]; simp; omega⟩

theorem scan0_wf (f : Func) : ScanWf f ⟨List.replicate f.numInsts none, List.replicate f.numBlocks invalidPoint,
    List.replicate f.numBlocks invalidPoint, List.replicate f.numBlocks 0, List.replicate f.numBlocks 0⟩ :=
  ⟨by simp, by simp, by simp, by simp, by simp⟩

theorem init_ok {f : Func} {info : Info} (h : init f = .ok info) :
    (∀ b, b < f.numBlocks → BlockOk f b) ∧
    (∀ b, b < f.numBlocks → info.blockEntry[b]? = some (ptBefore (f.insns b).1) ∧
      info.blockExit[b]? = some (ptAfter (f.lastInst b))) ∧
    (∀ i, (∃ b, b < f.numBlocks ∧ i ∈ f.blockInsts b) → ∃ b, b < f.numBlocks ∧ i ∈ f.blockInsts b ∧
      info.insnBlock[i]? = some (some b)) ∧
    Postorder.calculate? f.numBlocks f.entry f.succs = some (.ok info.postorder) ∧
    Domtree.calculate? f.numBlocks f.preds info.postorder f.entry = some info.domtree := by
  unfold init at h
  split at h
  · simp at h
  · simp at h
  · next post hp =>
    split at h
    · simp at h
    · next dom hd =>
      split at h
      · simp at h
      · simp at h
      · next st hs =>
        split at h
        · simp at h
        · next depths hl =>
          simp only [Outcome.ok.injEq] at h
          subst h
          obtain ⟨_, k1, k2, _, _, k5⟩ := scanBlocks_ok _ (scan0_wf f) (by simp) List.nodup_range hs
          refine ⟨fun b hb => k1 b (by simpa using hb), fun b hb => k2 b (by simpa using hb), ?_, hp, hd⟩
          rintro i ⟨b, hb, hi⟩
          obtain ⟨x, hx, hxi, hv⟩ := k5 i ⟨b, by simpa using hb, hi⟩
          exact ⟨x, by simpa using hx, hxi, hv⟩

theorem init_length {f : Func} {info : Info} (h : init f = .ok info) : info.insnBlock.length = f.numInsts := by
  unfold init at h
  split at h
  · simp at h
  · simp at h
  · split at h
    · simp at h
    · split at h
      · simp at h
      · simp at h
      · next st hs =>
        split at h
        · simp at h
        · simp only [Outcome.ok.injEq] at h
          subst h
          exact (scanBlocks_ok _ (scan0_wf f) (by simp) List.nodup_range hs).1.l1

end Regalloc.Cfg
