import Verif.Model.Ssa
import Verif.Spec.Ssa
import Verif.Props.Cfg

namespace Regalloc.Ssa

theorem flatMap_split {α β : Type} (g : α → List β) (l : List α) (pre : List β) (x : β) (post : List β)
    (h : l.flatMap g = pre ++ x :: post) :
    ∃ l1 a l2 p q, l = l1 ++ a :: l2 ∧ g a = p ++ x :: q ∧ pre = l1.flatMap g ++ p := by
  induction l generalizing pre with
  | nil => simp at h
  | cons a l ih =>
    rw [List.flatMap_cons] at h
    rcases List.append_eq_append_iff.mp h with ⟨as, h1, h2⟩ | ⟨bs, h1, h2⟩
    · obtain ⟨l1, c, l2, p, q, e1, e2, e3⟩ := ih as h2
      exact ⟨a :: l1, c, l2, p, q, by simp [e1], e2, by simp [h1, e3]⟩
    · cases bs with
      | nil =>
        simp at h1 h2
        obtain ⟨l1, c, l2, p, q, e1, e2, e3⟩ := ih [] (by simpa using h2.symm)
        exact ⟨a :: l1, c, l2, p, q, by simp [e1], e2, by
          have : l1.flatMap g = [] ∧ p = [] := by simpa using e3.symm
          simp [List.flatMap_cons, this.1, this.2, h1]⟩
      | cons y bs =>
        simp only [List.cons_append, List.cons.injEq] at h2
        obtain ⟨rfl, h2⟩ := h2
        exact ⟨[], a, l, pre, bs, by simp, h1, by simp⟩

/-- Definitions of a block by register, in program order. -/
def writes (f : Func) (b : Nat) : List VReg :=
  f.params b ++ (f.blockInsts b).flatMap (fun i => opWrites (f.operands i))

theorem blockDefs_fst (f : Func) (b : Nat) : (blockDefs f b).map Prod.fst = writes f b := by
  unfold blockDefs writes opWrites
  simp [List.map_flatMap, Function.comp_def]

theorem defAll_ok {b : Nat} (ds : List (VReg × Option Nat)) {t t' : List (Option Nat)}
    (h : defAll b ds t = .ok t') :
    t'.length = t.length ∧ (ds.map (fun d => d.1.vreg)).Nodup ∧ (∀ d ∈ ds, t[d.1.vreg]? = some none) ∧
    (∀ n, n ∈ ds.map (fun d => d.1.vreg) → t'[n]? = some (some b)) ∧
    (∀ n, n ∉ ds.map (fun d => d.1.vreg) → t'[n]? = t[n]?) := by
  induction ds generalizing t with
  | nil => simp [defAll] at h; subst h; simp
  | cons d ds ih =>
    unfold defAll at h
    split at h
    · simp at h
    · simp at h
    · next hd =>
      obtain ⟨h1, h2, h3, h4, h5⟩ := ih h
      have hlt : d.1.vreg < t.length := by
        rcases Nat.lt_or_ge d.1.vreg t.length with h | h
        · exact h
        · rw [List.getElem?_eq_none h] at hd; simp at hd
      have hnot : d.1.vreg ∉ ds.map (fun d => d.1.vreg) := by
        intro hm
        obtain ⟨e, he, hev⟩ := List.mem_map.mp hm
        have := h3 e he
        rw [hev] at this
        simp [hlt] at this
      refine ⟨by simpa using h1, by simp only [List.map_cons, List.nodup_cons]; exact ⟨hnot, h2⟩, ?_, ?_, ?_⟩
      · intro e he
        rcases List.mem_cons.mp he with rfl | he
        · exact hd
        · have := h3 e he
          rw [List.getElem?_set_ne] at this
          · exact this
          · intro heq; exact hnot (List.mem_map.mpr ⟨e, he, heq.symm⟩)
      · intro n hn
        by_cases hn' : n ∈ ds.map (fun d => d.1.vreg)
        · exact h4 n hn'
        · have : n = d.1.vreg := by
            rw [List.map_cons, List.mem_cons] at hn
            rcases hn with h | h
            · exact h
            · exact absurd h hn'
          subst this
          rw [h5 _ hn']; simp [hlt]
      · intro n hn
        rw [List.map_cons, List.mem_cons, not_or] at hn
        rw [h5 n hn.2, List.getElem?_set_ne (fun h => hn.1 h.symm)]

theorem defAll_complete {b : Nat} (ds : List (VReg × Option Nat)) {t : List (Option Nat)}
    (h1 : (ds.map (fun d => d.1.vreg)).Nodup) (h2 : ∀ d ∈ ds, t[d.1.vreg]? = some none) :
    ∃ t', defAll b ds t = .ok t' := by
  induction ds generalizing t with
  | nil => exact ⟨t, rfl⟩
  | cons d ds ih =>
    unfold defAll
    rw [h2 d (by simp)]
    simp only [List.map_cons, List.nodup_cons] at h1
    apply ih h1.2
    intro e he
    rw [List.getElem?_set_ne]
    · exact h2 e (List.mem_cons_of_mem _ he)
    · intro heq; exact h1.1 (List.mem_map.mpr ⟨e, he, heq.symm⟩)

theorem mem_defs_vreg (f : Func) (b n : Nat) :
    n ∈ (blockDefs f b).map (fun d => d.1.vreg) ↔ ∃ w ∈ writes f b, w.vreg = n := by
  rw [← blockDefs_fst]
  simp

theorem pass1_ok {f : Func} (bs : List Nat) {t t' : List (Option Nat)} (h : pass1 f bs t = .ok t') :
    ((bs.flatMap (writes f)).map VReg.vreg).Nodup ∧ (∀ b ∈ bs, ∀ w ∈ writes f b, t[w.vreg]? = some none) ∧
    (∀ b ∈ bs, ∀ w ∈ writes f b, t'[w.vreg]? = some (some b)) ∧
    (∀ n, (∀ b ∈ bs, ∀ w ∈ writes f b, w.vreg ≠ n) → t'[n]? = t[n]?) := by
  induction bs generalizing t with
  | nil => simp [pass1] at h; subst h; simp
  | cons b bs ih =>
    unfold pass1 at h
    split at h
    · next t1 h1 =>
      obtain ⟨_, d2, d3, d4, d5⟩ := defAll_ok _ h1
      obtain ⟨i1, i2, i3, i4⟩ := ih h
      have hbn : ∀ c ∈ bs, ∀ w ∈ writes f c, w.vreg ∉ (blockDefs f b).map (fun d => d.1.vreg) := by
        intro c hc w hw hm
        have e1 := d4 _ hm
        have e2 := i2 c hc w hw
        rw [e1] at e2; simp at e2
      have hw0 : ∀ w ∈ writes f b, t[w.vreg]? = some none := by
        intro w hw
        rw [← blockDefs_fst] at hw
        obtain ⟨d, hd, rfl⟩ := List.mem_map.mp hw
        exact d3 d hd
      refine ⟨?_, ?_, ?_, ?_⟩
      · rw [List.flatMap_cons, List.map_append, List.nodup_append]
        refine ⟨?_, i1, ?_⟩
        · rw [← blockDefs_fst, List.map_map]; exact d2
        · intro x hx y hy hxy
          subst hxy
          obtain ⟨w, hw, hwv⟩ := List.mem_map.mp hy
          obtain ⟨c, hc, hwc⟩ := List.mem_flatMap.mp hw
          apply hbn c hc w hwc
          rw [hwv, mem_defs_vreg]
          obtain ⟨w', hw', e⟩ := List.mem_map.mp hx
          exact ⟨w', hw', e⟩
      · intro c hc w hw
        rcases List.mem_cons.mp hc with rfl | hc
        · exact hw0 w hw
        · rw [← i2 c hc w hw, d5 _ (hbn c hc w hw)]
      · intro c hc w hw
        rcases List.mem_cons.mp hc with rfl | hc
        · by_cases hex : ∃ c' ∈ bs, ∃ w' ∈ writes f c', w'.vreg = w.vreg
          · obtain ⟨c', hc', w', hw', e⟩ := hex
            exfalso
            apply hbn c' hc' w' hw'
            rw [mem_defs_vreg]; exact ⟨w, hw, e.symm⟩
          · rw [i4 w.vreg (by
              intro c' hc' w' hw' e; exact hex ⟨c', hc', w', hw', e⟩)]
            exact d4 _ ((mem_defs_vreg f c _).mpr ⟨w, hw, rfl⟩)
        · exact i3 c hc w hw
      · intro n hn
        rw [i4 n (fun c hc => hn c (List.mem_cons_of_mem _ hc)), d5 n]
        rw [mem_defs_vreg]
        rintro ⟨w, hw, e⟩
        exact hn b (by simp) w hw e
    · simp at h
    · simp at h

theorem pass1_complete {f : Func} (bs : List Nat) {t : List (Option Nat)}
    (h1 : ((bs.flatMap (writes f)).map VReg.vreg).Nodup)
    (h2 : ∀ b ∈ bs, ∀ w ∈ writes f b, t[w.vreg]? = some none) : ∃ t', pass1 f bs t = .ok t' := by
  induction bs generalizing t with
  | nil => exact ⟨t, rfl⟩
  | cons b bs ih =>
    rw [List.flatMap_cons, List.map_append, List.nodup_append] at h1
    have hfst : (blockDefs f b).map (fun d => d.1.vreg) = (writes f b).map VReg.vreg := by
      rw [← blockDefs_fst, List.map_map]; rfl
    obtain ⟨t1, e1⟩ := defAll_complete (b := b) (blockDefs f b) (t := t) (by rw [hfst]; exact h1.1) (by
      intro d hd
      exact h2 b (by simp) d.1 (by rw [← blockDefs_fst]; exact List.mem_map_of_mem hd))
    unfold pass1
    rw [e1]
    apply ih h1.2.1
    intro c hc w hw
    rw [(defAll_ok _ e1).2.2.2.2]
    · exact h2 c (List.mem_cons_of_mem _ hc) w hw
    · rw [hfst]
      intro hm
      exact h1.2.2 _ hm _ (List.mem_map_of_mem (List.mem_flatMap.mpr ⟨c, hc, hw⟩)) rfl

theorem checkOps_ok (idom t : List (Option Nat)) (b : Nat) (loc : List VReg) (i : Nat) (ops : List Op) :
    checkOps idom t b loc i ops = .ok () ↔ ∀ v ∈ opReads ops, checkUse idom t b loc i v = .ok () := by
  induction ops with
  | nil => simp [checkOps, opReads]
  | cons o os ih =>
    unfold checkOps
    by_cases hf : o.asFixedNonallocatable = none
    · simp only [hf, Option.isSome_none, Bool.false_eq_true, if_false]
      cases hk : o.kind with
      | Def =>
        simp only
        rw [ih]; simp [opReads, hk]
      | Use =>
        simp only
        have e : opReads (o :: os) = o.vreg :: opReads os := by simp [opReads, hk, hf]
        rw [e]
        cases hc : checkUse idom t b loc i o.vreg with
        | ok u => simp [hc, ih]
        | err e => simp [hc]
        | panic => simp [hc]
    · have : o.asFixedNonallocatable.isSome = true := by
        cases h : o.asFixedNonallocatable <;> simp_all
      rw [if_pos this, ih]
      simp [opReads, hf]

theorem checkInsts_ok (f : Func) (idom t : List (Option Nat)) (b : Nat) (is : List Nat) (loc : List VReg) :
    checkInsts f idom t b is loc = .ok () ↔ ∀ is1 i is2, is = is1 ++ i :: is2 → ∀ v ∈ opReads (f.operands i),
      checkUse idom t b (loc ++ is1.flatMap (instDefs f)) i v = .ok () := by
  induction is generalizing loc with
  | nil => simp [checkInsts]
  | cons j is ih =>
    unfold checkInsts
    cases hc : checkOps idom t b loc j (f.operands j) with
    | ok u =>
      simp only
      rw [ih]
      constructor
      · intro h is1 i is2 he v hv
        cases is1 with
        | nil =>
          simp at he
          obtain ⟨rfl, rfl⟩ := he
          simpa using (checkOps_ok ..).mp hc v hv
        | cons k is1 =>
          simp at he
          obtain ⟨rfl, rfl⟩ := he
          simpa [List.flatMap_cons, List.append_assoc] using h is1 i is2 rfl v hv
      · intro h is1 i is2 he v hv
        simpa [List.flatMap_cons, List.append_assoc] using h (j :: is1) i is2 (by simp [he]) v hv
    | err e =>
      simp only [reduceCtorEq, false_iff]
      intro h
      have := (checkOps_ok idom t b loc j (f.operands j)).mpr (by simpa using h [] j is rfl)
      rw [hc] at this; simp at this
    | panic =>
      simp only [reduceCtorEq, false_iff]
      intro h
      have := (checkOps_ok idom t b loc j (f.operands j)).mpr (by simpa using h [] j is rfl)
      rw [hc] at this; simp at this

theorem pass2_ok (f : Func) (idom t : List (Option Nat)) (bs : List Nat) :
    pass2 f idom t bs = .ok () ↔ ∀ b ∈ bs, checkInsts f idom t b (f.blockInsts b) (f.params b) = .ok () := by
  induction bs with
  | nil => simp [pass2]
  | cons b bs ih =>
    unfold pass2
    cases hc : checkInsts f idom t b (f.blockInsts b) (f.params b) <;> simp [hc, ih]

theorem argsOk_iff (f : Func) (b i : Nat) :
    argsOk f b i = true ↔ ∀ k s, (f.succs b)[k]? = some s → (f.args b i k).length = (f.params s).length := by
  unfold argsOk
  rw [List.all_eq_true]
  constructor
  · intro h k s hk
    have := h (s, k) (List.mem_zipIdx_iff_getElem?.mpr hk)
    simpa using (by simpa using this : (f.params s).length = (f.args b i k).length).symm
  · rintro h ⟨s, k⟩ hm
    have := h k s (List.mem_zipIdx_iff_getElem?.mp hm)
    simp [this]

theorem pass3_none (f : Func) : pass3 f (List.range f.numBlocks) = none ↔ TerminatorsOk f := by
  unfold pass3 TerminatorsOk
  simp only [List.findSome?_eq_none_iff, List.mem_range]
  refine forall_congr' fun b => forall_congr' fun _ => forall_congr' fun i => forall_congr' fun hi => ?_
  have hlast : i = f.lastInst b ↔ i + 1 = (f.insns b).2 := by
    unfold Func.lastInst Func.blockInsts at *
    rw [List.mem_range'_1] at hi
    omega
  unfold termCheck
  by_cases hl : i = f.lastInst b
  · rw [if_pos hl]
    have hl' := hlast.mp hl
    by_cases hbr : f.isBranch i = true
    · simp only [hbr, hl', true_or, not_true, if_false, true_and, true_iff]
      rw [← argsOk_iff]
      by_cases ha : argsOk f b i = true <;> simp [ha]
    · by_cases hr : f.isRet i = true <;> simp [hbr, hr, hl']
  · rw [if_neg hl]
    have hl' : ¬ (i + 1 = (f.insns b).2) := fun h => hl (hlast.mpr h)
    by_cases hbr : f.isBranch i = true
    · simp [hbr, hl']
    · by_cases hr : f.isRet i = true <;> simp [hbr, hr, hl']

theorem validate_ok (f : Func) (info : Cfg.Info) : validate f info = .ok () ↔
    ∃ t, pass1 f (List.range f.numBlocks) (List.replicate f.numVregs none) = .ok t ∧
      (∀ b, b < f.numBlocks → ∀ is1 i is2, f.blockInsts b = is1 ++ i :: is2 → ∀ v ∈ opReads (f.operands i),
        checkUse info.domtree t b (f.params b ++ is1.flatMap (instDefs f)) i v = .ok ()) ∧
      TerminatorsOk f ∧ f.params f.entry = [] := by
  unfold validate
  cases h1 : pass1 f (List.range f.numBlocks) (List.replicate f.numVregs none) with
  | err e => simp
  | panic => simp
  | ok t =>
    have e2 : (∀ b, b < f.numBlocks → ∀ is1 i is2, f.blockInsts b = is1 ++ i :: is2 → ∀ v ∈ opReads (f.operands i),
        checkUse info.domtree t b (f.params b ++ is1.flatMap (instDefs f)) i v = .ok ()) ↔
        pass2 f info.domtree t (List.range f.numBlocks) = .ok () := by
      rw [pass2_ok]; simp only [List.mem_range, checkInsts_ok]
    simp only [Outcome.ok.injEq, exists_eq_left']
    rw [e2, ← pass3_none]
    cases h2 : pass2 f info.domtree t (List.range f.numBlocks) with
    | err e => simp
    | panic => simp
    | ok u =>
      cases h3 : pass3 f (List.range f.numBlocks) with
      | some e => simp
      | none =>
        simp only [true_and]
        cases hp : f.params f.entry <;> simp

/-! ### Paths -/

theorem pathEvents_cons (f : Func) (b : Nat) (l : List Nat) :
    pathEvents f (b :: l) = pathEvents f l ++ blockEvents f b := by
  simp [pathEvents]

theorem write_mem_block (f : Func) (b : Nat) (w : VReg) : .write w ∈ blockEvents f b ↔ w ∈ writes f b := by
  unfold blockEvents writes instEvents
  simp

theorem write_mem_path (f : Func) (l : List Nat) (w : VReg) :
    .write w ∈ pathEvents f l ↔ ∃ b ∈ l, w ∈ writes f b := by
  unfold pathEvents
  simp [write_mem_block]

theorem blockEvents_split {f : Func} {b : Nat} {pre post : List RegEvent} {i : Nat} {v : VReg}
    (h : blockEvents f b = pre ++ .read i v :: post) :
    ∃ is1 is2, f.blockInsts b = is1 ++ i :: is2 ∧ v ∈ opReads (f.operands i) ∧
      ∀ w, .write w ∈ pre ↔ w ∈ f.params b ++ is1.flatMap (instDefs f) := by
  unfold blockEvents at h
  obtain ⟨as, h1, h2⟩ : ∃ as, pre = (f.params b).map RegEvent.write ++ as ∧
      (f.blockInsts b).flatMap (instEvents f) = as ++ RegEvent.read i v :: post := by
    rcases List.append_eq_append_iff.mp h with ⟨as, h1, h2⟩ | ⟨bs, h1, h2⟩
    · exact ⟨as, h1, h2⟩
    · cases bs with
      | nil => exact ⟨[], by simpa using h1.symm, by simpa using h2.symm⟩
      | cons y bs =>
        simp only [List.cons_append, List.cons.injEq] at h2
        obtain ⟨rfl, h2⟩ := h2
        have : RegEvent.read i v ∈ (f.params b).map RegEvent.write := by rw [h1]; simp
        simp at this
  obtain ⟨is1, j, is2, p, q, e1, e2, e3⟩ := flatMap_split _ _ _ _ _ h2
  unfold instEvents at e2
  have hp : ∀ w, RegEvent.write w ∉ p ∧ (j = i ∧ v ∈ opReads (f.operands i)) := by
    intro w
    rcases List.append_eq_append_iff.mp e2 with ⟨as', g1, g2⟩ | ⟨bs', g1, g2⟩
    · have : RegEvent.read i v ∈ as' ++ RegEvent.read i v :: q := by simp
      rw [← g2] at this
      simp at this
    · cases bs' with
      | nil =>
        simp at g2
        have : RegEvent.read i v ∈ (opWrites (f.operands j)).map RegEvent.write := by rw [← g2]; simp
        simp at this
      | cons y bs' =>
        simp only [List.cons_append, List.cons.injEq] at g2
        obtain ⟨rfl, g2⟩ := g2
        have hm : RegEvent.read i v ∈ (opReads (f.operands j)).map (RegEvent.read j) := by rw [g1]; simp
        obtain ⟨v', hv', hev⟩ := List.mem_map.mp hm
        simp only [RegEvent.read.injEq] at hev
        obtain ⟨rfl, rfl⟩ := hev
        refine ⟨?_, rfl, hv'⟩
        intro hw
        have : RegEvent.write w ∈ (opReads (f.operands j)).map (RegEvent.read j) := by
          rw [g1]; simp [hw]
        simp at this
  obtain ⟨_, rfl, hv⟩ := hp v
  refine ⟨is1, is2, e1, hv, ?_⟩
  intro w
  rw [h1, e3]
  simp only [List.mem_append, (hp w).1, or_false, List.mem_map, List.mem_flatMap]
  unfold instEvents instDefs
  simp [opWrites]

theorem blockEvents_join {f : Func} {b : Nat} {is1 is2 : List Nat} {i : Nat} {v : VReg}
    (h : f.blockInsts b = is1 ++ i :: is2) (hv : v ∈ opReads (f.operands i)) :
    ∃ pre post, blockEvents f b = pre ++ .read i v :: post ∧
      ∀ w, .write w ∈ pre ↔ w ∈ f.params b ++ is1.flatMap (instDefs f) := by
  obtain ⟨r1, r2, hr⟩ := List.append_of_mem hv
  refine ⟨(f.params b).map .write ++ is1.flatMap (instEvents f) ++ r1.map (.read i),
    r2.map (.read i) ++ (opWrites (f.operands i)).map .write ++ is2.flatMap (instEvents f), ?_, ?_⟩
  · unfold blockEvents
    rw [h]
    simp only [List.flatMap_append, List.flatMap_cons, List.append_assoc]
    congr 2
    have e : instEvents f i = (r1 ++ v :: r2).map (.read i) ++ (opWrites (f.operands i)).map .write := by
      unfold instEvents; rw [hr]
    rw [e]
    simp
  · intro w
    simp only [List.mem_append, List.mem_map, List.mem_flatMap]
    unfold instEvents instDefs
    simp [opWrites]

theorem ReadsDefined.append {es fs : List RegEvent} (h : ReadsDefined es)
    (h' : ∀ pre i v post, fs = pre ++ .read i v :: post → ∃ w, .write w ∈ es ++ pre ∧ w.vreg = v.vreg) :
    ReadsDefined (es ++ fs) := by
  intro pre i v post he
  rcases List.append_eq_append_iff.mp he with ⟨as, h1, h2⟩ | ⟨bs, h1, h2⟩
  · obtain ⟨w, hw, e⟩ := h' as i v post h2
    exact ⟨w, by rw [h1]; exact hw, e⟩
  · cases bs with
    | nil =>
      obtain ⟨w, hw, e⟩ := h' [] i v post (by simpa using h2.symm)
      exact ⟨w, by simp at h1 hw; rw [← h1]; exact hw, e⟩
    | cons y bs =>
      simp only [List.cons_append, List.cons.injEq] at h2
      obtain ⟨rfl, h2⟩ := h2
      exact h pre i v bs h1

end Regalloc.Ssa
