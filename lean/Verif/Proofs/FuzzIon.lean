import Verif.Proofs.FuzzSsa
import Verif.Proofs.FuzzSize
import Verif.Proofs.RunOk
import Verif.Proofs.Liveness
import Verif.Props.PRegSet

/-
C52: generated functions are as the backtracking allocator requires.
-/
namespace Regalloc.FuzzGen.Built

open Liveness (Access ReadsFirst blockTrace instTrace regsAt Exec MayRead MayReadAfter)
open Apply (OpAt DefAt entryPt exitPt)

variable {x : Fn} {g : Graph} {n : Nat} {es : List (Nat × Nat)} {plans : List Plan} {nv : Nat} {xs : List (List InstData × List (List VReg))}

/-! ### What may be read is written on every path -/

theorem readsFirst_insts {f : Func} {v : Nat} : ∀ is : List Nat, ReadsFirst v (is.flatMap (fun i => instTrace (f.operands i))) →
    ∃ is1 i is2, is = is1 ++ i :: is2 ∧ Access.read v ∈ instTrace (f.operands i) ∧ Access.write v ∉ is1.flatMap (fun i => instTrace (f.operands i)) := by
  intro is
  induction is with
  | nil => rintro ⟨pre, post, h, -⟩; simp at h
  | cons i is ih =>
    intro h
    rw [List.flatMap_cons, Liveness.readsFirst_append] at h
    rcases h with ⟨pre, post, h, -⟩ | ⟨hw, h⟩
    · exact ⟨[], i, is, rfl, by rw [h]; simp, by simp⟩
    · obtain ⟨is1, j, is2, e, h1, h2⟩ := ih h
      refine ⟨i :: is1, j, is2, by rw [e]; rfl, h1, ?_⟩
      rw [List.flatMap_cons, List.mem_append]
      exact fun h => h.elim hw h2

theorem read_trace {ops : List Op} {v : Nat} (h : Access.read v ∈ instTrace ops) : ∃ r ∈ opReads ops, r.vreg = v := by
  have key : ∀ p, v ∈ regsAt ops .Use p → ∃ r ∈ opReads ops, r.vreg = v := by
    intro p hv
    unfold regsAt at hv
    obtain ⟨o, ho, e⟩ := List.mem_map.mp hv
    rw [List.mem_filter] at ho
    have := of_decide_eq_true ho.2
    exact ⟨o.vreg, List.mem_map_of_mem (List.mem_filter.mpr ⟨ho.1, by simp [this.1, this.2.2]⟩), e⟩
  unfold instTrace at h
  simp only [List.mem_append, List.mem_map, Access.read.injEq, exists_eq_right, reduceCtorEq, and_false, exists_false, or_false] at h
  exact h.elim (key _) (key _)

theorem write_trace {ops : List Op} {r : VReg} (h : r ∈ opWrites ops) (hm : r.vreg ≠ VReg.MAX) : Access.write r.vreg ∈ instTrace ops := by
  unfold opWrites at h
  obtain ⟨o, ho, rfl⟩ := List.mem_map.mp h
  rw [List.mem_filter] at ho
  have hk : o.kind = .Def := of_decide_eq_true ho.2
  have hn : o.asFixedNonallocatable = none := by
    unfold Op.asFixedNonallocatable
    split
    · rw [if_neg hm]
    · rfl
  have : o.vreg.vreg ∈ regsAt ops .Def o.pos := by
    unfold regsAt
    exact List.mem_map.mpr ⟨o, List.mem_filter.mpr ⟨ho.1, by simp [hk, hn]⟩, rfl⟩
  unfold instTrace
  simp only [List.mem_append, List.mem_map]
  cases hp : o.pos with
  | Early => rw [hp] at this; exact .inl (.inl (.inr ⟨_, this, rfl⟩))
  | Late => rw [hp] at this; exact .inr ⟨_, this, rfl⟩

/-- A register written in a block is written in its trace. -/
theorem write_block_trace (h : Built x g n es plans nv xs) (hV : x.numVregs ≤ VReg.MAX) {b : Nat} (hb : b < n) {r : VReg}
    (hr : r ∈ Ssa.writes x.func b) : Access.write r.vreg ∈ blockTrace x.func b := by
  have hmem : r ∈ allWrites x.func := by
    unfold allWrites
    exact List.mem_flatMap.mpr ⟨b, by rw [h.numBlocks]; exact List.mem_range.mpr hb, hr⟩
  have hlt : r.vreg < x.numVregs := h.range r hmem
  unfold Ssa.writes at hr
  unfold blockTrace
  rcases List.mem_append.mp hr with hr | hr
  · exact List.mem_append_left _ (List.mem_map.mpr ⟨r, hr, rfl⟩)
  · obtain ⟨i, hi, hr⟩ := List.mem_flatMap.mp hr
    exact List.mem_append_right _ (List.mem_flatMap.mpr ⟨i, hi, write_trace hr (by omega)⟩)

/-- An instruction of the block reads the register before the block writes it: it comes from afar. -/
theorem far_of_trace (h : Built x g n es plans nv xs) (hV : x.numVregs ≤ VReg.MAX) {b v : Nat} (hb : b < n)
    (hr : ReadsFirst v (blockTrace x.func b)) : ∃ r, r.vreg = v ∧ Far g plans b r := by
  unfold blockTrace at hr
  rw [Liveness.readsFirst_append] at hr
  rcases hr with ⟨pre, post, e, -⟩ | ⟨hp, hr⟩
  · have : Access.read v ∈ (x.func.params b).map (fun p => Access.write p.vreg) := by rw [e]; simp
    simp at this
  · obtain ⟨is1, i, is2, e, h1, h2⟩ := readsFirst_insts _ hr
    obtain ⟨r, hro, rfl⟩ := read_trace h1
    have hi : i ∈ x.func.blockInsts b := by rw [e]; simp
    obtain ⟨l1, l2⟩ := (h.mem_insts hb).mp hi
    rcases h.inst hb l1 l2 with ⟨-, ho, -⟩ | ⟨-, -, -, q, w, m1, m2, hq, hw, hm⟩
    · rw [ho] at hro; simp [opReads] at hro
    · rcases hm.reads r hro with hr | hr | ⟨⟨q', hq', hrv⟩, k, hk1, hk2, hr⟩
      · exact absurd (List.mem_map.mpr ⟨r, hr, rfl⟩) hp
      · exact ⟨r, rfl, hr⟩
      · exfalso
        apply h2
        have hlt : r.vreg < x.numVregs := h.range r (h.mem_all hq' hrv)
        refine List.mem_flatMap.mpr ⟨k, ?_, write_trace hr (by omega)⟩
        have hs : (is1 ++ i :: is2).Pairwise (· < ·) := by
          rw [← e]; unfold Func.blockInsts; exact List.pairwise_lt_range'
        have hkm : k ∈ is1 ++ i :: is2 := by rw [← e]; exact (h.mem_insts hb).mpr ⟨hk1, by omega⟩
        rcases List.mem_append.mp hkm with hk | hk
        · exact hk
        · have := (List.pairwise_append.mp hs).2.1
          rcases List.mem_cons.mp hk with rfl | hk
          · omega
          · have := (List.pairwise_cons.mp this).1 k hk
            omega

/-- An argument is written on every path. -/
theorem arg_path (h : Built x g n es plans nv xs) {b k s : Nat} (hs : (x.func.succs b)[k]? = some s) {i : Nat} {a : VReg}
    (ha : a ∈ x.func.args b i k) {l : List Nat} (hw : Walk x.func.succs 0 b (b :: l)) : RegEvent.write a ∈ pathEvents x.func (b :: l) := by
  obtain ⟨h1, q, hq, h2⟩ := h.argsOf hs i
  obtain ⟨j, hj⟩ := List.mem_iff_getElem?.mp ha
  have hlt : j < (x.func.params s).length := by rw [← h1]; exact (List.getElem?_eq_some_iff.mp hj).1
  have hz : (a, (x.func.params s)[j]) ∈ (x.func.args b i k).zip (x.func.params s) := by
    refine List.mem_iff_getElem?.mpr ⟨j, ?_⟩
    rw [List.getElem?_zip_eq_some]
    exact ⟨hj, List.getElem?_eq_getElem hlt⟩
  rw [Ssa.pathEvents_cons, List.mem_append]
  rcases (h2 _ hz).2 with hm | hf
  · exact .inr ((Ssa.write_mem_block _ _ _).mpr (h.mem_writes hq hm))
  · exact .inl (h.far_path hf hw)

theorem exec_path (h : Built x g n es plans nv xs) (hV : x.numVregs ≤ VReg.MAX) {b v : Nat} {t : List Access} (ht : Exec x.func b t) :
    ReadsFirst v t → ∀ l, Walk x.func.succs 0 b (b :: l) → ∃ r, r.vreg = v ∧ RegEvent.write r ∈ pathEvents x.func l := by
  induction ht with
  | stop b =>
    intro hr l hw
    obtain ⟨r, e, hf⟩ := h.far_of_trace hV (h.walk_lt hw) hr
    exact ⟨r, e, h.far_path hf hw⟩
  | @step b c i t hc ht ih =>
    intro hr l hw
    rw [List.append_assoc, Liveness.readsFirst_append] at hr
    rcases hr with hr | ⟨hnw, hr⟩
    · obtain ⟨r, e, hf⟩ := h.far_of_trace hV (h.walk_lt hw) hr
      exact ⟨r, e, h.far_path hf hw⟩
    · have key : ∃ r, r.vreg = v ∧ RegEvent.write r ∈ pathEvents x.func (b :: l) := by
        rw [Liveness.readsFirst_append] at hr
        rcases hr with ⟨pre, post, e, -⟩ | ⟨-, hr⟩
        · have : Access.read v ∈ (x.func.args b (x.func.lastInst b) i).map (fun p => Access.read p.vreg) := by rw [e]; simp
          obtain ⟨a, ha, e⟩ := List.mem_map.mp this
          cases e
          exact ⟨a, rfl, h.arg_path hc ha hw⟩
        · exact ih hr _ (hw.step (List.mem_of_getElem? hc))
      obtain ⟨r, e, hm⟩ := key
      refine ⟨r, e, ?_⟩
      rw [Ssa.pathEvents_cons, List.mem_append] at hm
      refine hm.resolve_right fun hm => hnw ?_
      rw [← e]
      exact h.write_block_trace hV (h.walk_lt hw) ((Ssa.write_mem_block _ _ _).mp hm)

theorem not_mayRead_entry (h : Built x g n es plans nv xs) (hV : x.numVregs ≤ VReg.MAX) (v : Nat) : ¬ MayRead x.func x.func.entry v := by
  rintro ⟨t, ht, hr⟩
  obtain ⟨r, -, hm⟩ := h.exec_path hV ht hr [] .start
  simp [pathEvents] at hm

/-- What is needed after a block is written in a block up to it. -/
theorem needed_before (h : Built x g n es plans nv xs) (hV : x.numVregs ≤ VReg.MAX) {a v : Nat} (ha : a < n)
    (hr : MayReadAfter x.func a v ∨ Build.PassedOn x.func a v) : ∃ d r, d ≤ a ∧ r.vreg = v ∧ r ∈ Ssa.writes x.func d := by
  obtain ⟨l, hl, hle⟩ := h.graph.path a a (Nat.le_refl _) ha
  rw [← h.succ_eq] at hl
  obtain ⟨l, rfl⟩ := walk_cons hl
  have key : ∃ r, r.vreg = v ∧ RegEvent.write r ∈ pathEvents x.func (a :: l) := by
    rcases hr with ⟨c, hc, t, ht, hr⟩ | ⟨k, c, hc, hv⟩
    · exact h.exec_path hV ht hr _ (hl.step hc)
    · obtain ⟨w, hw, e⟩ := List.mem_map.mp hv
      exact ⟨w, e, h.arg_path hc hw hl⟩
  obtain ⟨r, e, hm⟩ := key
  obtain ⟨d, hd, hm⟩ := (Ssa.write_mem_path _ _ _).mp hm
  exact ⟨d, r, hle d hd, e, hm⟩

end Regalloc.FuzzGen.Built
