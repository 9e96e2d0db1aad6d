import Verif.Proofs.FastPath
import Verif.Props.Output

/-
Single-pass allocator: from the edit list and allocation table to whole executions.
-/
namespace Regalloc
namespace Fast
open Exec

variable {cx : Cx} {C : Nat → VReg}

theorem mem_editsOf {eb ea : Nat → List Edit} {is : List Nat} {x : Nat × Edit} (h : x ∈ editsOf eb ea is) :
    ∃ i ∈ is, 2 * i ≤ x.1 ∧ x.1 ≤ 2 * i + 1 := by
  unfold editsOf at h
  obtain ⟨i, hi, h⟩ := List.mem_flatMap.mp h
  refine ⟨i, hi, ?_⟩
  rcases List.mem_append.mp h with h | h
  · obtain ⟨e, _, rfl⟩ := List.mem_map.mp h
    show 2 * i ≤ ptBefore i ∧ ptBefore i ≤ _
    unfold ptBefore; omega
  · obtain ⟨e, _, rfl⟩ := List.mem_map.mp h
    show 2 * i ≤ ptAfter i ∧ ptAfter i ≤ _
    unfold ptAfter; omega

theorem editsOf_sorted {eb ea : Nat → List Edit} : ∀ {is : List Nat}, is.Pairwise (· < ·) → SortedEdits (editsOf eb ea is)
  | [], _ => List.Pairwise.nil
  | i :: is, h => by
    obtain ⟨h1, h2⟩ := List.pairwise_cons.mp h
    show SortedEdits (((eb i).map (fun e => (pt i .Before, e)) ++ (ea i).map (fun e => (pt i .After, e))) ++ editsOf eb ea is)
    unfold SortedEdits
    rw [List.pairwise_append]
    refine ⟨?_, editsOf_sorted h2, ?_⟩
    · rw [List.pairwise_append]
      refine ⟨?_, ?_, ?_⟩
      · rw [List.pairwise_map]; exact List.pairwise_of_forall (fun _ _ => Nat.le_refl _)
      · rw [List.pairwise_map]; exact List.pairwise_of_forall (fun _ _ => Nat.le_refl _)
      · intro a ha b hb
        obtain ⟨e, _, rfl⟩ := List.mem_map.mp ha
        obtain ⟨e', _, rfl⟩ := List.mem_map.mp hb
        show ptBefore i ≤ ptAfter i
        unfold ptBefore ptAfter; omega
    · intro a ha b hb
      have ha' : a ∈ editsOf eb ea [i] := by unfold editsOf; simpa using ha
      obtain ⟨j, hj, _, hj2⟩ := mem_editsOf ha'
      obtain ⟨k, hk, hk1, _⟩ := mem_editsOf hb
      have := h1 k hk
      rw [List.mem_singleton] at hj
      omega

/-- The items of a run of instructions, `E` coming first. -/
def itemsFrom (eb ea : Nat → List Edit) : List Edit → List Nat → List InstOrEdit
  | _, [] => []
  | E, i :: is => (E ++ eb i).map InstOrEdit.edit ++ [.inst i] ++ itemsFrom eb ea (ea i) is

theorem itemsFrom_range {eb ea : Nat → List Edit} : ∀ (n lo : Nat) (E : List Edit),
    itemsFrom eb ea E (List.range' lo n) =
      (List.range' lo n).flatMap (fun i => ((if i = lo then E else ea (i - 1)) ++ eb i).map InstOrEdit.edit ++ [.inst i])
  | 0, lo, E => rfl
  | n + 1, lo, E => by
    rw [List.range'_succ, itemsFrom, itemsFrom_range n (lo + 1) (ea lo), List.flatMap_cons, if_pos rfl]
    congr 1
    rw [List.flatMap_def, List.flatMap_def]
    congr 1
    apply List.map_congr_left
    intro i hi
    rw [List.mem_range'_1] at hi
    rw [if_neg (by omega : ¬ i = lo)]
    congr 3
    split
    · next e => subst e; simp
    · rfl

theorem filter_editsOf_nil {eb ea : Nat → List Edit} {p : Nat × Edit → Bool} {is : List Nat}
    (h : ∀ x : Nat × Edit, (∃ i ∈ is, 2 * i ≤ x.1 ∧ x.1 ≤ 2 * i + 1) → p x = false) : (editsOf eb ea is).filter p = [] := by
  rw [List.filter_eq_nil_iff]
  intro x hx
  rw [h x (mem_editsOf hx)]
  simp

theorem filter_const {α : Type} {l : List Edit} {q : Nat} {p : Nat × Edit → Bool} (g : Nat × Edit → α) (hp : ∀ e, p (q, e) = true) :
    ((l.map (fun e => (q, e))).filter p).map g = l.map (fun e => g (q, e)) := by
  rw [List.filter_eq_self.mpr, List.map_map]
  · rfl
  · intro a ha
    obtain ⟨e, _, rfl⟩ := List.mem_map.mp ha
    exact hp e

theorem filter_const_nil {l : List Edit} {q : Nat} {p : Nat × Edit → Bool} (hp : ∀ e, p (q, e) = false) :
    (l.map (fun e => (q, e))).filter p = [] := by
  rw [List.filter_eq_nil_iff]
  intro a ha
  obtain ⟨e, _, rfl⟩ := List.mem_map.mp ha
  rw [hp e]; simp

theorem blockItems_editsOf {eb ea : Nat → List Edit} {n lo hi : Nat} (hn : hi ≤ n) :
    blockItems (editsOf eb ea (List.range' 0 n)) lo hi = itemsFrom eb ea [] (List.range' lo (hi - lo)) := by
  rw [itemsFrom_range]
  unfold blockItems
  rw [List.flatMap_def, List.flatMap_def]
  congr 1
  apply List.map_congr_left
  intro i hi'
  rw [List.mem_range'_1] at hi'
  congr 1
  have hB : ∀ i, pt i .Before = 2 * i := fun _ => rfl
  have hA : ∀ i, pt i .After = 2 * i + 1 := fun _ => rfl
  have hspl : List.range' 0 n = List.range' 0 i ++ (i :: List.range' (i + 1) (n - i - 1)) := by
    have h1 := List.range'_append_1 (s := 0) (m := i) (n := n - i)
    rw [show i + (n - i) = n from by omega, Nat.zero_add] at h1
    rw [← h1]
    congr 1
    obtain ⟨m, hm⟩ : ∃ m, n - i = m + 1 := ⟨n - i - 1, by omega⟩
    rw [hm, List.range'_succ]; rfl
  have hd : ∀ x, decide (ptBefore lo ≤ x ∧ ptBefore i ≤ x + 1 ∧ x ≤ ptBefore i) =
      decide (2 * lo ≤ x ∧ 2 * i ≤ x + 1 ∧ x ≤ 2 * i) := fun _ => rfl
  simp only [hd]
  have h2 : ∀ is, editsOf eb ea (i :: is) = (eb i).map (fun e => (pt i .Before, e)) ++
      ((ea i).map (fun e => (pt i .After, e)) ++ editsOf eb ea is) := by
    intro is; unfold editsOf; rw [List.flatMap_cons, List.append_assoc]
  rw [hspl, editsOf_append, h2]
  simp only [List.filter_append, List.map_append]
  rw [filter_const (q := pt i .Before) _ (by intro e; simp only [hB, decide_eq_true_eq]; omega),
    filter_const_nil (q := pt i .After) (by intro e; simp only [hA, decide_eq_false_iff_not]; omega),
    filter_editsOf_nil (is := List.range' (i + 1) (n - i - 1)) (by
      rintro x ⟨j, hj, hj1, hj2⟩
      rw [List.mem_range'_1] at hj
      simp only [decide_eq_false_iff_not]; omega)]
  simp only [List.map_nil, List.append_nil]
  congr 1
  split
  · next e =>
    subst e
    rw [filter_editsOf_nil (by
      rintro x ⟨j, hj, hj1, hj2⟩
      rw [List.mem_range'_1] at hj
      simp only [decide_eq_false_iff_not]; omega)]
    rfl
  · next e =>
    have hspl : List.range' 0 i = List.range' 0 (i - 1) ++ [i - 1] := by
      have h1 := List.range'_append_1 (s := 0) (m := i - 1) (n := 1)
      rw [show i - 1 + 1 = i from by omega, Nat.zero_add] at h1
      rw [← h1]; rfl
    have h3 : editsOf eb ea [i - 1] = (eb (i - 1)).map (fun e => (pt (i - 1) .Before, e)) ++
        (ea (i - 1)).map (fun e => (pt (i - 1) .After, e)) := by unfold editsOf; simp
    rw [hspl, editsOf_append, h3]
    simp only [List.filter_append, List.map_append]
    rw [filter_const (q := pt (i - 1) .After) _ (by intro e; simp only [hA, decide_eq_true_eq]; omega),
      filter_const_nil (q := pt (i - 1) .Before) (by intro e; simp only [hB, decide_eq_false_iff_not]; omega),
      filter_editsOf_nil (by
        rintro x ⟨j, hj, hj1, hj2⟩
        rw [List.mem_range'_1] at hj
        simp only [decide_eq_false_iff_not]; omega)]
    rfl

theorem allocItems_edits {Val : Type} {f : Func} {out : Output} {sem : Sem Val} {junk : Nat → Allocation → Val} :
    ∀ (E : List Edit) (is : List InstOrEdit) (A : Allocation → Val) (tr : Trace Val),
    allocItems f out sem junk (E.map InstOrEdit.edit ++ is) A tr = allocItems f out sem junk is (execE E A) tr
  | [], _, _, _ => rfl
  | e :: E, is, A, tr => by
    rw [List.map_cons, List.cons_append, allocItems, allocItems_edits E is]
    rfl

theorem allocItems_runA {Val : Type} {f : Func} {out : Output} {sem : Sem Val} {junk : Nat → Allocation → Val}
    {eb ea : Nat → List Edit} {al : Nat → Nat → Allocation} : ∀ (is : List Nat) (i : Nat) (E : List Edit) (A : Allocation → Val)
    (tr : Trace Val), (∀ j ∈ i :: is, out.instAllocs j = some ((List.range (f.operands j).length).map (al j))) →
    allocItems f out sem junk (itemsFrom eb ea E (i :: is)) A tr = runA f eb ea al sem junk (i :: is) (execE E A) tr := by
  intro is
  induction is with
  | nil =>
    intro i E A tr h
    rw [itemsFrom, List.append_assoc, allocItems_edits, execE_append]
    simp only [itemsFrom, List.append_nil, allocItems, h i List.mem_cons_self, Option.getD_some, runA, if_pos]
    rfl
  | cons j is ih =>
    intro i E A tr h
    rw [itemsFrom, List.append_assoc, allocItems_edits, execE_append]
    rw [List.singleton_append, allocItems, h i List.mem_cons_self, Option.getD_some]
    rw [ih j _ _ _ (fun k hk => h k (List.mem_cons_of_mem _ hk))]
    conv => rhs; rw [runA]
    rfl

theorem flatMap_slice {α : Type} (g : Nat → List α) {N i : Nat} (h : i < N) :
    (((List.range N).flatMap g).drop (((List.range i).map (fun j => (g j).length)).sum)).take (g i).length = g i := by
  have e : List.range N = List.range i ++ (i :: List.range' (i + 1) (N - i - 1)) := by
    rw [List.range_eq_range', List.range_eq_range']
    have h1 := List.range'_append_1 (s := 0) (m := i) (n := N - i)
    rw [show i + (N - i) = N from by omega, Nat.zero_add] at h1
    rw [← h1]
    congr 1
    obtain ⟨m, hm⟩ : ∃ m, N - i = m + 1 := ⟨N - i - 1, by omega⟩
    rw [hm, List.range'_succ]; rfl
  rw [e, List.flatMap_append, List.flatMap_cons, List.drop_left' (by rw [List.length_flatMap]), List.take_left' rfl]

theorem instAllocs_outputOf (cx : Cx) (t : FS) {i : Nat} (h : i < cx.f.numInsts) :
    (outputOf cx t).instAllocs i = some ((List.range (cx.f.operands i).length).map (t.allocs i)) := by
  have hlen : ∀ j, ((List.range (cx.f.operands j).length).map (t.allocs j)).length = (cx.f.operands j).length := by simp
  have I : TableInv ((List.range cx.f.numInsts).map (fun i => (cx.f.operands i).length))
      ((outputOf cx t).allocs, (outputOf cx t).offsets) := by
    constructor
    · show ((List.range cx.f.numInsts).flatMap _).length = _
      rw [List.length_flatMap]
      simp only [hlen]
    · show (List.range cx.f.numInsts).map _ = _
      rw [List.length_map, List.length_range]
      apply List.map_congr_left
      intro j hj
      unfold tableOff
      rw [← List.map_take, List.take_range, Nat.min_eq_left (by have := List.mem_range.mp hj; omega)]
  have h1 := (instAllocs_spec I (outputOf cx t) rfl rfl (i := i) (n := (cx.f.operands i).length) (by simp [h])).1
  rw [h1]
  congr 1
  have := flatMap_slice (fun i => (List.range (cx.f.operands i).length).map (t.allocs i)) h
  simp only [hlen] at this
  unfold tableOff
  rw [← List.map_take, List.take_range, Nat.min_eq_left (by omega)]
  exact this

theorem glob_fin {bs : List Nat} {t : FS} {eb ea : Nat → List Edit} (G : Glob cx C bs t eb ea) : Fin t.slot t := by
  refine ⟨⟨fun _ _ h => h, G.inv.slotInj, fun _ _ h => G.inv.slot29 h⟩, fun w n h => ⟨?_, .inl h⟩⟩
  have := G.inv.slotLt w n h
  have := G.inv.numLe
  omega

section
variable (he : EnvOk cx) (hf : FuncOk cx.f C)
include hf

theorem block_run {Val : Type} {t : FS} {eb ea : Nat → List Edit} (G : Glob cx C (List.range cx.f.numBlocks) t eb ea)
    (sem : Sem Val) (junk : Nat → Allocation → Val) {b : Nat} (hb : b < cx.f.numBlocks) (A : Allocation → Val) (tr : Trace Val) :
    allocItems cx.f (outputOf cx t) sem junk ((outputOf cx t).blockInstsAndEdits cx.f b) A tr =
      runA cx.f eb ea t.allocs sem junk (cx.f.blockInsts b) A tr := by
  have he : (outputOf cx t).edits = editsOf eb ea (List.range' 0 cx.f.numInsts) := by
    show t.edits = _
    rw [G.edits, insts_range hf]
  have hlt : (cx.f.insns b).2 ≤ cx.f.numInsts := by
    have := inst_lt hf hb (lastInst_mem hf hb)
    have := hf.nonempty b hb
    unfold Func.lastInst at *
    omega
  rw [C20_block_items _ _ _ (by rw [he]; exact editsOf_sorted List.pairwise_lt_range'), he, blockItems_editsOf hlt]
  obtain ⟨is, hcons, _⟩ := blockInsts_cons (hf.nonempty b hb)
  have hcons' : List.range' (cx.f.insns b).1 ((cx.f.insns b).2 - (cx.f.insns b).1) = (cx.f.insns b).1 :: is := hcons
  rw [hcons', allocItems_runA (al := t.allocs), hcons]
  · rfl
  · intro j hj
    rw [← hcons] at hj
    exact instAllocs_outputOf cx t (inst_lt hf hb hj)

include he in
/-- Executions of the allocated and the original program agree from every reachable
block on, if the needed registers are in their slots. -/
theorem run_sim {t : FS} {eb ea : Nat → List Edit} (G : Glob cx C (List.range cx.f.numBlocks) t eb ea) {Val : Type}
    (sem : Sem Val) (junk : Nat → Allocation → Val) : ∀ (ks : List Nat) (b : Nat), Reach cx.f b →
    ∀ (V : VReg → Val) (A : Allocation → Val) (tr : Trace Val),
    (∀ w n, LIn cx ks b w → t.slot w = some n → A (stk n) = V (C w)) →
    allocRun cx.f (outputOf cx t) sem junk ks b A tr = origRun cx.f sem ks b V tr := by
  have hend : ∀ b, Reach cx.f b → ∀ (V : VReg → Val) (A : Allocation → Val) (tr : Trace Val),
      (∀ w n, liveB cx (fun _ => False) (cx.f.blockInsts b) w → t.slot w = some n → A (stk n) = V (C w)) →
      (runA cx.f eb ea t.allocs sem junk (cx.f.blockInsts b) A tr).2 = (origInsts cx.f sem (cx.f.blockInsts b) V tr).2 := by
    intro b hr V A tr h
    have hb := hr.lt hf
    exact (G.tr t.slot (glob_fin G) b (List.mem_range.mpr hb) Val sem junk _ _ id V A tr (fun _ h => h.elim) (fun _ h => h.elim)
      (fun _ h => h.elim) (edgeOk_end hf hr) h).1.1
  intro ks
  induction ks with
  | nil =>
    intro b hr V A tr h
    have hb := hr.lt hf
    unfold allocRun origRun
    rw [block_run hf G sem junk hb]
    exact hend b hr V A tr h
  | cons k ks ih =>
    intro b hr V A tr h
    have hb := hr.lt hf
    unfold allocRun origRun
    dsimp only
    rw [block_run hf G sem junk hb]
    cases hs : (cx.f.succs b)[k]? with
    | none =>
      rw [LIn_none hs] at h
      exact hend b hr V A tr h
    | some s =>
      rw [LIn_some hs] at h
      dsimp only
      have hsm := List.mem_of_getElem? hs
      have hsn := hf.succs b hb s hsm
      obtain ⟨⟨h1, h2⟩, _⟩ := G.tr t.slot (glob_fin G) b (List.mem_range.mpr hb) Val sem junk (LIn cx ks s)
        (LOutE cx (LIn cx ks s) b k s) (assignParams (edgeMoves cx.f b k s)) V A tr (fun w h => LIn_C hf hsn h)
        (fun w h => LOutE_C hf hb hs h) (fun w h hd => live_reader hf he hsn hb h hd) (edgeOk hf hr hs) h
      rw [h1]
      exact ih s (.step hr hsm) _ _ _ h2

include he in
theorem run_spec {out : Output} (h : run cx = .ok out) {Val : Type} (sem : Sem Val) (junk : Nat → Allocation → Val)
    (ks : List Nat) (V : VReg → Val) (A : Allocation → Val) :
    allocRun cx.f out sem junk ks cx.f.entry A [] = origRun cx.f sem ks cx.f.entry V [] := by
  unfold run at h
  split at h
  · cases h
  · next t ht =>
    have h := Except.ok.inj h
    subst h
    obtain ⟨eb, ea, G⟩ := runEnv_spec (fnOk he hf) ht
    refine run_sim he hf G sem junk ks _ .entry V A [] ?_
    intro w n hl
    obtain ⟨v, hv, _⟩ := LIn_defined (hf.defined ks) hl
    exact hv.elim

end

end Fast
end Regalloc
