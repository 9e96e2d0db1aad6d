import Verif.Spec.Output

namespace Regalloc

theorem dropWhile_eq_filter {es : List (Nat × Edit)} (hs : SortedEdits es) (lo : Nat) :
    es.dropWhile (fun pe => decide (pe.1 < lo)) = es.filter (fun pe => decide (lo ≤ pe.1)) := by
  induction es with
  | nil => rfl
  | cons a es ih =>
    have hs' := List.pairwise_cons.mp hs
    rw [List.dropWhile_cons, List.filter_cons]
    by_cases h : a.1 < lo
    · have : ¬ lo ≤ a.1 := by omega
      simp only [h, decide_true, if_true, this, decide_false, Bool.false_eq_true, if_false]
      exact ih hs'.2
    · have : lo ≤ a.1 := by omega
      simp only [h, decide_false, Bool.false_eq_true, if_false, this, decide_true, if_true]
      congr 1
      symm
      rw [List.filter_eq_self]
      intro b hb
      have := hs'.1 b hb
      simp; omega

/-- spec without the lower bound -/
def items (es : List (Nat × Edit)) (lo k : Nat) : List InstOrEdit :=
  (List.range' lo k).flatMap fun i =>
    (es.filter fun pe => ptBefore i ≤ pe.1 + 1 ∧ pe.1 ≤ ptBefore i).map
      (fun pe => InstOrEdit.edit pe.2) ++ [.inst i]

theorem items_cons_edit {p : Nat} {e : Edit} {es : List (Nat × Edit)} {lo k : Nat}
    (h1 : ptBefore lo ≤ p + 1) (h2 : p ≤ ptBefore lo) :
    items ((p, e) :: es) lo (k + 1) = .edit e :: items es lo (k + 1) := by
  unfold items
  rw [List.range'_succ, List.flatMap_cons, List.flatMap_cons]
  have : ((p, e) :: es).filter (fun pe => decide (ptBefore lo ≤ pe.1 + 1 ∧ pe.1 ≤ ptBefore lo)) =
      (p, e) :: es.filter (fun pe => decide (ptBefore lo ≤ pe.1 + 1 ∧ pe.1 ≤ ptBefore lo)) := by
    rw [List.filter_cons]; simp only [h1, h2, and_self, decide_true, if_true]
  rw [this]
  simp only [List.map_cons, List.cons_append, List.cons.injEq, true_and, List.append_assoc]
  congr 2
  simp only [List.nil_append, List.flatMap_def]
  congr 1
  apply List.map_congr_left
  intro i hi
  have : lo + 1 ≤ i := by simp [List.mem_range'] at hi; omega
  rw [List.filter_cons]
  have : ¬ (ptBefore i ≤ p + 1 ∧ p ≤ ptBefore i) := by unfold ptBefore at *; omega
  simp only [this, decide_false, Bool.false_eq_true, if_false]

theorem items_cons_inst {es : List (Nat × Edit)} {lo k : Nat} (h : ∀ pe ∈ es, ptBefore lo < pe.1) :
    items es lo (k + 1) = .inst lo :: items es (lo + 1) k := by
  unfold items
  rw [List.range'_succ, List.flatMap_cons]
  have : es.filter (fun pe => decide (ptBefore lo ≤ pe.1 + 1 ∧ pe.1 ≤ ptBefore lo)) = [] := by
    rw [List.filter_eq_nil_iff]
    intro a ha
    have := h a ha
    simp; omega
  rw [this]
  simp

theorem drain_spec (fuel : Nat) (es : List (Nat × Edit)) (lo k : Nat) (hs : SortedEdits es)
    (hlo : ∀ pe ∈ es, ptBefore lo ≤ pe.1 + 1) (hf : k + es.length < fuel) :
    OutputIter.drain fuel ⟨es, lo, lo + k⟩ = items es lo k := by
  induction fuel generalizing es lo k with
  | zero => omega
  | succ fuel ih =>
    unfold OutputIter.drain OutputIter.next
    cases k with
    | zero => simp [items]
    | succ k =>
      have hne : ¬ (lo + (k + 1) - lo = 0) := by omega
      simp only [hne, if_false]
      cases es with
      | nil =>
        simp only
        rw [show lo + (k + 1) = (lo + 1) + k by omega, ih [] (lo + 1) k .nil (by simp) (by simp at hf ⊢; omega)]
        rw [items_cons_inst (by simp)]
      | cons a es =>
        obtain ⟨p, e⟩ := a
        have hs' := List.pairwise_cons.mp hs
        simp only
        by_cases h : p ≤ ptBefore lo
        · rw [if_pos h]
          simp only
          rw [ih es lo (k + 1) hs'.2 (fun pe h => hlo pe (List.mem_cons_of_mem _ h)) (by simp at hf ⊢; omega)]
          rw [items_cons_edit (hlo (p, e) (by simp)) h]
        · rw [if_neg h]
          simp only
          have hgt : ∀ pe ∈ (p, e) :: es, ptBefore lo < pe.1 := by
            intro pe hpe
            rcases List.mem_cons.mp hpe with rfl | hpe
            · simp at h ⊢; omega
            · have := hs'.1 pe hpe
              simp at h this ⊢; omega
          rw [show lo + (k + 1) = (lo + 1) + k by omega, ih _ (lo + 1) k hs ?_ (by simp at hf ⊢; omega),
            items_cons_inst hgt]
          intro pe hpe
          have := hgt pe hpe
          unfold ptBefore at *; omega

theorem blockInstsAndEdits_spec (out : Output) (f : Func) (b : Nat) (hs : SortedEdits out.edits) :
    out.blockInstsAndEdits f b = blockItems out.edits (f.insns b).1 (f.insns b).2 := by
  unfold Output.blockInstsAndEdits blockItems
  simp only
  generalize (f.insns b).1 = lo
  generalize (f.insns b).2 = hi
  rw [dropWhile_eq_filter hs]
  have hitems : items (out.edits.filter (fun pe => decide (ptBefore lo ≤ pe.1))) lo (hi - lo) =
      (List.range' lo (hi - lo)).flatMap fun i =>
        (out.edits.filter fun pe => ptBefore lo ≤ pe.1 ∧ ptBefore i ≤ pe.1 + 1 ∧ pe.1 ≤ ptBefore i).map
          (fun pe => InstOrEdit.edit pe.2) ++ [.inst i] := by
    unfold items
    congr 1
    funext i
    rw [List.filter_filter]
    congr 2
    apply List.filter_congr
    intro a _
    simp only [decide_eq_decide, ← Bool.decide_and]
    constructor
    · rintro ⟨⟨h1, h2⟩, h3⟩; exact ⟨h3, h1, h2⟩
    · rintro ⟨h1, h2, h3⟩; exact ⟨⟨h2, h3⟩, h1⟩
  rw [← hitems]
  have hlen := List.length_filter_le (fun pe : Nat × Edit => decide (ptBefore lo ≤ pe.1)) out.edits
  by_cases h : lo ≤ hi
  · have := drain_spec (hi - lo + out.edits.length + 1)
      (out.edits.filter (fun pe => decide (ptBefore lo ≤ pe.1))) lo (hi - lo) (hs.sublist List.filter_sublist)
      (by intro pe hpe; simp at hpe; unfold ptBefore at *; omega) (by omega)
    rw [show lo + (hi - lo) = hi by omega] at this
    exact this
  · have hz : hi - lo = 0 := by omega
    simp [hz, items, OutputIter.drain, OutputIter.next]

/-! ### Allocation table -/

/-- Offset of instruction `i`. -/
def tableOff (lens : List Nat) (i : Nat) : Nat := (lens.take i).sum

theorem buildTable_spec (lens : List Nat) (t : List Allocation × List Nat) :
    buildTable lens t = (t.1 ++ List.replicate lens.sum Allocation.none,
      t.2 ++ (List.range lens.length).map (fun i => t.1.length + tableOff lens i)) := by
  induction lens generalizing t with
  | nil => simp [buildTable]
  | cons n lens ih =>
    unfold buildTable
    rw [ih]
    simp only [List.append_assoc, List.replicate_append_replicate, List.sum_cons, List.length_append,
      List.length_replicate, List.length_cons, List.range_succ_eq_map, List.map_cons, List.map_map]
    congr 2
    simp only [List.singleton_append, tableOff, List.take_zero, List.sum_nil, Nat.add_zero, List.cons.injEq,
      true_and]
    apply List.map_congr_left
    intro i _
    simp [Function.comp, Nat.add_assoc]

theorem tableOff_succ {lens : List Nat} {i n : Nat} (h : lens[i]? = some n) :
    tableOff lens (i + 1) = tableOff lens i + n := by
  unfold tableOff
  rw [List.take_add_one, h]
  simp

theorem tableOff_mono (lens : List Nat) {i j : Nat} (h : i ≤ j) : tableOff lens i ≤ tableOff lens j := by
  unfold tableOff
  have : lens.take i = (lens.take j).take i := by rw [List.take_take]; congr 1; omega
  rw [this]
  have h2 : ((lens.take j).take i).sum + ((lens.take j).drop i).sum = (lens.take j).sum := by
    rw [← List.sum_append, List.take_append_drop]
  omega

theorem tableOff_le_sum (lens : List Nat) (i : Nat) : tableOff lens i ≤ lens.sum := by
  unfold tableOff
  have h2 : (lens.take i).sum + (lens.drop i).sum = lens.sum := by
    rw [← List.sum_append, List.take_append_drop]
  omega

theorem slot_lt {lens : List Nat} {i n s : Nat} (h : lens[i]? = some n) (hs : s < n) :
    tableOff lens i + s < lens.sum := by
  have := tableOff_succ h
  have := tableOff_le_sum lens (i + 1)
  omega

theorem slot_inj {lens : List Nat} {i j n m s r : Nat} (h : lens[i]? = some n) (h' : lens[j]? = some m)
    (hs : s < n) (hr : r < m) (he : tableOff lens i + s = tableOff lens j + r) : i = j ∧ s = r := by
  have h1 := tableOff_succ h
  have h2 := tableOff_succ h'
  rcases Nat.lt_trichotomy i j with hlt | rfl | hlt
  · have := tableOff_mono lens (show i + 1 ≤ j by omega); omega
  · exact ⟨rfl, by omega⟩
  · have := tableOff_mono lens (show j + 1 ≤ i by omega); omega

/-- Invariant of the table. -/
structure TableInv (lens : List Nat) (t : List Allocation × List Nat) : Prop where
  len : t.1.length = lens.sum
  offs : t.2 = (List.range lens.length).map (tableOff lens)

theorem TableInv.off {lens : List Nat} {t : List Allocation × List Nat} (I : TableInv lens t) {i n : Nat}
    (h : lens[i]? = some n) : t.2[i]? = some (tableOff lens i) := by
  have := (List.getElem?_eq_some_iff.mp h).1
  rw [I.offs]
  simp [this]

theorem replay_spec (lens : List Nat) (ws : SlotWrites) (t : List Allocation × List Nat)
    (I : TableInv lens t) (hv : ws.Valid lens) :
    ∃ t', replayWrites ws t = some t' ∧ TableInv lens t' ∧
      ∀ i n s, lens[i]? = some n → s < n → ∀ a, t.1[tableOff lens i + s]? = some a →
        t'.1[tableOff lens i + s]? =
          some (ws.foldl (fun acc w => if w.1 = i ∧ w.2.1 = s then w.2.2 else acc) a) := by
  induction ws generalizing t with
  | nil => exact ⟨t, rfl, I, fun _ _ _ _ _ a h => h⟩
  | cons w ws ih =>
    obtain ⟨j, r, b⟩ := w
    obtain ⟨m, hm, hr⟩ := hv (j, r, b) (by simp)
    simp only at hm hr
    have hlt : tableOff lens j + r < t.1.length := by rw [I.len]; exact slot_lt hm hr
    have I' : TableInv lens (t.1.set (tableOff lens j + r) b, t.2) := ⟨by simp [I.len], I.offs⟩
    obtain ⟨t', h1, h2, h3⟩ := ih (t.1.set (tableOff lens j + r) b, t.2) I'
      (fun w hw => hv w (List.mem_cons_of_mem _ hw))
    refine ⟨t', ?_, h2, ?_⟩
    · unfold replayWrites setAlloc
      simp only [I.off hm, if_pos hlt]
      exact h1
    · intro i n s hi hs a ha
      rw [List.foldl_cons]
      by_cases e : j = i ∧ r = s
      · obtain ⟨rfl, rfl⟩ := e
        rw [h3 j n r hi hs b (by simp [hlt])]
        simp
      · simp only [e, if_false]
        apply h3 i n s hi hs a
        rw [List.getElem?_set_ne]
        · exact ha
        · intro he; exact e (slot_inj hm hi hr hs he)

theorem instAllocs_spec {lens : List Nat} {t : List Allocation × List Nat} (I : TableInv lens t)
    (out : Output) (h1 : out.allocs = t.1) (h2 : out.offsets = t.2) {i n : Nat} (h : lens[i]? = some n) :
    out.instAllocs i = some ((t.1.drop (tableOff lens i)).take n) ∧
      ((t.1.drop (tableOff lens i)).take n).length = n := by
  have hi := (List.getElem?_eq_some_iff.mp h).1
  have hl : t.2.length = lens.length := by rw [I.offs]; simp
  have e1 := tableOff_succ h
  have e2 := tableOff_le_sum lens (i + 1)
  have e3 := I.len
  unfold Output.instAllocs
  rw [h1, h2, I.off h]
  simp only
  have hstop : (if i + 1 = t.2.length then some t.1.length else t.2[i + 1]?) = some (tableOff lens i + n) := by
    split
    · next he =>
      rw [I.len, ← e1]
      have : i + 1 = lens.length := by omega
      unfold tableOff
      rw [this, List.take_length]
    · next he =>
      have : i + 1 < lens.length := by omega
      rw [I.offs]
      simp [this, e1]
  rw [hstop]
  simp only
  refine ⟨?_, ?_⟩
  · rw [if_pos (by omega)]
    congr 2; omega
  · rw [List.length_take, List.length_drop]; omega

end Regalloc

namespace Regalloc

theorem items_insts (es : List (Nat × Edit)) (lo k : Nat) :
    (items es lo k).filterMap InstOrEdit.inst? = List.range' lo k := by
  unfold items
  generalize List.range' lo k = l
  induction l with
  | nil => rfl
  | cons i l ih =>
    rw [List.flatMap_cons, List.filterMap_append, ih, List.filterMap_append, List.filterMap_map]
    have : List.filterMap (InstOrEdit.inst? ∘ fun pe : Nat × Edit => InstOrEdit.edit pe.2)
        (es.filter fun pe => decide (ptBefore i ≤ pe.1 + 1 ∧ pe.1 ≤ ptBefore i)) = [] := by
      rw [List.filterMap_eq_nil_iff]; intro a _; rfl
    rw [this]
    simp [InstOrEdit.inst?]

theorem items_edits (m : Nat) (es : List (Nat × Edit)) (lo k : Nat) (hs : SortedEdits es)
    (hlo : ∀ pe ∈ es, ptBefore lo ≤ pe.1 + 1) (hm : k + es.length = m) :
    (items es lo k).filterMap InstOrEdit.edit? =
      (es.filter (fun pe => decide (pe.1 + 2 ≤ ptBefore (lo + k)))).map (·.2) := by
  induction m generalizing es lo k with
  | zero =>
    have h1 : k = 0 := by omega
    have h2 : es = [] := List.length_eq_zero_iff.mp (by omega)
    subst h1; subst h2; rfl
  | succ m ih =>
    cases k with
    | zero =>
      have : es.filter (fun pe => decide (pe.1 + 2 ≤ ptBefore (lo + 0))) = [] := by
        rw [List.filter_eq_nil_iff]
        intro a ha
        have := hlo a ha
        simp at this ⊢; omega
      rw [this]; rfl
    | succ k =>
      cases es with
      | nil =>
        rw [items_cons_inst (by simp), List.filterMap_cons_none rfl, ih [] (lo + 1) k .nil (by simp) (by simp at hm ⊢; omega)]
        rfl
      | cons a es =>
        obtain ⟨p, e⟩ := a
        have hs' := List.pairwise_cons.mp hs
        by_cases h : p ≤ ptBefore lo
        · rw [items_cons_edit (hlo (p, e) (by simp)) h, List.filterMap_cons_some (f := InstOrEdit.edit?) (b := e) rfl,
            ih es lo (k + 1) hs'.2 (fun pe h => hlo pe (List.mem_cons_of_mem _ h)) (by simp at hm ⊢; omega)]
          rw [List.filter_cons]
          have : p + 2 ≤ ptBefore (lo + (k + 1)) := by unfold ptBefore at *; omega
          simp [this]
        · have hgt : ∀ pe ∈ (p, e) :: es, ptBefore lo < pe.1 := by
            intro pe hpe
            rcases List.mem_cons.mp hpe with rfl | hpe
            · simp at h ⊢; omega
            · have := hs'.1 pe hpe
              simp at h this ⊢; omega
          rw [items_cons_inst hgt, List.filterMap_cons_none rfl, ih _ (lo + 1) k hs ?_ (by simp at hm ⊢; omega)]
          · rw [show lo + 1 + k = lo + (k + 1) by omega]
          · intro pe hpe
            have := hgt pe hpe
            unfold ptBefore at *; omega

theorem blockItems_eq_items (es : List (Nat × Edit)) (lo hi : Nat) :
    blockItems es lo hi = items (es.filter (fun pe => decide (ptBefore lo ≤ pe.1))) lo (hi - lo) := by
  unfold items blockItems
  congr 1
  funext i
  rw [List.filter_filter]
  congr 2
  apply List.filter_congr
  intro a _
  simp only [decide_eq_decide, ← Bool.decide_and]
  constructor
  · rintro ⟨h1, h2, h3⟩; exact ⟨⟨h2, h3⟩, h1⟩
  · rintro ⟨⟨h1, h2⟩, h3⟩; exact ⟨h3, h1, h2⟩

theorem slices_cover (lens : List Nat) (t : List Allocation × List Nat) (I : TableInv lens t) :
    (List.range lens.length).flatMap (fun i => (t.1.drop (tableOff lens i)).take (lens[i]?.getD 0)) = t.1 := by
  have key : ∀ k, k ≤ lens.length →
      (List.range k).flatMap (fun i => (t.1.drop (tableOff lens i)).take (lens[i]?.getD 0)) =
        t.1.take (tableOff lens k) := by
    intro k
    induction k with
    | zero => intro _; simp [tableOff]
    | succ k ih =>
      intro hk
      have hn : lens[k]? = some lens[k] := List.getElem?_eq_getElem (by omega)
      rw [List.range_succ, List.flatMap_append, ih (by omega), tableOff_succ hn, List.take_add]
      simp [hn]
  rw [key _ (Nat.le_refl _)]
  have : tableOff lens lens.length = t.1.length := by unfold tableOff; rw [List.take_length, I.len]
  rw [this, List.take_length]

end Regalloc
