import Verif.Spec.PRegSet
import Verif.Proofs.Encodings

namespace Regalloc.PRegSet

/-- Abstract membership by numeric index. -/
def has (s : PRegSet) (i : Nat) : Bool :=
  if h : i / 64 < 4 then (s.bits ⟨i / 64, h⟩).getLsbD (i % 64) else false

theorem bit_eq (r : PReg) : bit r = r.index % 64 := by
  simpa [bit] using Bits.and_mask (x := r.index) 6

theorem word_val (r : PReg) : (word r).val = r.index / 64 := by
  simp only [word, Bits.shr]

theorem index_lt (r : PReg) : r.index < 256 := by
  have := r.bits.toNat_lt
  unfold PReg.index; omega

theorem bit_lt (r : PReg) : bit r < 64 := by rw [bit_eq]; omega

theorem word_eq (r : PReg) (h : r.index / 64 < 4) : word r = ⟨r.index / 64, h⟩ :=
  Fin.ext (word_val r)

theorem index_inj {p q : PReg} (h : p.index = q.index) : p = q := PReg.ext_toNat h

theorem one_shl_getLsbD (b i : Nat) (hb : b < 64) :
    (1#64 <<< b).getLsbD i = decide (i = b) := by
  rw [← BitVec.twoPow_eq, BitVec.getLsbD_twoPow]
  by_cases h : b = i <;> simp [h, hb, eq_comm] <;> omega

theorem and_one_shl_ne (w : BitVec 64) (b : Nat) (hb : b < 64) :
    ((w &&& (1#64 <<< b)) != 0#64) = w.getLsbD b := by
  rw [← BitVec.twoPow_eq]
  by_cases h : w.getLsbD b
  · rw [h]
    simp only [bne_iff_ne, ne_eq]
    intro e
    have := congrArg (fun v => v.getLsbD b) e
    rw [BitVec.getLsbD_eq_getElem hb] at h
    simp [hb] at this
    rw [h] at this; simp at this
  · simp only [Bool.not_eq_true] at h
    rw [h]
    simp only [bne_eq_false_iff_eq]
    apply BitVec.eq_of_getLsbD_eq
    intro i hi
    simp only [BitVec.getLsbD_and, BitVec.getLsbD_twoPow]
    by_cases e : b = i
    · subst e; simp [h]
    · simp [e]

theorem contains_eq_has (s : PRegSet) (r : PReg) : s.contains r = s.has r.index := by
  have := index_lt r
  have h4 : r.index / 64 < 4 := by omega
  unfold contains has
  rw [and_one_shl_ne _ _ (bit_lt r), dif_pos h4, word_eq r h4, bit_eq]

theorem has_setWord (s : PRegSet) (k : Fin 4) (w : BitVec 64) (i : Nat) :
    (s.setWord k w).has i = if i / 64 = k.val then w.getLsbD (i % 64) else s.has i := by
  unfold has setWord
  by_cases h : i / 64 < 4
  · simp only [dif_pos h]
    by_cases e : i / 64 = k.val
    · rw [if_pos e, if_pos (Fin.ext e)]
    · rw [if_neg e, if_neg (fun x => e (congrArg Fin.val x))]
  · simp only [dif_neg h]
    rw [if_neg]
    have := k.isLt
    omega

theorem has_add (s : PRegSet) (r : PReg) (i : Nat) :
    (s.add r).has i = (decide (i = r.index) || s.has i) := by
  have := index_lt r
  unfold add
  rw [has_setWord, word_val]
  by_cases h : i / 64 = r.index / 64
  · rw [if_pos h]
    have h4 : i / 64 < 4 := by omega
    have : s.bits (word r) = s.bits ⟨i / 64, h4⟩ := by
      congr 1; exact Fin.ext (by rw [word_val]; exact h.symm)
    have hone := one_shl_getLsbD (bit r) (i % 64) (bit_lt r)
    simp only [BitVec.getLsbD_or, hone, has, dif_pos h4, this]
    rw [bit_eq]
    rw [Bool.or_comm]
    congr 1
    simp only [decide_eq_decide]
    constructor <;> intro <;> omega
  · rw [if_neg h]
    have : i ≠ r.index := by rintro rfl; exact h rfl
    simp [this]

theorem has_remove (s : PRegSet) (r : PReg) (i : Nat) :
    (s.remove r).has i = (!decide (i = r.index) && s.has i) := by
  have := index_lt r
  unfold remove
  rw [has_setWord, word_val]
  by_cases h : i / 64 = r.index / 64
  · rw [if_pos h]
    have h4 : i / 64 < 4 := by omega
    have : s.bits (word r) = s.bits ⟨i / 64, h4⟩ := by
      congr 1; exact Fin.ext (by rw [word_val]; exact h.symm)
    have h64 : i % 64 < 64 := by omega
    have hone := one_shl_getLsbD (bit r) (i % 64) (bit_lt r)
    simp only [BitVec.getLsbD_and, BitVec.getLsbD_not, hone, has, dif_pos h4, this]
    rw [bit_eq]
    rw [Bool.and_comm]
    congr 1
    simp only [h64, decide_true, Bool.true_and]
    congr 1
    simp only [decide_eq_decide]
    constructor <;> intro <;> omega
  · rw [if_neg h]
    have : i ≠ r.index := by rintro rfl; exact h rfl
    simp [this]

theorem has_union (s t : PRegSet) (i : Nat) : (s.unionFrom t).has i = (s.has i || t.has i) := by
  unfold has unionFrom
  by_cases h : i / 64 < 4 <;> simp [h]

theorem has_inter (s t : PRegSet) (i : Nat) : (s.intersectFrom t).has i = (s.has i && t.has i) := by
  unfold has intersectFrom
  by_cases h : i / 64 < 4 <;> simp [h]

theorem has_invert (s : PRegSet) (i : Nat) (hi : i < 256) : (s.invert).has i = !(s.has i) := by
  unfold has invert
  have h : i / 64 < 4 := by omega
  have h64 : i % 64 < 64 := by omega
  simp [h, h64]

theorem has_empty (i : Nat) : empty.has i = false := by
  unfold has empty
  split <;> simp

theorem has_ge (s : PRegSet) {i : Nat} (h : 256 ≤ i) : s.has i = false := by
  unfold has; rw [dif_neg (by omega)]

theorem has_ofList (l : List PReg) (s : PRegSet) (i : Nat) :
    (l.foldl add s).has i = (decide (∃ p ∈ l, p.index = i) || s.has i) := by
  induction l generalizing s with
  | nil => simp
  | cons a l ih =>
    rw [List.foldl_cons, ih, has_add]
    by_cases h1 : ∃ p ∈ l, p.index = i
    · simp [h1]
    · by_cases h2 : i = a.index
      · simp [h2]
      · have h3 : ¬ ∃ p ∈ a :: l, p.index = i := by
          rintro ⟨p, hp, e⟩
          rcases List.mem_cons.mp hp with rfl | hp
          · exact h2 e.symm
          · exact h1 ⟨p, hp, e⟩
        rw [decide_eq_false h1, decide_eq_false h2, decide_eq_false h3]; rfl

theorem has_addUpTo (s : PRegSet) (r : PReg) (i : Nat) :
    (s.addUpTo r).has i =
      (decide (i < r.index) || (decide (r.index / 64 < i / 64) && s.has i)) := by
  have hr := index_lt r
  unfold has addUpTo
  by_cases h : i / 64 < 4
  · simp only [dif_pos h]
    by_cases h1 : i / 64 < r.index / 64
    · have : (⟨i / 64, h⟩ : Fin 4) < word r := by
        rw [Fin.lt_def, word_val]; exact h1
      rw [if_pos this]
      have h2 : i < r.index := by omega
      have h64 : i % 64 < 64 := by omega
      rw [BitVec.getLsbD_allOnes]
      simp [h2, h64]
    · have : ¬ (⟨i / 64, h⟩ : Fin 4) < word r := by
        rw [Fin.lt_def, word_val]; exact h1
      rw [if_neg this]
      by_cases h2 : i / 64 = r.index / 64
      · rw [if_pos (Fin.ext (by rw [word_val]; exact h2))]
        have hpow : (1#64 <<< bit r) - 1#64 = BitVec.ofNat 64 (2 ^ bit r - 1) := by
          have hb := bit_lt r
          have hlt : 2 ^ bit r < 2 ^ 64 := Nat.pow_lt_pow_right (by decide) hb
          have hpos : 0 < 2 ^ bit r := Nat.pow_pos (by decide)
          apply BitVec.eq_of_toNat_eq
          rw [← BitVec.twoPow_eq]
          simp only [BitVec.toNat_sub, BitVec.toNat_twoPow, BitVec.toNat_ofNat]
          omega
        rw [hpow, BitVec.getLsbD_ofNat, Nat.testBit_two_pow_sub_one, bit_eq]
        have h64 : i % 64 < 64 := by omega
        have h3 : ¬ r.index / 64 < i / 64 := by omega
        simp only [h64, decide_true, Bool.true_and, h3, decide_false, Bool.false_and, Bool.or_false,
          decide_eq_decide]
        constructor <;> intro <;> omega
      · rw [if_neg (fun e => h2 (by rw [← word_val, ← e]))]
        have h3 : r.index / 64 < i / 64 := by omega
        have h4 : ¬ i < r.index := by omega
        simp [h3, h4]
  · have h4 : ¬ i < r.index := by omega
    simp [h, h4]

/-! ### iteration -/

/-- Members visible to an iterator. -/
def Iter.has (it : Iter) (i : Nat) : Bool := decide (it.cur ≤ i / 64) && it.set.has i

theorem Iter.next_spec (it : Iter) :
    match it.next with
    | none => ∀ i, it.has i = false
    | some (p, it') =>
        it.has p.index = true ∧ (∀ i, it.has i = true → p.index ≤ i) ∧
        (∀ i, it'.has i = (it.has i && !decide (i = p.index))) := by
  fun_induction Iter.next it with
  | case1 it h w hw b =>
    have hb1 : w.getLsbD b = true := BitVec.getLsbD_true_ctz_of_ne_zero hw
    have hb : b < 64 := by
      by_cases hb : b < 64
      · exact hb
      · rw [BitVec.getLsbD_of_ge _ _ (by omega)] at hb1; simp at hb1
    have hidx : (PReg.fromIndex (b + it.cur * 64)).index = b + it.cur * 64 := by
      unfold PReg.index
      rw [PReg.fromIndex_toNat]; omega
    have hdiv : (b + it.cur * 64) / 64 = it.cur := by omega
    have hmod : (b + it.cur * 64) % 64 = b := by omega
    simp only [hidx]
    refine ⟨?_, ?_, ?_⟩
    · simp only [Iter.has, hdiv, PRegSet.has, dif_pos h, hmod]
      simpa using hb1
    · intro i hi
      simp only [Iter.has, Bool.and_eq_true, decide_eq_true_eq] at hi
      obtain ⟨h1, h2⟩ := hi
      apply Decidable.byContradiction
      intro hlt
      have e : i / 64 = it.cur := by omega
      have hl : i % 64 < b := by omega
      have := BitVec.getLsbD_false_of_lt_ctz (x := w) (i := i % 64) hl
      have h2' : w.getLsbD (i % 64) = true := by
        unfold PRegSet.has at h2
        rw [dif_pos (by omega)] at h2
        have e2 : (⟨i / 64, by omega⟩ : Fin 4) = ⟨it.cur, h⟩ := Fin.ext e
        rw [e2] at h2
        exact h2
      rw [h2'] at this; simp at this
    · intro i
      simp only [Iter.has, has_setWord]
      by_cases e : i / 64 = it.cur
      · rw [if_pos e]
        have hh : it.set.has i = w.getLsbD (i % 64) := by
          unfold PRegSet.has
          rw [dif_pos (by omega)]
          have e2 : (⟨i / 64, by omega⟩ : Fin 4) = ⟨it.cur, h⟩ := Fin.ext e
          rw [e2]
        have h64 : i % 64 < 64 := by omega
        rw [hh]
        simp only [BitVec.getLsbD_and, BitVec.getLsbD_not, one_shl_getLsbD _ _ hb, h64,
          decide_true, Bool.true_and, Bool.and_assoc]
        congr 3
        simp only [decide_eq_decide]
        constructor <;> intro <;> omega
      · rw [if_neg e]
        have : i ≠ b + it.cur * 64 := by rintro rfl; exact e hdiv
        simp [this]
  | case2 it h w hw ih =>
    have hz : ∀ i, i / 64 = it.cur → it.set.has i = false := by
      intro i e
      unfold PRegSet.has
      rw [dif_pos (by omega)]
      have e2 : (⟨i / 64, by omega⟩ : Fin 4) = ⟨it.cur, h⟩ := Fin.ext e
      have hw' : w = 0#64 := by simpa using hw
      have hw2 : it.set.bits ⟨it.cur, h⟩ = 0#64 := hw'
      rw [e2, hw2]; simp
    have key : ∀ i, Iter.has { it with cur := it.cur + 1 } i = it.has i := by
      intro i
      unfold Iter.has
      by_cases e : i / 64 = it.cur
      · simp [hz i e]
      · congr 1
        simp only [decide_eq_decide]
        omega
    simpa only [key] using ih
  | case3 it h =>
    intro i
    unfold Iter.has
    by_cases hi : it.cur ≤ i / 64
    · rw [it.set.has_ge (by omega)]; simp
    · simp [hi]

/-- With enough fuel, collecting lists exactly the members in increasing order. -/
theorem Iter.collect_spec (n : Nat) (it : Iter) (lo : Nat) (hlo : ∀ i, it.has i = true → lo ≤ i)
    (hn : 256 ≤ n + lo) :
    (Iter.collect n it).Pairwise (fun p q => p.index < q.index) ∧
      ∀ p : PReg, p ∈ Iter.collect n it ↔ it.has p.index = true := by
  induction n generalizing it lo with
  | zero =>
    simp only [Iter.collect, List.Pairwise.nil, List.not_mem_nil, true_and, false_iff]
    intro p hp
    have := hlo _ hp
    have := index_lt p
    omega
  | succ n ih =>
    have hs := Iter.next_spec it
    unfold Iter.collect
    split
    · rename_i heq
      rw [heq] at hs
      simp only [List.Pairwise.nil, List.not_mem_nil, true_and, false_iff]
      intro p hp
      have := hs p.index
      simp_all
    · rename_i p it' heq
      rw [heq] at hs
      obtain ⟨h1, h2, h3⟩ := hs
      have hlo1 := hlo _ h1
      obtain ⟨ih1, ih2⟩ := ih it' (p.index + 1) (by
        intro i hi
        rw [h3] at hi
        simp only [Bool.and_eq_true, Bool.not_eq_true', decide_eq_false_iff_not] at hi
        have := h2 _ hi.1
        omega) (by omega)
      constructor
      · rw [List.pairwise_cons]
        refine ⟨?_, ih1⟩
        intro q hq
        rw [ih2, h3] at hq
        simp only [Bool.and_eq_true, Bool.not_eq_true', decide_eq_false_iff_not] at hq
        have := h2 _ hq.1
        omega
      · intro q
        rw [List.mem_cons, ih2, h3]
        simp only [Bool.and_eq_true, Bool.not_eq_true', decide_eq_false_iff_not]
        constructor
        · rintro (rfl | h)
          · exact h1
          · exact h.1
        · intro h
          by_cases e : q.index = p.index
          · exact Or.inl (index_inj e)
          · exact Or.inr ⟨h, e⟩

theorem Iter.has_start (s : PRegSet) (i : Nat) : Iter.has ⟨s, 0⟩ i = s.has i := by
  simp [Iter.has]

theorem toList_spec (s : PRegSet) :
    s.toList.Pairwise (fun p q => p.index < q.index) ∧ ∀ p : PReg, p ∈ s.toList ↔ s.has p.index = true := by
  have := Iter.collect_spec 257 ⟨s, 0⟩ 0 (fun _ _ => Nat.zero_le _) (by omega)
  simp only [Iter.has_start] at this
  exact this

/-! ### counting -/

theorem pairwise_lt_ext {l m : List Nat} (hl : l.Pairwise (· < ·)) (hm : m.Pairwise (· < ·))
    (h : ∀ x, x ∈ l ↔ x ∈ m) : l = m := by
  induction l generalizing m with
  | nil =>
    cases m with
    | nil => rfl
    | cons a m => exact absurd ((h a).mpr (List.mem_cons_self)) (by simp)
  | cons a l ih =>
    cases m with
    | nil => exact absurd ((h a).mp (List.mem_cons_self)) (by simp)
    | cons b m =>
      rw [List.pairwise_cons] at hl hm
      have hab : a = b := by
        rcases List.mem_cons.mp ((h a).mp List.mem_cons_self) with e | e
        · exact e
        · rcases List.mem_cons.mp ((h b).mpr List.mem_cons_self) with e' | e'
          · exact e'.symm
          · have := hl.1 b e'
            have := hm.1 a e
            omega
      subst hab
      congr 1
      apply ih hl.2 hm.2
      intro x
      constructor
      · intro hx
        rcases List.mem_cons.mp ((h x).mp (List.mem_cons_of_mem _ hx)) with e | e
        · have := hl.1 x hx; omega
        · exact e
      · intro hx
        rcases List.mem_cons.mp ((h x).mpr (List.mem_cons_of_mem _ hx)) with e | e
        · have := hm.1 x hx; omega
        · exact e

theorem toList_index (s : PRegSet) : s.toList.map PReg.index = (List.range 256).filter s.has := by
  obtain ⟨h1, h2⟩ := toList_spec s
  apply pairwise_lt_ext
  · rw [List.pairwise_map]; exact h1
  · exact List.Pairwise.filter _ List.pairwise_lt_range
  · intro x
    simp only [List.mem_map, List.mem_filter, List.mem_range]
    constructor
    · rintro ⟨p, hp, rfl⟩
      exact ⟨index_lt p, (h2 p).mp hp⟩
    · rintro ⟨hx, hh⟩
      have e : (PReg.fromIndex x).index = x := by
        unfold PReg.index; rw [PReg.fromIndex_toNat]; omega
      exact ⟨PReg.fromIndex x, (h2 _).mpr (by rw [e]; exact hh), e⟩

theorem len_eq (s : PRegSet) : s.len = (List.range 256).countP s.has := by
  have e : List.range 256 = List.range 64 ++ (List.range 64).map (64 + ·) ++
      (List.range 64).map (128 + ·) ++ (List.range 64).map (192 + ·) := by decide +kernel
  rw [e]
  simp only [List.countP_append, List.countP_map]
  unfold len countOnes
  have key : ∀ (k : Fin 4), (List.range 64).countP (fun i => (s.bits k).getLsbD i) =
      (List.range 64).countP (s.has ∘ (64 * k.val + ·)) := by
    intro k
    apply List.countP_congr
    intro i hi
    have hi := List.mem_range.mp hi
    have hk := k.isLt
    simp only [Function.comp, PRegSet.has]
    rw [dif_pos (by omega)]
    have e1 : (64 * k.val + i) % 64 = i := by omega
    have e2 : (⟨(64 * k.val + i) / 64, by omega⟩ : Fin 4) = k := Fin.ext (by simp; omega)
    rw [e1, e2]
  rw [key 0, key 1, key 2, key 3]
  have : (fun x => 64 * (0 : Fin 4).val + x) = (fun x : Nat => x) := by funext x; simp
  simp only [this]
  rfl

end Regalloc.PRegSet
