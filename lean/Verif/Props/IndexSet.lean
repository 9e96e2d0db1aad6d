/-
C07: index sets (`/repo/src/indexset.rs`).
-/
import Verif.Proofs.IndexSet

namespace Regalloc

open AdaptiveMap IndexSet

/-- representation invariant of every history. -/
theorem IdxHist.wf (h : IdxHist) : h.run.elems.Wf := by
  induction h with
  | new => exact ⟨List.nodup_nil, by simp [run, IndexSet.new, AdaptiveMap.new, entries],
      by intro es h; cases h; simp⟩
  | set h i v ih => exact set_wf ih i v
  | union a b ord iha ihb => exact (unionWith_spec ord iha ihb).1
  | assign a b _ ihb => exact ihb

theorem IdxHist.look_high (h : IdxHist) (k b : Nat) (hh : 2 ^ 32 ≤ k) :
    (look h.run.elems.entries k).getLsbD b = false := by
  rw [look_of_not_mem]
  · simp
  · intro hk
    obtain ⟨e, he, rfl⟩ := List.mem_map.mp hk
    have := h.wf.bound e he
    omega

/-- **C07.** After any history of operations (any number of sets, any hash
iteration orders) the set contains exactly the indices of the corresponding
mathematical set. -/
theorem C07_history (h : IdxHist) (hr : h.InRange) (j : Nat) (hj : j < 2 ^ 38) :
    h.run.get j = true ↔ h.Mem j := by
  induction h with
  | new => simp [IdxHist.run, IdxHist.Mem, IndexSet.new, AdaptiveMap.new, IndexSet.get, AdaptiveMap.get, entries]
  | set h i v ih =>
    have ih := ih hr.1
    have hw := h.wf
    simp only [IdxHist.run, IdxHist.Mem]
    rw [get_eq, look_set hw, wordIndex_eq hj, wordIndex_eq hr.2]
    rw [get_eq, wordIndex_eq hj] at ih
    have hm : i % 64 < 64 := by omega
    have hm' : j % 64 < 64 := by omega
    by_cases e : j = i
    · subst e
      cases v with
      | true => simp only [if_true, BitVec.getLsbD_or, PRegSet.one_shl_getLsbD _ _ hm]; simp
      | false =>
        simp
    · simp only [e, if_false]
      by_cases ew : j / 64 = i / 64
      · have : j % 64 ≠ i % 64 := by omega
        rw [if_pos ew]
        cases v with
        | true =>
          simp only [if_true, BitVec.getLsbD_or, PRegSet.one_shl_getLsbD _ _ hm, this]
          simpa using ih
        | false =>
          simp only [Bool.false_eq_true, if_false, BitVec.getLsbD_and, BitVec.getLsbD_not,
            PRegSet.one_shl_getLsbD _ _ hm, this, hm']
          simpa using ih
      · rw [if_neg ew]; exact ih
  | union a b ord iha ihb =>
    have iha := iha hr.1
    have ihb := ihb hr.2
    simp only [IdxHist.run, IdxHist.Mem]
    rw [get_eq, (unionWith_spec ord a.wf b.wf).2.1, BitVec.getLsbD_or, Bool.or_eq_true, ← get_eq, ← get_eq,
      iha, ihb]
  | assign a b _ ihb => exact ihb hr.2

/-- **C07.** Iterating yields each member exactly once and nothing else, whatever
the hash order. -/
theorem C07_iteration (h : IdxHist) (hr : h.InRange) (ord : HashOrder) :
    (h.run.iter ord).Nodup ∧ ∀ j, j ∈ h.run.iter ord ↔ (j < 2 ^ 38 ∧ h.Mem j) := by
  have hw := h.wf
  have hp := iter_perm ord h.run.elems
  have hn : ((h.run.elems.iter ord).map (·.1)).Nodup := (hp.map _).nodup_iff.mpr hw.nodup
  have hsb : ∀ w : Word, (setBits 65 w).Pairwise (· < ·) ∧ ∀ i, i ∈ setBits 65 w ↔ w.getLsbD i = true :=
    fun w => setBits_spec 65 w 0 (by simp) (by omega)
  have h64 : ∀ (w : Word) i, i ∈ setBits 65 w → i < 64 := by
    intro w i hi
    rw [(hsb w).2] at hi
    apply Decidable.byContradiction
    intro h; rw [BitVec.getLsbD_of_ge _ _ (by omega)] at hi; simp at hi
  refine ⟨?_, ?_⟩
  · unfold IndexSet.iter
    generalize h.run.elems.iter ord = l at hn
    clear hp
    induction l with
    | nil => simp
    | cons e l ih =>
      simp only [List.map_cons, List.nodup_cons] at hn
      rw [List.flatMap_cons, List.nodup_append]
      refine ⟨?_, ih hn.2, ?_⟩
      · refine List.Pairwise.map _ (R := fun a b => a < b) ?_ (hsb e.2).1
        intro a b hab; unfold BITS_PER_WORD; omega
      · intro a ha b hb
        obtain ⟨i, hi, rfl⟩ := List.mem_map.mp ha
        obtain ⟨e', he', hb⟩ := List.mem_flatMap.mp hb
        obtain ⟨i', hi', rfl⟩ := List.mem_map.mp hb
        have h1 := h64 _ _ hi
        have h2 := h64 _ _ hi'
        have h3 : e.1 ≠ e'.1 := fun h => hn.1 (by rw [h]; exact List.mem_map_of_mem he')
        unfold BITS_PER_WORD; omega
  · intro j
    have hget : (j < 2 ^ 38 ∧ h.Mem j) ↔ (look h.run.elems.entries (j / 64)).getLsbD (j % 64) = true := by
      constructor
      · rintro ⟨hj, hm⟩
        have := (C07_history h hr j hj).mpr hm
        rwa [get_eq, wordIndex_eq hj] at this
      · intro hm
        have hj : j < 2 ^ 38 := by
          apply Decidable.byContradiction
          intro hge
          rw [IdxHist.look_high h (j / 64) _ (by omega)] at hm
          simp at hm
        refine ⟨hj, (C07_history h hr j hj).mp ?_⟩
        rwa [get_eq, wordIndex_eq hj]
    rw [hget]
    unfold IndexSet.iter
    rw [List.mem_flatMap]
    constructor
    · rintro ⟨e, he, hj⟩
      obtain ⟨i, hi, rfl⟩ := List.mem_map.mp hj
      have h1 := h64 _ _ hi
      unfold BITS_PER_WORD
      have e1 : (64 * e.1 + i) / 64 = e.1 := by omega
      have e2 : (64 * e.1 + i) % 64 = i := by omega
      rw [e1, e2, look_of_mem hw.nodup (hp.mem_iff.mp he)]
      exact ((hsb e.2).2 i).mp hi
    · intro hb
      have hk : j / 64 ∈ h.run.elems.entries.map (·.1) := by
        apply Decidable.byContradiction
        intro hk
        rw [look_of_not_mem hk] at hb; simp at hb
      obtain ⟨e, he, e1⟩ := List.mem_map.mp hk
      refine ⟨e, hp.mem_iff.mpr he, List.mem_map.mpr ⟨j % 64, ?_, ?_⟩⟩
      · rw [(hsb e.2).2, ← look_of_mem hw.nodup he, e1]; exact hb
      · unfold BITS_PER_WORD; omega

/-- **C07.** `union_with` reports a change exactly when the set grew. -/
theorem C07_union_reports_growth (a b : IdxHist) (ha : a.InRange) (hb : b.InRange) (ord : HashOrder) :
    (a.run.unionWith ord b.run).2 = true ↔ ∃ j, j < 2 ^ 38 ∧ b.Mem j ∧ ¬ a.Mem j := by
  rw [(unionWith_spec ord a.wf b.wf).2.2]
  constructor
  · rintro ⟨k, i, h1, h2⟩
    have hk : k < 2 ^ 32 := by
      apply Decidable.byContradiction
      intro h; rw [IdxHist.look_high b k i (by omega)] at h1; simp at h1
    have hi : i < 64 := by
      apply Decidable.byContradiction
      intro h; rw [BitVec.getLsbD_of_ge _ _ (by omega)] at h1; simp at h1
    have hj : 64 * k + i < 2 ^ 38 := by omega
    have e1 : (64 * k + i) / 64 = k := by omega
    have e2 : (64 * k + i) % 64 = i := by omega
    refine ⟨64 * k + i, hj, ?_, ?_⟩
    · rw [← C07_history b hb _ hj, get_eq, wordIndex_eq hj, e1, e2]; exact h1
    · rw [← C07_history a ha _ hj, get_eq, wordIndex_eq hj, e1, e2, h2]; simp
  · rintro ⟨j, hj, h1, h2⟩
    rw [← C07_history b hb _ hj, get_eq, wordIndex_eq hj] at h1
    rw [← C07_history a ha _ hj, get_eq, wordIndex_eq hj] at h2
    exact ⟨_, _, h1, by simpa using h2⟩

/-- **C07.** `is_empty` holds exactly for the empty set (also when the set once
had members: cleared words stay stored as zero). -/
theorem C07_is_empty (h : IdxHist) (hr : h.InRange) :
    h.run.isEmpty = true ↔ ∀ j, j < 2 ^ 38 → ¬ h.Mem j := by
  have hw := h.wf
  unfold IndexSet.isEmpty AdaptiveMap.isEmpty
  rw [List.all_eq_true]
  constructor
  · intro hz j hj hm
    rw [← C07_history h hr j hj, get_eq] at hm
    by_cases hk : wordIndex j ∈ h.run.elems.entries.map (·.1)
    · obtain ⟨e, he, e1⟩ := List.mem_map.mp hk
      rw [← e1, look_of_mem hw.nodup he] at hm
      have := hz e he
      simp only [beq_iff_eq] at this
      rw [this] at hm; simp at hm
    · rw [look_of_not_mem hk] at hm; simp at hm
  · intro hz e he
    simp only [beq_iff_eq]
    apply BitVec.eq_of_getLsbD_eq
    intro i hi
    have hk := hw.bound e he
    have hj : 64 * e.1 + i < 2 ^ 38 := by omega
    have e1 : (64 * e.1 + i) / 64 = e.1 := by omega
    have e2 : (64 * e.1 + i) % 64 = i := by omega
    have := hz _ hj
    rw [← C07_history h hr _ hj, get_eq, wordIndex_eq hj, e1, e2, look_of_mem hw.nodup he] at this
    simpa using this

/-- **C07**, unobservability of the representation: two histories denoting the
same set answer every query alike, whichever mode they ended in. -/
theorem C07_representation_unobservable (a b : IdxHist) (ha : a.InRange) (hb : b.InRange)
    (h : ∀ j, j < 2 ^ 38 → (a.Mem j ↔ b.Mem j)) (o o' : HashOrder) :
    (∀ j, j < 2 ^ 38 → a.run.get j = b.run.get j) ∧ a.run.isEmpty = b.run.isEmpty ∧
      (a.run.iter o).Perm (b.run.iter o') := by
  refine ⟨?_, ?_, ?_⟩
  · intro j hj
    have h1 := C07_history a ha j hj
    have h2 := C07_history b hb j hj
    rw [h j hj, ← h2] at h1
    exact Bool.eq_iff_iff.mpr h1
  · apply Bool.eq_iff_iff.mpr
    rw [C07_is_empty a ha, C07_is_empty b hb]
    constructor
    · intro h' j hj hm; exact h' j hj ((h j hj).mpr hm)
    · intro h' j hj hm; exact h' j hj ((h j hj).mp hm)
  · obtain ⟨n1, m1⟩ := C07_iteration a ha o
    obtain ⟨n2, m2⟩ := C07_iteration b hb o'
    refine (List.perm_ext_iff_of_nodup n1 n2).mpr ?_
    intro j
    rw [m1, m2]
    constructor
    · rintro ⟨hj, hm⟩; exact ⟨hj, (h j hj).mp hm⟩
    · rintro ⟨hj, hm⟩; exact ⟨hj, (h j hj).mpr hm⟩

/-- **C07**, limit of the claim: beyond `2^38` the word index is truncated to 32
bits and distinct indices alias. -/
theorem C07_word_index_truncates : (IndexSet.new.set (2 ^ 38) true).get 0 = true := by decide +kernel

/-! ### Concrete cases -/

section Examples

/-- thirteen different words force large mode ... -/
private def big : IdxHist :=
  (List.range 13).foldl (fun h i => .set h (64 * i + 3) true) .new

example : big.run.isSmall = false ∧ big.InRange := by
  refine ⟨by decide +kernel, ?_⟩
  simp [big, IdxHist.InRange, List.range, List.range.loop]

/-- ... while a cleared word is reused and keeps twelve entries small. -/
private def reuse : IdxHist :=
  .set (.set ((List.range 12).foldl (fun h i => .set h (64 * i) true) .new) 320 false) 6400 true

example : reuse.run.isSmall = true ∧ reuse.run.get 6400 = true ∧ reuse.run.get 320 = false := by
  decide +kernel

private def idOrder : HashOrder := ⟨id, fun l => .refl l⟩

example : (big.run.unionWith idOrder reuse.run).2 = true := by decide +kernel
example : (big.run.unionWith idOrder big.run).2 = false := by decide +kernel

end Examples

end Regalloc
