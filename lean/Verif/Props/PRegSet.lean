/-
C06: `PRegSet` behaves as a set of registers.
-/
import Verif.Proofs.PRegSet

namespace Regalloc

open PRegSet

/-- C06. Every history of operations has its set-theoretic meaning. -/
theorem C06_history (h : SetHist) (p : PReg) : h.run.contains p = true ↔ h.mem p := by
  have key : ∀ q : PReg, p.index = q.index ↔ p = q :=
    fun q => ⟨PRegSet.index_inj, fun e => by rw [e]⟩
  have hlt := index_lt p
  rw [contains_eq_has]
  induction h with
  | empty => simp [SetHist.run, SetHist.mem, has_empty]
  | add h r ih =>
    simp only [SetHist.run, SetHist.mem, has_add, Bool.or_eq_true, decide_eq_true_eq, key, ih]
  | with_ h r ih =>
    have e : h.run.with_ r = h.run.add r := rfl
    simp only [SetHist.run, SetHist.mem, e, has_add, Bool.or_eq_true, decide_eq_true_eq, key, ih]
  | remove h r ih =>
    simp only [SetHist.run, SetHist.mem, has_remove, Bool.and_eq_true,
      Bool.not_eq_true', decide_eq_false_iff_not, key, ne_eq, ih]
  | union h g ih ih' =>
    simp only [SetHist.run, SetHist.mem, has_union, Bool.or_eq_true, ih, ih']
  | inter h g ih ih' =>
    simp only [SetHist.run, SetHist.mem, has_inter, Bool.and_eq_true, ih, ih']
  | invert h ih =>
    simp only [SetHist.run, SetHist.mem, has_invert _ _ hlt, ← ih]
    simp
  | ofList l =>
    simp only [SetHist.run, SetHist.mem, PRegSet.ofList, has_ofList, has_empty,
      Bool.or_false, decide_eq_true_eq]
    constructor
    · rintro ⟨q, hq, e⟩; rw [(key q).mp e.symm]; exact hq
    · intro h; exact ⟨p, h, rfl⟩

/-- C06. Two sets with the same members are equal (`==` on sets is set
equality). -/
theorem C06_ext (s t : PRegSet) : s = t ↔ ∀ p, s.contains p = t.contains p := by
  constructor
  · rintro rfl p; rfl
  · intro h
    have hh : ∀ i, i < 256 → s.has i = t.has i := by
      intro i hi
      have e : (PReg.fromIndex i).index = i := by
        unfold PReg.index; rw [PReg.fromIndex_toNat]; omega
      have := h (PReg.fromIndex i)
      rwa [contains_eq_has, contains_eq_has, e] at this
    cases s with | mk a => cases t with | mk b =>
    congr
    funext k
    apply BitVec.eq_of_getLsbD_eq
    intro i hi
    have hk := k.isLt
    have := hh (64 * k.val + i) (by omega)
    unfold PRegSet.has at this
    rw [dif_pos (by omega), dif_pos (by omega)] at this
    have e1 : (64 * k.val + i) % 64 = i := by omega
    have e2 : (⟨(64 * k.val + i) / 64, by omega⟩ : Fin 4) = k := Fin.ext (by simp; omega)
    rwa [e1, e2] at this

/-- C06. Iteration yields exactly the members, in strictly increasing index
order (hence each once). -/
theorem C06_iteration (s : PRegSet) :
    (∀ p, p ∈ s.toList ↔ s.contains p = true) ∧
      s.toList.Pairwise (fun p q => p.index < q.index) ∧ s.toList.Nodup := by
  obtain ⟨h1, h2⟩ := toList_spec s
  refine ⟨fun p => by rw [h2, contains_eq_has], h1, ?_⟩
  exact h1.imp (fun h e => by rw [e] at h; omega)

/-- C06. `len` counts the members. -/
theorem C06_len (s : PRegSet) : s.len = s.toList.length := by
  rw [len_eq, ← List.length_map (f := PReg.index), toList_index, List.countP_eq_length_filter]

/-- C06. `is_empty(class)` holds iff there is no member of that class. -/
theorem C06_is_empty (s : PRegSet) (c : RegClass) :
    s.isEmpty c = true ↔ ∀ p, p.class? = some c → s.contains p = false := by
  have hc := c.toNat_lt
  have cls : ∀ p : PReg, p.class? = some c ↔ p.index / 64 = c.toNat := by
    intro p
    rw [PReg.class?_eq, RegClass.ofNat?_eq_some]; rfl
  simp only [isEmpty, beq_iff_eq, cls, contains_eq_has]
  constructor
  · intro h p hp
    unfold PRegSet.has
    rw [dif_pos (by omega)]
    have e : (⟨p.index / 64, by omega⟩ : Fin 4) = classWord c := Fin.ext hp
    rw [e, h]; simp
  · intro h
    apply BitVec.eq_of_getLsbD_eq
    intro i hi
    have hi' : (PReg.fromIndex (64 * c.toNat + i)).index = 64 * c.toNat + i := by
      unfold PReg.index; rw [PReg.fromIndex_toNat]; omega
    have := h (PReg.fromIndex (64 * c.toNat + i)) (by rw [hi']; omega)
    rw [hi'] at this
    unfold PRegSet.has at this
    rw [dif_pos (by omega)] at this
    have e1 : (64 * c.toNat + i) % 64 = i := by omega
    have e2 : (⟨(64 * c.toNat + i) / 64, by omega⟩ : Fin 4) = classWord c :=
      Fin.ext (by simp [classWord]; omega)
    rw [e1, e2] at this
    rw [this]; simp

/-- C06. `max_preg` is the member of largest index, and `None` iff the set is
empty. -/
theorem C06_max_preg (s : PRegSet) :
    (∀ p, s.maxPreg = some p ↔ s.contains p = true ∧ ∀ q, s.contains q = true → q.index ≤ p.index) ∧
    (s.maxPreg = none ↔ ∀ q, s.contains q = false) := by
  obtain ⟨hm, hp, -⟩ := C06_iteration s
  unfold maxPreg
  have last : ∀ l : List PReg, l.Pairwise (fun p q => p.index < q.index) → ∀ p, l.getLast? = some p →
      p ∈ l ∧ ∀ q ∈ l, q.index ≤ p.index := by
    intro l hl p hlast
    have hmem := List.mem_of_getLast? hlast
    refine ⟨hmem, ?_⟩
    intro q hq
    obtain ⟨init, rfl⟩ : ∃ init, l = init ++ [p] := by
      rw [List.getLast?_eq_some_iff] at hlast
      exact hlast
    rcases List.mem_append.mp hq with h | h
    · have := (List.pairwise_append.mp hl).2.2 q h p (by simp)
      omega
    · simp at h; rw [h]; exact Nat.le_refl _
  constructor
  · intro p
    constructor
    · intro h
      obtain ⟨h1, h2⟩ := last _ hp p h
      exact ⟨(hm p).mp h1, fun q hq => h2 q ((hm q).mpr hq)⟩
    · rintro ⟨h1, h2⟩
      cases hl : s.toList.getLast? with
      | none =>
        rw [List.getLast?_eq_none_iff] at hl
        have := (hm p).mpr h1
        rw [hl] at this; simp at this
      | some q =>
        obtain ⟨h3, h4⟩ := last _ hp q hl
        have := h4 p ((hm p).mpr h1)
        have := h2 q ((hm q).mp h3)
        congr 1
        exact PRegSet.index_inj (by omega)
  · rw [List.getLast?_eq_none_iff, List.eq_nil_iff_forall_not_mem]
    constructor
    · intro h q
      have := h q
      rw [hm] at this; simpa using this
    · intro h q
      rw [hm, h q]; simp

/-- C06. `add_up_to(reg)` on the empty set is exactly the registers of smaller
index. -/
theorem C06_add_up_to_empty (r p : PReg) :
    (PRegSet.empty.addUpTo r).contains p = true ↔ p.index < r.index := by
  rw [contains_eq_has, has_addUpTo, has_empty]
  simp

/-- C06, negative finding: despite its documentation ("Add all registers from
`0..reg` to this set") `add_up_to` is not an addition on a non-empty set: it
drops the members of `reg`'s class that are not below `reg`. -/
theorem C06_add_up_to_drops_members :
    ∃ (s : PRegSet) (r p : PReg), s.contains p = true ∧ (s.addUpTo r).contains p = false :=
  ⟨PRegSet.empty.add (PReg.new 5 .Int), PReg.new 3 .Int, PReg.new 5 .Int, by decide, by decide⟩

/-- C06. What `add_up_to` does in general. -/
theorem C06_add_up_to_exact (s : PRegSet) (r p : PReg) :
    (s.addUpTo r).contains p = true ↔
      p.index < r.index ∨ (r.index / 64 < p.index / 64 ∧ s.contains p = true) := by
  rw [contains_eq_has, contains_eq_has, has_addUpTo]
  simp

/-- C06. The register set of a machine environment is the union of its
preferred and non-preferred registers. -/
theorem C06_of_env (env : MachineEnv) (p : PReg) :
    (PRegSet.ofEnv env).contains p = true ↔
      ∃ c, (env.preferred c).contains p = true ∨ (env.nonPreferred c).contains p = true := by
  simp only [PRegSet.ofEnv, List.foldl, contains_eq_has, has_union, has_empty, Bool.or_eq_true]
  constructor
  · rintro ((((((h | h) | h) | h) | h) | h) | h)
    · simp at h
    · exact ⟨.Int, Or.inl h⟩
    · exact ⟨.Float, Or.inl h⟩
    · exact ⟨.Vector, Or.inl h⟩
    · exact ⟨.Int, Or.inr h⟩
    · exact ⟨.Float, Or.inr h⟩
    · exact ⟨.Vector, Or.inr h⟩
  · rintro ⟨c, h | h⟩ <;> cases c <;> simp [h]

/-- Non-vacuity: a mixed history with members in two classes. -/
example : (SetHist.run (.remove (.union (.ofList [PReg.new 3 .Int, PReg.new 7 .Float])
    (.add .empty (PReg.new 9 .Int))) (PReg.new 3 .Int))).toList =
    [PReg.new 9 .Int, PReg.new 7 .Float] := by decide +kernel

end Regalloc
