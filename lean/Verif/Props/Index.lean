import Verif.Model.Index
import Verif.Spec.Index

/-
C50: indices, storage addressed by them, ranges of instructions, and views of operand lists.
-/
namespace Regalloc
open IndexSpec

theorem toNat_ofNat32 (i : Nat) : (UInt32.ofNat i).toNat = i % 2 ^ 32 := UInt32.toNat_ofNat' ..

theorem Inst.new_idx {i : Nat} (h : i < 2 ^ 32) : (Inst.new i).idx.toNat = i := by
  show (UInt32.ofNat i).toNat = i
  rw [toNat_ofNat32]
  omega

theorem Inst.valid_iff {i : Inst} : i.isValid = true ↔ i.idx.toNat < 2 ^ 32 - 1 := by
  unfold Inst.isValid
  rw [bne_iff_ne]
  have h := i.idx.toNat_lt
  constructor
  · intro hn
    by_cases e : i.idx.toNat = 2 ^ 32 - 1
    · refine absurd ?_ hn
      cases i with
      | mk x =>
        congr 1
        exact UInt32.toNat.inj e
    · omega
  · rintro h1 rfl
    exact absurd h1 (by decide)

/-- C50: numbers below `u32::MAX` and valid indices correspond one to one. -/
theorem C50_index_roundtrip :
    (∀ i, i < 2 ^ 32 - 1 → (Inst.new i).isValid = true ∧ (Inst.new i).index? = some i) ∧
    (∀ a : Inst, a.isValid = true → ∃ i, i < 2 ^ 32 - 1 ∧ a.index? = some i ∧ Inst.new i = a) := by
  constructor
  · intro i hi
    have h1 := Inst.new_idx (i := i) (by omega)
    have h2 : (Inst.new i).isValid = true := Inst.valid_iff.mpr (by omega)
    refine ⟨h2, ?_⟩
    unfold Inst.index?
    rw [if_pos h2, h1]
  · intro a ha
    refine ⟨a.idx.toNat, Inst.valid_iff.mp ha, by unfold Inst.index?; rw [if_pos ha], ?_⟩
    unfold Inst.new
    cases a with
    | mk x => congr 1; exact UInt32.ofNat_toNat

/-- C50: numbers at or above `u32::MAX` do not survive: the first gives the invalid index, the
ones after it alias small ones. -/
theorem C50_index_overflow : Inst.new (2 ^ 32 - 1) = Inst.invalid ∧ ∀ i, Inst.new (i + 2 ^ 32) = Inst.new i := by
  refine ⟨by decide, fun i => ?_⟩
  show Inst.mk (UInt32.ofNat (i + 2 ^ 32)) = Inst.mk (UInt32.ofNat i)
  have : UInt32.ofNat (i + 2 ^ 32) = UInt32.ofNat i := by
    apply UInt32.toNat.inj
    rw [toNat_ofNat32, toNat_ofNat32]
    omega
  rw [this]

/-- C50: `next` and `prev` count up and down. They fail only on the invalid index and, for `prev`,
on the first. `next` of the last valid index is the invalid one. -/
theorem C50_next_prev (i : Nat) (h : i < 2 ^ 32 - 1) :
    (Inst.new i).next? = some (Inst.new (i + 1)) ∧ (Inst.new (i + 1)).isValid = decide (i + 1 < 2 ^ 32 - 1) ∧
    ((Inst.new i).prev? = if i = 0 then none else some (Inst.new (i - 1))) ∧
    Inst.invalid.next? = none ∧ Inst.invalid.prev? = none := by
  have h1 := Inst.new_idx (i := i) (by omega)
  have h2 : (Inst.new i).isValid = true := Inst.valid_iff.mpr (by omega)
  refine ⟨?_, ?_, ?_, rfl, rfl⟩
  · unfold Inst.next?
    rw [if_pos h2]
    unfold Inst.new at h1 ⊢
    congr 2
    apply UInt32.toNat.inj
    rw [UInt32.toNat_add, h1, toNat_ofNat32]
    rfl
  · have h3 := Inst.new_idx (i := i + 1) (by omega)
    rw [Bool.eq_iff_iff, Inst.valid_iff, h3, decide_eq_true_iff]
  · unfold Inst.prev?
    rw [if_pos h2]
    by_cases e : i = 0
    · subst e; rfl
    · have h3 : ¬ (Inst.new i).idx = 0 := by
        intro h4
        rw [h4] at h1
        exact e h1.symm
      rw [if_neg h3, if_neg e]
      unfold Inst.new at h1 ⊢
      congr 2
      apply UInt32.toNat.inj
      rw [UInt32.toNat_sub, h1, toNat_ofNat32]
      show (4294967295 + i) % 4294967296 = _
      omega

section
variable {a b : Nat} (hb : b < 2 ^ 32 - 1)
include hb

omit hb in
theorem span_cons (h : a < b) : span a b = Inst.new a :: span (a + 1) b := by
  unfold span
  rw [show b - a = (b - (a + 1)) + 1 from by omega, List.range'_succ]
  rfl

/-- C50: a range can be made just if its ends are in order. -/
theorem C50_range (ha : a < 2 ^ 32 - 1) :
    (∃ r, InstRange.new? (Inst.new a) (Inst.new b) = some r) ↔ a ≤ b := by
  have ib := (C50_index_roundtrip.1 b hb).2
  unfold InstRange.new?
  rw [(C50_index_roundtrip.1 a ha).2, ib]
  dsimp only
  split
  · next h => exact ⟨fun _ => h, fun _ => ⟨_, rfl⟩⟩
  · next h => exact ⟨fun ⟨_, h'⟩ => (by cases h'), fun h' => absurd h' h⟩

/-- C50: a range behaves as the list of the instructions from its first end up to, not including,
the second: its length, the list itself, its first and last element and the range without the
first. The latter three fail just on empty ranges. -/
theorem C50_range_list (hab : a ≤ b) {r : InstRange} (hr : InstRange.new? (Inst.new a) (Inst.new b) = some r) :
    r.iter? = some (span a b) ∧ r.len? = some (span a b).length ∧ (span a b).length = b - a ∧
    r.first? = (span a b).head? ∧ r.last? = (span a b).getLast? ∧
    (∀ i : Inst, i ∈ span a b ↔ a ≤ i.idx.toNat ∧ i.idx.toNat < b) ∧
    (∀ r', r.rest? = some r' ↔ a < b ∧ InstRange.new? (Inst.new (a + 1)) (Inst.new b) = some r') := by
  have ia := (C50_index_roundtrip.1 a (by omega)).2
  have ib := (C50_index_roundtrip.1 b hb).2
  have er : r = ⟨Inst.new a, Inst.new b⟩ := by
    unfold InstRange.new? at hr
    rw [ia, ib] at hr
    dsimp only at hr
    rw [if_pos hab] at hr
    exact (Option.some.inj hr).symm
  subst er
  have hlen : (span a b).length = b - a := by simp [span]
  have hl : InstRange.len? ⟨Inst.new a, Inst.new b⟩ = some (b - a) := by
    unfold InstRange.len?
    dsimp only
    rw [ia, ib]
    dsimp only
    rw [if_pos hab]
  refine ⟨?_, by rw [hlen, hl], hlen, ?_, ?_, ?_, ?_⟩
  · unfold InstRange.iter?
    dsimp only
    rw [ia, ib]
    rfl
  · unfold InstRange.first?
    rw [hl]
    dsimp only
    by_cases h : a < b
    · rw [if_pos (by omega), span_cons h]; rfl
    · rw [if_neg (by omega)]
      have : b - a = 0 := by omega
      unfold span; rw [this]; rfl
  · unfold InstRange.last?
    rw [hl]
    dsimp only
    by_cases h : a < b
    · rw [if_pos (by omega), (C50_next_prev b hb).2.2.1, if_neg (by omega)]
      unfold span
      rw [show b - a = (b - 1 - a) + 1 from by omega, List.range'_concat, List.map_append, List.getLast?_append]
      simp only [List.map_cons, List.map_nil, List.getLast?_singleton, Option.some_or]
      rw [show a + 1 * (b - 1 - a) = b - 1 from by omega]
      rfl
    · rw [if_neg (by omega)]
      have : b - a = 0 := by omega
      unfold span; rw [this]; rfl
  · intro i
    unfold span
    rw [List.mem_map]
    constructor
    · rintro ⟨n, hn, rfl⟩
      rw [List.mem_range'_1] at hn
      show a ≤ (UInt32.ofNat n).toNat ∧ (UInt32.ofNat n).toNat < b
      rw [toNat_ofNat32]
      omega
    · rintro ⟨h1, h2⟩
      refine ⟨i.idx.toNat, List.mem_range'_1.mpr ⟨h1, by omega⟩, ?_⟩
      cases i with
      | mk x => congr 1; exact UInt32.ofNat_toNat
  · intro r'
    unfold InstRange.rest?
    rw [hl]
    dsimp only
    by_cases h : a < b
    · rw [if_pos (by omega), (C50_next_prev a (by omega)).1]
      exact ⟨fun h' => ⟨h, h'⟩, fun h' => h'.2⟩
    · rw [if_neg (by omega)]
      exact ⟨fun h' => (by cases h'), fun h' => absurd h'.1 h⟩

end

/-- C50: `push` returns the index of the new element, under which it is found, and keeps the
others, as long as there are fewer than `u32::MAX` elements. -/
theorem C50_push {α : Type} (s : Storage α) (x : α) (h : s.items.length < 2 ^ 32 - 1) :
    (s.push x).2.index? = some s.items.length ∧ (s.push x).1.get? (s.push x).2 = some x ∧
    (s.push x).1.items.length = s.items.length + 1 ∧
    ∀ i y, s.get? i = some y → (s.push x).1.get? i = some y := by
  have e : (s.push x).2.index? = some s.items.length := (C50_index_roundtrip.1 _ h).2
  refine ⟨e, ?_, by simp [Storage.push], ?_⟩
  · unfold Storage.get?
    rw [e]
    simp [Storage.push]
  · intro i y hy
    unfold Storage.get? at hy ⊢
    cases hi : i.index? with
    | none => rw [hi] at hy; cases hy
    | some n =>
      rw [hi] at hy
      dsimp only at hy ⊢
      have hn : n < s.items.length := (List.getElem?_eq_some_iff.mp hy).1
      unfold Storage.push
      dsimp only
      rw [List.getElem?_append_left hn]
      exact hy

/-- C50: assignment changes one element. -/
theorem C50_assign {α : Type} (s s' : Storage α) (i : Inst) (x : α) (h : s.set? i x = some s') :
    s'.get? i = some x ∧ s'.items.length = s.items.length ∧ ∀ j, j ≠ i → s'.get? j = s.get? j := by
  unfold Storage.set? at h
  cases hi : i.index? with
  | none => rw [hi] at h; cases h
  | some n =>
    rw [hi] at h
    dsimp only at h
    split at h
    · next hn =>
      cases h
      refine ⟨?_, by simp, ?_⟩
      · unfold Storage.get?
        rw [hi]
        simp [hn]
      · intro j hj
        unfold Storage.get?
        cases hj' : j.index? with
        | none => rfl
        | some m =>
          dsimp only
          have hnm : n ≠ m := by
            rintro rfl
            have hv : i.isValid = true := by unfold Inst.index? at hi; split at hi; assumption; cases hi
            have hv' : j.isValid = true := by unfold Inst.index? at hj'; split at hj'; assumption; cases hj'
            obtain ⟨k, _, h1, h2⟩ := C50_index_roundtrip.2 i hv
            obtain ⟨k', _, h3, h4⟩ := C50_index_roundtrip.2 j hv'
            rw [hi] at h1
            rw [hj'] at h3
            cases h1; cases h3
            exact hj (h4.symm.trans h2)
          rw [List.getElem?_set_ne hnm]
    · cases h

/-- C50: a view lists the operands that satisfy its condition, each with its position, in order. -/
theorem C50_view (ops : List Op) (p : Op → Bool) :
    (∀ k o, (k, o) ∈ Views.byPred ops p ↔ ops[k]? = some o ∧ p o = true) ∧
    (Views.byPred ops p).Pairwise (fun x y => x.1 < y.1) := by
  unfold Views.byPred
  constructor
  · intro k o
    rw [List.mem_filter, List.mem_map]
    constructor
    · rintro ⟨⟨x, hx, e⟩, hp⟩
      cases e
      exact ⟨List.mem_zipIdx_iff_getElem?.mp hx, hp⟩
    · rintro ⟨h1, h2⟩
      exact ⟨⟨(o, k), List.mem_zipIdx_iff_getElem?.mpr h1, rfl⟩, h2⟩
  · refine List.Pairwise.filter _ ?_
    rw [List.pairwise_map]
    have h := List.pairwise_lt_range' (s := 0) (n := ops.length) (step := 1)
    have e : (ops.zipIdx).map Prod.snd = List.range' 0 ops.length := by simp [List.zipIdx_map_snd]
    rw [← e, List.pairwise_map] at h
    exact h

/-- C50: every operand is in exactly one of the views of definitions and uses, and in exactly one
of the views of early and late operands. -/
theorem C50_view_partition (ops : List Op) (k : Nat) (o : Op) (h : ops[k]? = some o) :
    ((k, o) ∈ Views.defOps ops ↔ ¬ (k, o) ∈ Views.useOps ops) ∧ ((k, o) ∈ Views.early ops ↔ ¬ (k, o) ∈ Views.late ops) ∧
    ((k, o) ∈ Views.reuse ops ↔ ∃ j, o.constraint = .Reuse j) ∧ ((k, o) ∈ Views.fixed ops ↔ ∃ p, o.constraint = .FixedReg p) ∧
    ((k, o) ∈ Views.anyReg ops ↔ o.constraint = .Reg) := by
  unfold Views.defOps Views.useOps Views.early Views.late Views.reuse Views.fixed Views.anyReg
  simp only [(C50_view ops _).1, h, true_and, decide_eq_true_eq]
  refine ⟨?_, ?_, ?_, ?_, trivial⟩
  · cases o.kind <;> simp
  · cases o.pos <;> simp
  · cases o.constraint <;> simp
  · cases o.constraint <;> simp

/-! ### Non-vacuity -/

example : ∃ r, InstRange.new? (Inst.new 3) (Inst.new 6) = some r ∧ r.iter? = some [Inst.new 3, Inst.new 4, Inst.new 5] ∧
    r.last? = some (Inst.new 5) := ⟨_, rfl, rfl, rfl⟩
example : InstRange.new? (Inst.new 3) (Inst.new 2) = none := rfl
example : ∃ r, InstRange.new? (Inst.new 3) (Inst.new 3) = some r ∧ r.first? = none := ⟨_, rfl, rfl⟩
example : ((Storage.mk [10, 20]).push 30).1.get? (Inst.new 2) = some 30 := rfl
example : (Storage.mk [10, 20]).set? (Inst.new 2) 5 = none := rfl
example : Views.useOps [⟨VReg.new 1 .Int, .Reg, .Def, .Late⟩, ⟨VReg.new 2 .Int, .Any, .Use, .Early⟩] =
    [(1, ⟨VReg.new 2 .Int, .Any, .Use, .Early⟩)] := by decide +kernel

end Regalloc
