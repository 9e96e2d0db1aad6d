import Verif.Spec.Weights
import Verif.Proofs.Bits
import Mathlib.Tactic.IntervalCases

namespace Regalloc.Weights

/-- The value as a function of the bits. -/
def val (n : Nat) : Nat := if n / 2 ^ 23 = 0 then n % 2 ^ 23 else (2 ^ 23 + n % 2 ^ 23) * 2 ^ (n / 2 ^ 23 - 1)

theorem value_eq (w : SpillWeight) : w.value = val w.f32.toNat := rfl

/-- The next bit pattern has a larger value. -/
theorem val_succ (n : Nat) : val n < val (n + 1) := by
  unfold val
  by_cases h : n % 2 ^ 23 = 2 ^ 23 - 1
  · have h1 : (n + 1) / 2 ^ 23 = n / 2 ^ 23 + 1 := by omega
    have h2 : (n + 1) % 2 ^ 23 = 0 := by omega
    rw [h1, h2, h]
    by_cases h0 : n / 2 ^ 23 = 0
    · rw [h0]; decide
    · rw [if_neg h0, if_neg (by omega)]
      obtain ⟨k, hk⟩ : ∃ k, n / 2 ^ 23 = k + 1 := ⟨n / 2 ^ 23 - 1, by omega⟩
      rw [hk]
      simp only [Nat.add_sub_cancel, Nat.add_zero]
      have : 0 < 2 ^ k := Nat.two_pow_pos k
      have e : 2 ^ (k + 1) = 2 * 2 ^ k := by rw [Nat.pow_succ]; omega
      rw [e]
      omega
  · have h1 : (n + 1) / 2 ^ 23 = n / 2 ^ 23 := by omega
    have h2 : (n + 1) % 2 ^ 23 = n % 2 ^ 23 + 1 := by omega
    rw [h1, h2]
    by_cases h0 : n / 2 ^ 23 = 0
    · rw [if_pos h0, if_pos h0]; omega
    · rw [if_neg h0, if_neg h0]
      exact Nat.mul_lt_mul_of_pos_right (by omega) (Nat.two_pow_pos _)

theorem val_lt {a b : Nat} (h : a < b) : val a < val b := by
  induction b with
  | zero => omega
  | succ b ih =>
    rcases Nat.lt_or_ge a b with h' | h'
    · exact Nat.lt_trans (ih h') (val_succ b)
    · have : a = b := by omega
      subst this
      exact val_succ a

theorem val_le {a b : Nat} : val a ≤ val b ↔ a ≤ b := by
  constructor
  · intro h
    rcases Nat.lt_or_ge b a with h' | h'
    · have := val_lt h'; omega
    · exact h'
  · intro h
    rcases Nat.lt_or_ge a b with h' | h'
    · exact Nat.le_of_lt (val_lt h')
    · have : a = b := by omega
      subst this
      exact Nat.le_refl _

theorem toBits_toNat {w : SpillWeight} : w.toBits.toNat = w.f32.toNat / 2 ^ 15 % 2 ^ 16 := by
  unfold SpillWeight.toBits
  simp [Nat.shiftRight_eq_div_pow]

theorem fromBits_toNat (b : UInt16) : (SpillWeight.fromBits b).f32.toNat = b.toNat * 2 ^ 15 := by
  unfold SpillWeight.fromBits
  have := b.toNat_lt
  simp [Nat.shiftLeft_eq]
  omega

/-- Compressing drops the low 15 bits. -/
theorem roundtrip_toNat {w : SpillWeight} (h : w.f32.toNat < 2 ^ 31) :
    (SpillWeight.fromBits w.toBits).f32.toNat = w.f32.toNat / 2 ^ 15 * 2 ^ 15 := by
  rw [fromBits_toNat, toBits_toNat, Nat.mod_eq_of_lt (by omega)]

/-- Equality of 32-bit words, bit by bit. -/
macro "bits32" : tactic => `(tactic| (
  apply UInt32.toBitVec_inj.mp
  apply BitVec.eq_of_getLsbD_eq
  intro i hi
  simp only [UInt32.toBitVec_and, UInt32.toBitVec_or, UInt32.toBitVec_not, UInt32.toBitVec_shiftRight, UInt32.toBitVec_shiftLeft,
    BitVec.getLsbD_and, BitVec.getLsbD_or, BitVec.getLsbD_not]
  interval_cases i <;> simp))

/-- Testing one bit. -/
theorem bit_iff (w : UInt32) (k : Nat) (m : UInt32) (hm : m.toNat = 2 ^ k) : (w &&& m) ≠ 0 ↔ w.toNat.testBit k = true := by
  rw [ne_eq, ← UInt32.toNat_inj, UInt32.toNat_and, hm]
  constructor
  · intro h
    by_contra hc
    apply h
    apply Nat.eq_of_testBit_eq
    intro i
    rw [Nat.testBit_and, Nat.testBit_two_pow]
    by_cases hi : k = i
    · subst hi; simp at hc; simp [hc]
    · simp [hi]
  · intro h hc
    have := congrArg (fun n => n.testBit k) hc
    simp [h] at this

end Regalloc.Weights
