/-
Helper lemmas: bit fields as arithmetic.
-/
namespace Regalloc.Bits

theorem or_eq_add {a b i : Nat} (h : b < 2 ^ i) : (a <<< i) ||| b = a * 2 ^ i + b := by
  rw [← Nat.shiftLeft_add_eq_or_of_lt h, Nat.shiftLeft_eq]

theorem or_eq_add' {a b i : Nat} (h : b < 2 ^ i) : b ||| (a <<< i) = a * 2 ^ i + b := by
  rw [Nat.or_comm, or_eq_add h]

theorem mul_or {a b i : Nat} (h : b < 2 ^ i) : (a * 2 ^ i) ||| b = a * 2 ^ i + b := by
  have := or_eq_add (a := a) h
  rwa [Nat.shiftLeft_eq] at this

theorem or_mul {a b i : Nat} (h : b < 2 ^ i) : b ||| (a * 2 ^ i) = a * 2 ^ i + b := by
  rw [Nat.or_comm, mul_or h]

theorem and_mask {x : Nat} (i : Nat) : x &&& (2 ^ i - 1) = x % 2 ^ i :=
  Nat.and_two_pow_sub_one_eq_mod x i

theorem shr {x : Nat} (i : Nat) : x >>> i = x / 2 ^ i := Nat.shiftRight_eq_div_pow x i

end Regalloc.Bits
