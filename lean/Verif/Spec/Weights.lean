import Verif.Model.Weights

/-
Specification for C35: the value of a non-negative finite 32-bit float.
-/
namespace Regalloc.Weights

/-- Non-negative and finite: sign bit clear, exponent not all ones. -/
def SpillWeight.Finite (w : SpillWeight) : Prop := w.f32.toNat < 255 * 2 ^ 23

/-- Normal: the exponent is not zero. -/
def SpillWeight.Normal (w : SpillWeight) : Prop := w.Finite ∧ 2 ^ 23 ≤ w.f32.toNat

/-- The value, in units of `2 ^ -149` (the smallest positive float): exponent `e` and
mantissa `m` stand for `m` units if `e = 0` and `(2 ^ 23 + m) * 2 ^ (e - 1)` units
otherwise (IEEE 754 binary32). -/
def SpillWeight.value (w : SpillWeight) : Nat :=
  let e := w.f32.toNat / 2 ^ 23
  let m := w.f32.toNat % 2 ^ 23
  if e = 0 then m else (2 ^ 23 + m) * 2 ^ (e - 1)

end Regalloc.Weights
