/-
Arithmetic reading of the packed encodings: helper lemmas for
`Verif/Props/Encodings.lean`.
-/
import Verif.Model.Lib
import Verif.Spec.Encodings
import Verif.Proofs.Bits

namespace Regalloc

theorem RegClass.toNat_lt (c : RegClass) : c.toNat < 3 := by cases c <;> decide

theorem RegClass.ofNat?_toNat (c : RegClass) : RegClass.ofNat? c.toNat = some c := by
  cases c <;> rfl

theorem RegClass.ofNat?_eq_some {n : Nat} {c : RegClass} :
    RegClass.ofNat? n = some c ↔ n = c.toNat := by
  constructor
  · intro h
    match n, h with
    | 0, h => cases h; rfl
    | 1, h => cases h; rfl
    | 2, h => cases h; rfl
    | n + 3, h => simp [RegClass.ofNat?] at h
  · rintro rfl; exact RegClass.ofNat?_toNat c

theorem RegClass.ofNat?_none {n : Nat} : RegClass.ofNat? n = none ↔ 3 ≤ n := by
  match n with
  | 0 => simp [RegClass.ofNat?]
  | 1 => simp [RegClass.ofNat?]
  | 2 => simp [RegClass.ofNat?]
  | n + 3 => simp [RegClass.ofNat?]

/-! PReg -/

theorem PReg.ext_toNat {p q : PReg} (h : p.bits.toNat = q.bits.toNat) : p = q := by
  cases p; cases q; simp only [PReg.mk.injEq]; exact UInt8.toNat_inj.mp h

theorem PReg.new_toNat (hw : Nat) (c : RegClass) (h : hw < 64) :
    (PReg.new hw c).bits.toNat = c.toNat * 64 + hw := by
  have hc := c.toNat_lt
  simp only [PReg.new, UInt8.toNat_or, UInt8.toNat_shiftLeft, UInt8.toNat_ofNat']
  have h1 : hw % 2 ^ 8 = hw := by omega
  have h2 : c.toNat % 2 ^ 8 = c.toNat := by omega
  have h3 : (6 : UInt8).toNat % 8 = 6 := by decide
  rw [h1, h2, h3, Nat.shiftLeft_eq]
  have h4 : c.toNat * 2 ^ 6 % 2 ^ 8 = c.toNat * 2 ^ 6 := by omega
  rw [h4, Bits.mul_or (by omega)]

theorem PReg.hwEnc_eq (p : PReg) : p.hwEnc = p.bits.toNat % 64 := by
  simpa [PReg.hwEnc, PReg.MAX] using Bits.and_mask (x := p.bits.toNat) 6

theorem PReg.class?_eq (p : PReg) : p.class? = RegClass.ofNat? (p.bits.toNat / 64) := by
  unfold PReg.class?
  congr 1
  simp only [UInt8.toNat_and, UInt8.toNat_shiftRight]
  have := p.bits.toNat_lt
  simp only [show (6 : UInt8).toNat % 8 = 6 from by decide,
    show (3 : UInt8).toNat = 2 ^ 2 - 1 from by decide, Bits.shr]
  rw [Bits.and_mask]
  omega

theorem PReg.fromIndex_toNat (i : Nat) : (PReg.fromIndex i).bits.toNat = i % 256 := by
  simp only [PReg.fromIndex, PReg.NUM_INDEX, UInt8.toNat_ofNat']
  have := Bits.and_mask (x := i) 8
  rw [show (1 <<< (6 + 2) - 1 : Nat) = 2 ^ 8 - 1 from by decide, this]
  omega

/-! VReg -/

theorem VReg.ext_toNat {p q : VReg} (h : p.bits.toNat = q.bits.toNat) : p = q := by
  cases p; cases q; simp only [VReg.mk.injEq]; exact UInt32.toNat_inj.mp h

theorem VReg.new_toNat (v : Nat) (c : RegClass) (h : v < 2 ^ 30) :
    (VReg.new v c).bits.toNat = v * 4 + c.toNat := by
  have hc := c.toNat_lt
  simp only [VReg.new, UInt32.toNat_or, UInt32.toNat_shiftLeft, UInt32.toNat_ofNat']
  have h1 : v % 2 ^ 32 = v := by omega
  have h2 : c.toNat % 2 ^ 32 = c.toNat := by omega
  have h3 : (2 : UInt32).toNat % 32 = 2 := by decide
  rw [h1, h2, h3, Nat.shiftLeft_eq]
  have h4 : v * 2 ^ 2 % 2 ^ 32 = v * 2 ^ 2 := by omega
  rw [h4, Bits.mul_or (by omega)]

theorem VReg.vreg_eq (v : VReg) : v.vreg = v.bits.toNat / 4 := by
  simp only [VReg.vreg, UInt32.toNat_shiftRight, show (2 : UInt32).toNat % 32 = 2 from by decide,
    Bits.shr]

theorem VReg.class?_eq (v : VReg) : v.class? = RegClass.ofNat? (v.bits.toNat % 4) := by
  unfold VReg.class?
  congr 1
  simp only [UInt32.toNat_and, show (3 : UInt32).toNat = 2 ^ 2 - 1 from by decide]
  rw [Bits.and_mask]

theorem VReg.vreg_lt (v : VReg) : v.vreg < 2 ^ 30 := by
  rw [VReg.vreg_eq]
  have := v.bits.toNat_lt
  omega

/-! SpillSlot -/

theorem SpillSlot.index_eq (s : SpillSlot) : s.index = s.bits.toNat % 2 ^ 24 := by
  simp only [SpillSlot.index, UInt32.toNat_and,
    show (0x00ffffff : UInt32).toNat = 2 ^ 24 - 1 from by decide]
  rw [Bits.and_mask]

theorem SpillSlot.new_toNat {n : Nat} (h : n < 2 ^ 32) : (SpillSlot.new n).bits.toNat = n := by
  simp only [SpillSlot.new, UInt32.toNat_ofNat']
  omega

theorem SpillSlot.ext_toNat {p q : SpillSlot} (h : p.bits.toNat = q.bits.toNat) : p = q := by
  cases p; cases q; simp only [SpillSlot.mk.injEq]; exact UInt32.toNat_inj.mp h

/-! Allocation -/

theorem Allocation.ext_toNat {p q : Allocation} (h : p.bits.toNat = q.bits.toNat) : p = q := by
  cases p; cases q; simp only [Allocation.mk.injEq]; exact UInt32.toNat_inj.mp h

theorem AllocationKind.toNat_lt (k : AllocationKind) : k.toNat < 3 := by cases k <;> decide

theorem Allocation.new_toNat (k : AllocationKind) (i : Nat) (h : i < 2 ^ 29) :
    (Allocation.new k i).bits.toNat = k.toNat * 2 ^ 29 + i := by
  have hc := k.toNat_lt
  simp only [Allocation.new, UInt32.toNat_or, UInt32.toNat_shiftLeft, UInt32.toNat_ofNat']
  have h1 : i % 2 ^ 32 = i := by omega
  have h2 : k.toNat % 2 ^ 32 = k.toNat := by omega
  have h3 : (29 : UInt32).toNat % 32 = 29 := by decide
  rw [h1, h2, h3, Nat.shiftLeft_eq]
  have h4 : k.toNat * 2 ^ 29 % 2 ^ 32 = k.toNat * 2 ^ 29 := by omega
  rw [h4, Bits.mul_or (by omega)]

theorem Allocation.index_eq (a : Allocation) : a.index = a.bits.toNat % 2 ^ 28 := by
  simp only [Allocation.index, UInt32.toNat_and,
    show (0x0fffffff : UInt32).toNat = 2 ^ 28 - 1 from by decide]
  rw [Bits.and_mask]

/-- Kind as a function of the numeric kind field. -/
theorem Allocation.kind?_eq_some (a : Allocation) (k : AllocationKind) :
    a.kind? = some k ↔ a.bits.toNat / 2 ^ 29 = k.toNat := by
  have hlt := a.bits.toNat_lt
  have e : ((a.bits >>> 29) &&& 7).toNat = a.bits.toNat / 2 ^ 29 := by
    simp only [UInt32.toNat_and, UInt32.toNat_shiftRight,
      show (29 : UInt32).toNat % 32 = 29 from by decide,
      show (7 : UInt32).toNat = 2 ^ 3 - 1 from by decide, Bits.shr]
    rw [Bits.and_mask]
    omega
  unfold Allocation.kind?
  rw [e]
  generalize a.bits.toNat / 2 ^ 29 = n
  match n with
  | 0 => cases k <;> simp [AllocationKind.toNat]
  | 1 => cases k <;> simp [AllocationKind.toNat]
  | 2 => cases k <;> simp [AllocationKind.toNat]
  | n + 3 => cases k <;> simp [AllocationKind.toNat]

/-! ProgPoint -/

theorem ProgPoint.ext_toNat {p q : ProgPoint} (h : p.bits.toNat = q.bits.toNat) : p = q := by
  cases p; cases q; simp only [ProgPoint.mk.injEq]; exact UInt32.toNat_inj.mp h

theorem ProgPoint.new_toNat (i : Inst) (p : InstPosition) (h : i.idx.toNat < 2 ^ 31) :
    (ProgPoint.new i p).bits.toNat = i.idx.toNat * 2 + p.toNat := by
  have hp : p.toNat < 2 := by cases p <;> decide
  simp only [ProgPoint.new, UInt32.toNat_or, UInt32.toNat_shiftLeft, UInt32.toNat_ofNat',
    show (1 : UInt32).toNat % 32 = 1 from by decide, Nat.shiftLeft_eq]
  have h4 : i.idx.toNat * 2 ^ 1 % 2 ^ 32 = i.idx.toNat * 2 ^ 1 := by omega
  have h2 : p.toNat % 2 ^ 32 = p.toNat := by omega
  rw [h4, h2, Bits.mul_or (by omega)]

theorem ProgPoint.pos_eq (p : ProgPoint) :
    p.pos = if p.bits.toNat % 2 = 0 then .Before else .After := by
  have : ((p.bits &&& 1) = 0) ↔ p.bits.toNat % 2 = 0 := by
    rw [← UInt32.toNat_inj]
    simp only [UInt32.toNat_and, show (1 : UInt32).toNat = 2 ^ 1 - 1 from by decide]
    rw [Bits.and_mask]
    simp
  unfold ProgPoint.pos
  simp only [this]

theorem ProgPoint.inst_toNat (p : ProgPoint) :
    p.inst.idx.toNat = p.bits.toNat / 2 + (p.bits.toNat / 2 ^ 31) * 2 ^ 31 := by
  have hlt := p.bits.toNat_lt
  simp only [ProgPoint.inst, UInt32.toNat_or, UInt32.toNat_and, UInt32.toNat_shiftRight,
    show (1 : UInt32).toNat % 32 = 1 from by decide, Bits.shr]
  have h1 : p.bits.toNat &&& (0x80000000 : UInt32).toNat = (p.bits.toNat / 2 ^ 31) * 2 ^ 31 := by
    have h2 : (0x80000000 : UInt32).toNat = 2 ^ 31 := by decide
    rw [h2]
    have h3 : p.bits.toNat = (p.bits.toNat / 2 ^ 31) <<< 31 ||| p.bits.toNat % 2 ^ 31 := by
      rw [Bits.or_eq_add (by omega)]; omega
    have h4 : p.bits.toNat % 2 ^ 31 &&& 2 ^ 31 = 0 := by
      apply Nat.eq_of_testBit_eq
      intro i
      simp only [Nat.testBit_and, Nat.testBit_mod_two_pow, Nat.testBit_two_pow, Nat.zero_testBit]
      by_cases hi : i < 31 <;> simp [hi] <;> omega
    have h5 : p.bits.toNat / 2 ^ 31 = 0 ∨ p.bits.toNat / 2 ^ 31 = 1 := by omega
    rw [h3, Nat.and_or_distrib_right, h4]
    rw [← h3]
    rcases h5 with h5 | h5 <;> rw [h5] <;> decide
  rw [h1, Bits.or_mul (by omega)]
  omega

/-! u64_key -/

theorem u64Key_toNat (b a : UInt32) : (u64Key b a).toNat = b.toNat * 2 ^ 32 + a.toNat := by
  have ha := a.toNat_lt
  have hb := b.toNat_lt
  simp only [u64Key, UInt64.toNat_or, UInt64.toNat_shiftLeft, UInt32.toNat_toUInt64,
    show (32 : UInt64).toNat % 64 = 32 from by decide, Nat.shiftLeft_eq]
  rw [Nat.mod_eq_of_lt (by omega), Bits.or_mul (by omega)]

/-! Operand -/

/-- The numeric value of the packed word. -/
theorem Operand.word_toNat {v f : Nat} {c p k : Nat} (hv : v < 2 ^ 32) (hc : c < 4) (hp : p < 2)
    (hk : k < 2) (hf : f < 128) :
    ((UInt64.ofNat v <<< 0) ||| (UInt64.ofNat c <<< 32) ||| (UInt64.ofNat p <<< 34)
      ||| (UInt64.ofNat k <<< 35) ||| (UInt64.ofNat f <<< 36)).toNat
      = f * 2 ^ 36 + k * 2 ^ 35 + p * 2 ^ 34 + c * 2 ^ 32 + v := by
  simp only [UInt64.toNat_or, UInt64.toNat_shiftLeft, UInt64.toNat_ofNat',
    show (32 : UInt64).toNat % 64 = 32 from by decide,
    show (0 : UInt64).toNat % 64 = 0 from by decide,
    show (34 : UInt64).toNat % 64 = 34 from by decide,
    show (35 : UInt64).toNat % 64 = 35 from by decide,
    show (36 : UInt64).toNat % 64 = 36 from by decide, Nat.shiftLeft_eq]
  rw [Nat.mod_eq_of_lt (a := v) (by omega), Nat.mod_eq_of_lt (a := c) (by omega),
    Nat.mod_eq_of_lt (a := p) (by omega), Nat.mod_eq_of_lt (a := k) (by omega),
    Nat.mod_eq_of_lt (a := f) (by omega),
    Nat.mod_eq_of_lt (a := v * 2 ^ 0) (by omega), Nat.mod_eq_of_lt (a := c * 2 ^ 32) (by omega),
    Nat.mod_eq_of_lt (a := p * 2 ^ 34) (by omega), Nat.mod_eq_of_lt (a := k * 2 ^ 35) (by omega),
    Nat.mod_eq_of_lt (a := f * 2 ^ 36) (by omega)]
  rw [Bits.or_mul (a := c) (i := 32) (b := v * 2 ^ 0) (by omega)]
  rw [Bits.or_mul (a := p) (i := 34) (b := c * 2 ^ 32 + v * 2 ^ 0) (by omega)]
  rw [Bits.or_mul (a := k) (i := 35) (b := p * 2 ^ 34 + (c * 2 ^ 32 + v * 2 ^ 0)) (by omega)]
  rw [Bits.or_mul (a := f) (i := 36)
    (b := k * 2 ^ 35 + (p * 2 ^ 34 + (c * 2 ^ 32 + v * 2 ^ 0))) (by omega)]
  omega

theorem Operand.field_toNat (o : Operand) (s : Nat) (w : Nat) (hs : s < 64) (hw : w < 64) :
    ((o.bits >>> UInt64.ofNat s) &&& UInt64.ofNat (2 ^ w - 1)).toNat
      = o.bits.toNat / 2 ^ s % 2 ^ w := by
  have hpow : 2 ^ w < 2 ^ 64 := Nat.pow_lt_pow_right (by decide) hw
  simp only [UInt64.toNat_and, UInt64.toNat_shiftRight, UInt64.toNat_ofNat']
  rw [Nat.mod_eq_of_lt (a := s) (by omega), Nat.mod_eq_of_lt (a := s) (by omega),
    Nat.mod_eq_of_lt (a := 2 ^ w - 1) (by omega), Bits.shr, Bits.and_mask]

theorem Operand.class?_eq (o : Operand) :
    o.class? = RegClass.ofNat? (o.bits.toNat / 2 ^ 32 % 4) := by
  unfold Operand.class?
  congr 1
  exact o.field_toNat 32 2 (by decide) (by decide)

theorem Operand.kind_eq (o : Operand) :
    o.kind = if o.bits.toNat / 2 ^ 35 % 2 = 0 then .Def else .Use := by
  have h := o.field_toNat 35 1 (by decide) (by decide)
  unfold Operand.kind
  rw [show ((o.bits >>> 35) &&& 1).toNat = _ from h]

theorem Operand.pos_eq (o : Operand) :
    o.pos = if o.bits.toNat / 2 ^ 34 % 2 = 0 then .Early else .Late := by
  have h := o.field_toNat 34 1 (by decide) (by decide)
  unfold Operand.pos
  rw [show ((o.bits >>> 34) &&& 1).toNat = _ from h]

theorem Operand.vreg?_eq (o : Operand) :
    o.vreg? = o.class?.map (VReg.new (o.bits.toNat % 2 ^ 32)) := by
  have h := o.field_toNat 0 32 (by decide) (by decide)
  unfold Operand.vreg?
  rw [show ((o.bits >>> 0) &&& 0xffffffff).toNat = _ from h]
  cases o.class? <;> simp

/-- Decoding a 7-bit constraint field. -/
def Operand.decodeField (f : Nat) (c : Option RegClass) : Option OperandConstraint :=
  if 64 ≤ f then c.map (fun c => .FixedReg (PReg.new (f % 64) c))
  else if 32 ≤ f then some (.Reuse (f % 32))
  else if 16 ≤ f then some (.Limit (2 ^ (f % 16)))
  else if f = 0 then some .Any
  else if f = 1 then some .Reg
  else if f = 2 then some .Stack
  else none

theorem Operand.constraint?_eq (o : Operand) :
    o.constraint? = Operand.decodeField (o.bits.toNat / 2 ^ 36 % 128) o.class? := by
  have h := o.field_toNat 36 7 (by decide) (by decide)
  unfold Operand.constraint?
  rw [show ((o.bits >>> 36) &&& 127).toNat = _ from h]
  have hlt : o.bits.toNat / 2 ^ 36 % 2 ^ 7 < 128 := Nat.mod_lt _ (by decide)
  change _ = Operand.decodeField (o.bits.toNat / 2 ^ 36 % 2 ^ 7) o.class?
  generalize o.bits.toNat / 2 ^ 36 % 2 ^ 7 = f at hlt
  generalize o.class? = c
  have key : ∀ f : Fin 128,
      (((f : Nat) &&& 0b1000000 ≠ 0) ↔ 64 ≤ (f : Nat)) ∧
      ((f : Nat) < 64 → (((f : Nat) &&& 0b0100000 ≠ 0) ↔ 32 ≤ (f : Nat))) ∧
      ((f : Nat) < 32 → (((f : Nat) &&& 0b0010000 ≠ 0) ↔ 16 ≤ (f : Nat))) ∧
      ((f : Nat) &&& 0b0111111) = (f : Nat) % 64 ∧ ((f : Nat) &&& 0b0011111) = (f : Nat) % 32 ∧
      ((f : Nat) &&& 0b0001111) = (f : Nat) % 16 := by decide
  obtain ⟨k1, k2, k3, k4, k5, k6⟩ := key ⟨f, hlt⟩
  simp only at k1 k2 k3 k4 k5 k6
  unfold Operand.decodeField
  simp only [k1, k4, k5, k6, Nat.shiftLeft_eq, Nat.one_mul]
  by_cases h64 : 64 ≤ f
  · simp only [h64, if_true]; cases c <;> simp
  · simp only [h64, if_false, k2 (by omega)]
    by_cases h32 : 32 ≤ f
    · simp only [h32, if_true]
    · simp only [h32, if_false, k3 (by omega)]
      by_cases h16 : 16 ≤ f
      · simp only [h16, if_true]
      · simp only [h16, if_false]
        match f with
        | 0 => simp
        | 1 => simp
        | 2 => simp
        | n + 3 => simp

theorem Operand.field_legal {cls : RegClass} {c : OperandConstraint} (h : c.Legal cls) :
    ∃ f, Operand.constraintField? c = some f ∧ f < 128 ∧
      Operand.decodeField f (some cls) = some c := by
  cases c with
  | Any => exact ⟨0, rfl, by decide, rfl⟩
  | Reg => exact ⟨1, rfl, by decide, rfl⟩
  | Stack => exact ⟨2, rfl, by decide, rfl⟩
  | FixedReg p =>
    have hp : p.class? = some cls := h
    rw [PReg.class?_eq, RegClass.ofNat?_eq_some] at hp
    have e : 0b1000000 ||| p.hwEnc = 64 + p.hwEnc := by
      have h64 : p.hwEnc < 2 ^ 6 := by rw [PReg.hwEnc_eq]; omega
      have := Bits.or_eq_add (a := 1) h64
      simpa using this
    have hh : p.hwEnc = p.bits.toNat % 64 := PReg.hwEnc_eq p
    refine ⟨64 + p.hwEnc, by simp only [Operand.constraintField?, e], by omega, ?_⟩
    have : (64 + p.hwEnc) % 64 = p.hwEnc := by omega
    simp only [Operand.decodeField, this]
    rw [if_pos (by omega)]
    simp only [Option.map_some, Option.some.injEq, OperandConstraint.FixedReg.injEq]
    apply PReg.ext_toNat
    rw [PReg.new_toNat _ _ (by omega)]
    omega
  | Reuse i =>
    have hi : i < 32 := h
    have e : 0b0100000 ||| i = 32 + i := by
      have := Bits.or_eq_add (a := 1) (i := 5) (b := i) (by omega)
      simpa using this
    refine ⟨32 + i, by simp only [Operand.constraintField?, e], by omega, ?_⟩
    have : (32 + i) % 32 = i := by omega
    simp only [Operand.decodeField, this]
    rw [if_neg (by omega), if_pos (by omega)]
  | Limit n =>
    obtain ⟨k, hk, rfl⟩ := h
    have : k = 0 ∨ k = 1 ∨ k = 2 ∨ k = 3 ∨ k = 4 ∨ k = 5 ∨ k = 6 := by omega
    rcases this with rfl | rfl | rfl | rfl | rfl | rfl | rfl
    · exact ⟨16, by decide, by decide, rfl⟩
    · exact ⟨17, by decide, by decide, rfl⟩
    · exact ⟨18, by decide, by decide, rfl⟩
    · exact ⟨19, by decide, by decide, rfl⟩
    · exact ⟨20, by decide, by decide, rfl⟩
    · exact ⟨21, by decide, by decide, rfl⟩
    · exact ⟨22, by decide, by decide, rfl⟩

theorem Operand.ext_toNat {p q : Operand} (h : p.bits.toNat = q.bits.toNat) : p = q := by
  cases p; cases q; simp only [Operand.mk.injEq]; exact UInt64.toNat_inj.mp h

/-- Re-encoding a decoded constraint field gives the field back, unless the
limit it decodes to is refused by the constructor. -/
theorem Operand.decodeField_encode {g : Nat} {cls : RegClass} (hg : g < 128) {c : OperandConstraint}
    (h : Operand.decodeField g (some cls) = some c) {f : Nat}
    (hf : Operand.constraintField? c = some f) : f = g := by
  have key : ∀ g : Fin 128, (Operand.decodeField g (some cls)).all
      (fun c => (Operand.constraintField? c).all (fun f => f == g.val)) = true := by
    cases cls <;> decide +kernel
  have := key ⟨g, hg⟩
  simp only [h, Option.all_some, hf, beq_iff_eq] at this
  exact this

end Regalloc
