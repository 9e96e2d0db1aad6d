/-
C04, C05: the packed encodings are lossless.
-/
import Verif.Proofs.Encodings

namespace Regalloc

/-! ## C04: operands -/

/-- C04. For every virtual register `v` (with a real class) and every constraint
the constructor accepts, building the operand succeeds, every accessor returns
the argument it was built from, and the encoding fits the documented 43 bits. -/
theorem C04_operand_roundtrip (v : VReg) (cls : RegClass) (c : OperandConstraint)
    (k : OperandKind) (p : OperandPos) (hv : v.class? = some cls) (hc : c.Legal cls) :
    ∃ o, Operand.new? v c k p = some o ∧ o.vreg? = some v ∧ o.class? = some cls ∧
      o.constraint? = some c ∧ o.kind = k ∧ o.pos = p ∧ o.bits.toNat < 2 ^ 43 := by
  obtain ⟨f, hf, hflt, hdec⟩ := Operand.field_legal hc
  have hvlt := v.vreg_lt
  have hcl := cls.toNat_lt
  have hk : k.toNat < 2 := by cases k <;> decide
  have hp : p.toNat < 2 := by cases p <;> decide
  refine ⟨_, by simp only [Operand.new?, hf, hv]; rfl, ?_⟩
  have hw := Operand.word_toNat (v := v.vreg) (f := f) (c := cls.toNat) (p := p.toNat)
    (k := k.toNat) (by omega) (by omega) hp hk hflt
  generalize (UInt64.ofNat v.vreg <<< 0 ||| UInt64.ofNat cls.toNat <<< 32 |||
    UInt64.ofNat p.toNat <<< 34 ||| UInt64.ofNat k.toNat <<< 35 ||| UInt64.ofNat f <<< 36) = w
    at hw ⊢
  have hcls : (Operand.mk w).class? = some cls := by
    rw [Operand.class?_eq]
    simp only [hw]
    rw [RegClass.ofNat?_eq_some]; omega
  refine ⟨?_, hcls, ?_, ?_, ?_, ?_⟩
  · rw [Operand.vreg?_eq, hcls]
    simp only [Option.map_some, Option.some.injEq, hw]
    apply VReg.ext_toNat
    have h30 : (f * 2 ^ 36 + k.toNat * 2 ^ 35 + p.toNat * 2 ^ 34 + cls.toNat * 2 ^ 32 + v.vreg) % 2 ^ 32
      = v.vreg := by omega
    rw [h30, VReg.new_toNat _ _ hvlt]
    rw [VReg.class?_eq, RegClass.ofNat?_eq_some] at hv
    rw [VReg.vreg_eq]; omega
  · rw [Operand.constraint?_eq, hcls]
    simp only [hw]
    have h36 : (f * 2 ^ 36 + k.toNat * 2 ^ 35 + p.toNat * 2 ^ 34 + cls.toNat * 2 ^ 32 + v.vreg)
      / 2 ^ 36 % 128 = f := by omega
    rw [h36, hdec]
  · rw [Operand.kind_eq]
    simp only [hw]
    have h35 : (f * 2 ^ 36 + k.toNat * 2 ^ 35 + p.toNat * 2 ^ 34 + cls.toNat * 2 ^ 32 + v.vreg)
      / 2 ^ 35 % 2 = k.toNat := by omega
    rw [h35]; cases k <;> rfl
  · rw [Operand.pos_eq]
    simp only [hw]
    have h34 : (f * 2 ^ 36 + k.toNat * 2 ^ 35 + p.toNat * 2 ^ 34 + cls.toNat * 2 ^ 32 + v.vreg)
      / 2 ^ 34 % 2 = p.toNat := by omega
    rw [h34]; cases p <;> rfl
  · simp only [hw]; omega

/-- C04. Distinct operands have distinct encodings. -/
theorem C04_operand_injective (v v' : VReg) (cls cls' : RegClass) (c c' : OperandConstraint)
    (k k' : OperandKind) (p p' : OperandPos) (o : Operand)
    (hv : v.class? = some cls) (hc : c.Legal cls) (hv' : v'.class? = some cls') (hc' : c'.Legal cls')
    (h : Operand.new? v c k p = some o) (h' : Operand.new? v' c' k' p' = some o) :
    v = v' ∧ c = c' ∧ k = k' ∧ p = p' := by
  obtain ⟨o1, e1, a1, -, b1, c1, d1, -⟩ := C04_operand_roundtrip v cls c k p hv hc
  obtain ⟨o2, e2, a2, -, b2, c2, d2, -⟩ := C04_operand_roundtrip v' cls' c' k' p' hv' hc'
  rw [h] at e1; rw [h'] at e2
  cases e1; cases e2
  rw [a1] at a2; rw [b1] at b2
  exact ⟨Option.some.inj a2, Option.some.inj b2, c1.symm.trans c2, d1.symm.trans d2⟩

/-- C04. Exactly the documented constraints are accepted by the (release-mode)
`Limit` assertions: a limit is accepted iff it is a power of two at most 64. -/
theorem C04_limit_accepted_iff (n : Nat) :
    (Operand.constraintField? (.Limit n)).isSome ↔ ∃ k, k ≤ 6 ∧ n = 2 ^ k := by
  simp only [Operand.constraintField?]
  constructor
  · intro h
    split at h
    · rename_i hh
      refine ⟨n.log2, ?_, hh.1⟩
      have h64 : n ≤ 64 := hh.2
      have hpow : 2 ^ n.log2 ≤ 2 ^ 6 := by rw [← hh.1]; exact h64
      exact (Nat.pow_le_pow_iff_right (by decide)).mp hpow
    · simp at h
  · rintro ⟨k, hk, rfl⟩
    have hpow : 2 ^ k ≤ 2 ^ 6 := Nat.pow_le_pow_right (by decide) hk
    rw [if_pos]
    · rfl
    · rw [Nat.log2_two_pow]
      exact ⟨rfl, hpow⟩

/-- C04. `from_bits(bits())` is the identity. -/
theorem C04_from_bits (o : Operand) : Operand.fromBits o.bits = o := rfl

/-- C04. Re-encoding: any word that decodes to an in-range vreg and a legal
constraint is the encoding of what it decodes to. -/
theorem C04_decode_encode (o : Operand) (v : VReg) (c : OperandConstraint) (cls : RegClass)
    (h43 : o.bits.toNat < 2 ^ 43) (h30 : o.bits.toNat % 2 ^ 32 < 2 ^ 30)
    (hcls : o.class? = some cls) (hv : o.vreg? = some v) (hc : o.constraint? = some c)
    (hlegal : c.Legal cls) :
    Operand.new? v c o.kind o.pos = some o := by
  have hcl := cls.toNat_lt
  rw [Operand.vreg?_eq, hcls] at hv
  simp only [Option.map_some, Option.some.injEq] at hv
  have hvb : v.bits.toNat = o.bits.toNat % 2 ^ 32 * 4 + cls.toNat := by
    rw [← hv, VReg.new_toNat _ _ h30]
  have hvc : v.class? = some cls := by
    rw [VReg.class?_eq, RegClass.ofNat?_eq_some]; omega
  obtain ⟨o', e, _⟩ := C04_operand_roundtrip v cls c o.kind o.pos hvc hlegal
  rw [e]
  obtain ⟨f, hf, hflt, hdec⟩ := Operand.field_legal hlegal
  simp only [Operand.new?, hf, hvc] at e
  have e : (Operand.mk _) = o' := Option.some.inj e
  rw [← e]
  have hk : o.kind.toNat = o.bits.toNat / 2 ^ 35 % 2 := by
    rw [Operand.kind_eq]; split
    · simp only [OperandKind.toNat]; omega
    · simp only [OperandKind.toNat]; omega
  have hp : o.pos.toNat = o.bits.toNat / 2 ^ 34 % 2 := by
    rw [Operand.pos_eq]; split
    · simp only [OperandPos.toNat]; omega
    · simp only [OperandPos.toNat]; omega
  have hvreg : v.vreg = o.bits.toNat % 2 ^ 32 := by rw [VReg.vreg_eq]; omega
  have hclsn : cls.toNat = o.bits.toNat / 2 ^ 32 % 4 := by
    rw [Operand.class?_eq, RegClass.ofNat?_eq_some] at hcls; exact hcls.symm
  -- the constraint field is recovered from its decoding
  have hfield : f = o.bits.toNat / 2 ^ 36 % 128 := by
    rw [Operand.constraint?_eq, hcls] at hc
    exact Operand.decodeField_encode (Nat.mod_lt _ (by decide)) hc hf
  have hw := Operand.word_toNat (v := v.vreg) (f := f) (c := cls.toNat) (p := o.pos.toNat)
    (k := o.kind.toNat) (by omega) (by omega) (by omega) (by omega) hflt
  congr 1
  apply Operand.ext_toNat
  simp only [hw]
  have d1 : o.bits.toNat / 2 ^ 34 = o.bits.toNat / 2 ^ 32 / 4 := by rw [Nat.div_div_eq_div_mul]
  have d2 : o.bits.toNat / 2 ^ 35 = o.bits.toNat / 2 ^ 34 / 2 := by rw [Nat.div_div_eq_div_mul]
  have d3 : o.bits.toNat / 2 ^ 36 = o.bits.toNat / 2 ^ 35 / 2 := by rw [Nat.div_div_eq_div_mul]
  have d4 : o.bits.toNat / 2 ^ 36 < 128 := by omega
  rw [hfield, hk, hp, hclsn, hvreg]
  clear hk hp hclsn hvreg hfield hw hvb hv e hvc
  omega

/-- C04. `fixed_nonallocatable` is recognised by `as_fixed_nonallocatable` and
yields the register it was built from; no operand on an ordinary vreg is. -/
theorem C04_fixed_nonallocatable (p : PReg) (cls : RegClass) (hp : p.class? = some cls) :
    ∃ o, Operand.fixedNonallocatable? p = some o ∧ o.asFixedNonallocatable? = some p := by
  have hmax : (VReg.new VReg.MAX cls).class? = some cls := by
    cases cls <;> decide
  obtain ⟨o, e, a, -, b, -⟩ := C04_operand_roundtrip (VReg.new VReg.MAX cls) cls (.FixedReg p)
    .Use .Early hmax hp
  refine ⟨o, ?_, ?_⟩
  · simp only [Operand.fixedNonallocatable?, hp]; exact e
  · simp only [Operand.asFixedNonallocatable?, a, b]
    have : (VReg.new VReg.MAX cls).vreg = VReg.MAX := by cases cls <;> decide
    simp [this]

theorem C04_ordinary_not_nonallocatable (v : VReg) (cls : RegClass) (c : OperandConstraint)
    (k : OperandKind) (p : OperandPos) (hv : v.class? = some cls) (hc : c.Legal cls)
    (hne : v.vreg ≠ VReg.MAX) (o : Operand) (ho : Operand.new? v c k p = some o) :
    o.asFixedNonallocatable? = none := by
  obtain ⟨o', e, a, -, b, -⟩ := C04_operand_roundtrip v cls c k p hv hc
  rw [ho] at e; cases e
  unfold Operand.asFixedNonallocatable?
  rw [a, b]
  cases c <;> simp [hne]

/-! Non-vacuity: a fixed-register late use of `v77f`, and a limited def. -/
example : (VReg.new 77 .Float).class? = some .Float ∧
    (OperandConstraint.FixedReg (PReg.new 13 .Float)).Legal .Float := by
  constructor
  · decide
  · show (PReg.new 13 .Float).class? = some .Float
    decide
example : (OperandConstraint.Limit 32).Legal .Int := ⟨5, by decide, by decide⟩
example : (Operand.new? (VReg.new 77 .Float) (.FixedReg (PReg.new 13 .Float)) .Use .Late).isSome := by
  decide

/-! ## C05: registers, slots, allocations, program points -/

/-- C05. Physical registers. -/
theorem C05_preg_roundtrip (hw : Nat) (c : RegClass) (h : hw ≤ PReg.MAX) :
    (PReg.new hw c).hwEnc = hw ∧ (PReg.new hw c).class? = some c ∧
      (PReg.new hw c).index < PReg.NUM_INDEX := by
  have h' : hw < 64 := by have : PReg.MAX = 63 := by decide
                          omega
  have := PReg.new_toNat hw c h'
  have hc := c.toNat_lt
  refine ⟨?_, ?_, ?_⟩
  · rw [PReg.hwEnc_eq, this]; omega
  · rw [PReg.class?_eq, this, RegClass.ofNat?_eq_some]; omega
  · unfold PReg.index; rw [this]; have : PReg.NUM_INDEX = 256 := by decide
    omega

theorem C05_preg_index_roundtrip (p : PReg) : PReg.fromIndex p.index = p := by
  apply PReg.ext_toNat
  rw [PReg.fromIndex_toNat]
  have := p.bits.toNat_lt
  unfold PReg.index; omega

theorem C05_preg_index_of_new (hw : Nat) (c : RegClass) (h : hw ≤ PReg.MAX) :
    (PReg.new hw c).index = c.toNat * 64 + hw :=
  PReg.new_toNat hw c (by have : PReg.MAX = 63 := by decide
                          omega)

theorem C05_preg_injective (hw hw' : Nat) (c c' : RegClass) (h : hw ≤ PReg.MAX) (h' : hw' ≤ PReg.MAX)
    (e : PReg.new hw c = PReg.new hw' c') : hw = hw' ∧ c = c' := by
  obtain ⟨a, b, -⟩ := C05_preg_roundtrip hw c h
  obtain ⟨a', b', -⟩ := C05_preg_roundtrip hw' c' h'
  rw [e] at a b
  exact ⟨a.symm.trans a', Option.some.inj (b.symm.trans b')⟩

/-- C05 (what the code really does): the "invalid" register is not outside the
encoding space, it is the legal register 63 of class `Int`, so `as_valid`
rejects that legal register. -/
theorem C05_preg_invalid_is_int63 : PReg.invalid = PReg.new 63 .Int ∧
    (PReg.new 63 .Int).asValid = none ∧
    ∀ p : PReg, p ≠ PReg.new 63 .Int → p.asValid = some p := by
  refine ⟨by decide, by decide, ?_⟩
  intro p hp
  unfold PReg.asValid
  split
  · rename_i h; exfalso; apply hp
    cases p; simp only at h; subst h; decide
  · rfl

/-- C05. Virtual registers. -/
theorem C05_vreg_roundtrip (v : Nat) (c : RegClass) (h : v ≤ VReg.MAX) :
    (VReg.new v c).vreg = v ∧ (VReg.new v c).class? = some c := by
  have h' : v < 2 ^ 30 := by have : VReg.MAX = 2 ^ 30 - 1 := by decide
                             omega
  have := VReg.new_toNat v c h'
  have hc := c.toNat_lt
  exact ⟨by rw [VReg.vreg_eq, this]; omega,
    by rw [VReg.class?_eq, this, RegClass.ofNat?_eq_some]; omega⟩

theorem C05_vreg_surjective (v : VReg) (c : RegClass) (h : v.class? = some c) :
    VReg.new v.vreg c = v := by
  apply VReg.ext_toNat
  rw [VReg.new_toNat _ _ v.vreg_lt]
  rw [VReg.class?_eq, RegClass.ofNat?_eq_some] at h
  rw [VReg.vreg_eq]; omega

theorem C05_vreg_injective (v v' : Nat) (c c' : RegClass) (h : v ≤ VReg.MAX) (h' : v' ≤ VReg.MAX)
    (e : VReg.new v c = VReg.new v' c') : v = v' ∧ c = c' := by
  obtain ⟨a, b⟩ := C05_vreg_roundtrip v c h
  obtain ⟨a', b'⟩ := C05_vreg_roundtrip v' c' h'
  rw [e] at a b
  exact ⟨a.symm.trans a', Option.some.inj (b.symm.trans b')⟩

/-- C05. Spill slots: index round-trip, `plus` adds, and the invalid slot is not
any slot `new` can produce. -/
theorem C05_spillslot_roundtrip (n : Nat) (h : n ≤ SpillSlot.MAX) :
    (SpillSlot.new n).index = n ∧ (SpillSlot.new n).isInvalid = false := by
  have hm : SpillSlot.MAX = 2 ^ 24 - 1 := by decide
  have hb := SpillSlot.new_toNat (n := n) (by omega)
  constructor
  · rw [SpillSlot.index_eq, hb]; omega
  · simp only [SpillSlot.isInvalid, decide_eq_false_iff_not]
    intro e
    rw [e] at hb
    have : SpillSlot.invalid.bits.toNat = 2 ^ 32 - 1 := by decide
    omega

theorem C05_spillslot_plus (n k : Nat) (h : n + k ≤ SpillSlot.MAX) :
    (SpillSlot.new n).plus k = SpillSlot.new (n + k) := by
  have := (C05_spillslot_roundtrip n (by omega)).1
  simp only [SpillSlot.plus, this]

/-- C05. Allocations: kind, payload and distinctness. -/
theorem C05_alloc_reg (p : PReg) :
    (Allocation.reg p).kind? = some .Reg ∧ (Allocation.reg p).asReg = some p ∧
      (Allocation.reg p).asStack = none ∧ (Allocation.reg p).isReg = true ∧
      (Allocation.reg p).isStack = false ∧ (Allocation.reg p).isNone = false := by
  have hlt := p.bits.toNat_lt
  have hb := Allocation.new_toNat .Reg p.index (by unfold PReg.index; omega)
  have hk : (Allocation.reg p).kind? = some .Reg := by
    rw [Allocation.kind?_eq_some]; unfold Allocation.reg; rw [hb]
    simp only [AllocationKind.toNat]; unfold PReg.index; omega
  refine ⟨hk, ?_, ?_, ?_, ?_, ?_⟩
  · simp only [Allocation.asReg, hk, if_true, Option.some.injEq]
    rw [Allocation.index_eq]; unfold Allocation.reg; rw [hb]
    simp only [AllocationKind.toNat]
    apply PReg.ext_toNat
    rw [PReg.fromIndex_toNat]; unfold PReg.index; omega
  · simp [Allocation.asStack, hk]
  · simp [Allocation.isReg, hk]
  · simp [Allocation.isStack, hk]
  · simp [Allocation.isNone, hk]

theorem C05_alloc_stack (n : Nat) (h : n ≤ SpillSlot.MAX) :
    (Allocation.stack (SpillSlot.new n)).kind? = some .Stack ∧
      (Allocation.stack (SpillSlot.new n)).asStack = some (SpillSlot.new n) ∧
      (Allocation.stack (SpillSlot.new n)).asReg = none ∧
      (Allocation.stack (SpillSlot.new n)).isStack = true ∧
      (Allocation.stack (SpillSlot.new n)).isReg = false ∧
      (Allocation.stack (SpillSlot.new n)).isNone = false := by
  have hm : SpillSlot.MAX = 2 ^ 24 - 1 := by decide
  have hs := SpillSlot.new_toNat (n := n) (by omega)
  have hb := Allocation.new_toNat .Stack (SpillSlot.new n).bits.toNat (by omega)
  have hk : (Allocation.stack (SpillSlot.new n)).kind? = some .Stack := by
    rw [Allocation.kind?_eq_some]; unfold Allocation.stack; rw [hb]
    simp only [AllocationKind.toNat]; omega
  refine ⟨hk, ?_, ?_, ?_, ?_, ?_⟩
  · simp only [Allocation.asStack, hk, if_true, Option.some.injEq]
    rw [Allocation.index_eq]; unfold Allocation.stack; rw [hb]
    simp only [AllocationKind.toNat]
    apply SpillSlot.ext_toNat
    simp only [UInt32.toNat_ofNat']
    omega
  · simp [Allocation.asReg, hk]
  · simp [Allocation.isStack, hk]
  · simp [Allocation.isReg, hk]
  · simp [Allocation.isNone, hk]

theorem C05_alloc_none : Allocation.none.isNone = true ∧ Allocation.none.asReg = none ∧
    Allocation.none.asStack = none := by decide

/-- C05. Encodings of allocations are distinct: registers among each other,
slots among each other, registers from slots, and all of them from `none`. -/
theorem C05_alloc_injective :
    (∀ p q, Allocation.reg p = Allocation.reg q → p = q) ∧
    (∀ m n, m ≤ SpillSlot.MAX → n ≤ SpillSlot.MAX →
      Allocation.stack (SpillSlot.new m) = Allocation.stack (SpillSlot.new n) → m = n) ∧
    (∀ p n, n ≤ SpillSlot.MAX → Allocation.reg p ≠ Allocation.stack (SpillSlot.new n)) ∧
    (∀ p, Allocation.reg p ≠ Allocation.none) ∧
    (∀ n, n ≤ SpillSlot.MAX → Allocation.stack (SpillSlot.new n) ≠ Allocation.none) := by
  refine ⟨?_, ?_, ?_, ?_, ?_⟩
  · intro p q e
    have := (C05_alloc_reg p).2.1
    rw [e, (C05_alloc_reg q).2.1] at this
    exact (Option.some.inj this).symm
  · intro m n hm hn e
    have := (C05_alloc_stack m hm).2.1
    rw [e, (C05_alloc_stack n hn).2.1] at this
    have h2 := (C05_spillslot_roundtrip m hm).1
    rw [← Option.some.inj this, (C05_spillslot_roundtrip n hn).1] at h2
    exact h2.symm
  · intro p n hn e
    have := (C05_alloc_reg p).1
    rw [e, (C05_alloc_stack n hn).1] at this
    simp at this
  · intro p e
    have := (C05_alloc_reg p).2.2.2.2.2
    rw [e] at this
    exact absurd this (by decide)
  · intro n hn e
    have := (C05_alloc_stack n hn).2.2.2.2.2
    rw [e] at this
    exact absurd this (by decide)

/-- C05. In release builds `Allocation::from_bits(a.bits())` is `a`. -/
theorem C05_alloc_from_bits_release (a : Allocation) : Allocation.fromBits a.bits = a := rfl

/-- C05, negative finding: with debug assertions on, `Allocation::from_bits`
panics on the encoding of *every* allocation that has a legal kind
(lib.rs:1191-1194 asserts `bits >> 29 >= 5`, but kinds are 0, 1, 2). -/
theorem C05_alloc_from_bits_debug_panics (a : Allocation) (k : AllocationKind)
    (h : a.kind? = some k) : Allocation.fromBitsDebug? a.bits = none := by
  rw [Allocation.kind?_eq_some] at h
  have hk := k.toNat_lt
  unfold Allocation.fromBitsDebug?
  rw [if_neg]
  intro hge
  have : (5 : UInt32).toNat ≤ (a.bits >>> 29).toNat := UInt32.le_iff_toNat_le.mp hge
  rw [UInt32.toNat_shiftRight, show (29 : UInt32).toNat % 32 = 29 from by decide, Bits.shr] at this
  have h5 : (5 : UInt32).toNat = 5 := by decide
  omega

example : Allocation.fromBitsDebug? (Allocation.reg (PReg.new 3 .Int)).bits = none := by decide

/-- C05. Program points: constructor then accessors, for every instruction index
below 2^30. -/
theorem C05_progpoint_roundtrip (i : Inst) (p : InstPosition) (h : i.idx.toNat < 2 ^ 30) :
    (ProgPoint.new i p).inst = i ∧ (ProgPoint.new i p).pos = p := by
  have hb := ProgPoint.new_toNat i p (by omega)
  have hp : p.toNat < 2 := by cases p <;> decide
  constructor
  · have := ProgPoint.inst_toNat (ProgPoint.new i p)
    rw [hb] at this
    have e : (ProgPoint.new i p).inst.idx = i.idx := by
      apply UInt32.toNat_inj.mp; rw [this]; omega
    cases i; simp only at e
    generalize (ProgPoint.new _ p).inst = x at e
    cases x; simp_all
  · rw [ProgPoint.pos_eq, hb]
    cases p <;> simp [InstPosition.toNat] <;> omega

/-- C05. Every program point whose top bit is clear is rebuilt from its parts. -/
theorem C05_progpoint_surjective (q : ProgPoint) (h : q.bits.toNat < 2 ^ 31) :
    ProgPoint.new q.inst q.pos = q := by
  have hi := ProgPoint.inst_toNat q
  have hlt : q.inst.idx.toNat < 2 ^ 31 := by omega
  apply ProgPoint.ext_toNat
  rw [ProgPoint.new_toNat _ _ hlt, hi, ProgPoint.pos_eq]
  split <;> simp only [InstPosition.toNat] <;> omega

/-- C05. Program points compare in program order: by instruction, and within an
instruction Before precedes After. (Comparison of points is comparison of
`bits`, the derived `Ord`, lib.rs:1375-1379.) -/
theorem C05_progpoint_order (i j : Inst) (p q : InstPosition)
    (hi : i.idx.toNat < 2 ^ 31) (hj : j.idx.toNat < 2 ^ 31) :
    (ProgPoint.new i p).bits < (ProgPoint.new j q).bits ↔
      i.idx.toNat < j.idx.toNat ∨ (i = j ∧ p = .Before ∧ q = .After) := by
  have hb := ProgPoint.new_toNat i p hi
  have hb' := ProgPoint.new_toNat j q hj
  have hij : i = j ↔ i.idx.toNat = j.idx.toNat := by
    cases i; cases j; simp [UInt32.toNat_inj]
  rw [UInt32.lt_iff_toNat_lt, hb, hb', hij]
  cases p <;> cases q <;> simp [InstPosition.toNat] <;> omega

/-- C05. `next` and `prev` step through Before(i), After(i), Before(i+1), ... -/
theorem C05_progpoint_next (i : Nat) (h : i + 1 < 2 ^ 31) :
    (ProgPoint.before (Inst.new i)).next = ProgPoint.after (Inst.new i) ∧
    (ProgPoint.after (Inst.new i)).next = ProgPoint.before (Inst.new (i + 1)) ∧
    (ProgPoint.after (Inst.new i)).prev = ProgPoint.before (Inst.new i) ∧
    (ProgPoint.before (Inst.new (i + 1))).prev = ProgPoint.after (Inst.new i) := by
  have hi : (Inst.new i).idx.toNat = i := by
    simp only [Inst.new, UInt32.toNat_ofNat']; omega
  have hi1 : (Inst.new (i + 1)).idx.toNat = i + 1 := by
    simp only [Inst.new, UInt32.toNat_ofNat']; omega
  have b1 := ProgPoint.new_toNat (Inst.new i) .Before (by omega)
  have a1 := ProgPoint.new_toNat (Inst.new i) .After (by omega)
  have b2 := ProgPoint.new_toNat (Inst.new (i + 1)) .Before (by omega)
  rw [hi] at b1 a1; rw [hi1] at b2
  simp only [InstPosition.toNat] at b1 a1 b2
  have one : (1 : UInt32).toNat = 1 := by decide
  refine ⟨?_, ?_, ?_, ?_⟩ <;> apply ProgPoint.ext_toNat <;>
    simp only [ProgPoint.before, ProgPoint.after, ProgPoint.next, ProgPoint.prev,
      UInt32.toNat_add, UInt32.toNat_sub, a1, b1, b2, one] <;> omega

/-- C05 (limits of the encoding): at instruction index 2^30 the round trip
fails, because `inst()` shifts arithmetically; the invalid instruction does
survive, which is why the shift is arithmetic. -/
theorem C05_progpoint_limit :
    (ProgPoint.before (Inst.new (2 ^ 30))).inst ≠ Inst.new (2 ^ 30) ∧
    ProgPoint.invalid.inst = Inst.invalid := by decide

example : (ProgPoint.new (Inst.new 41) .After).inst = Inst.new 41 := by decide

end Regalloc
