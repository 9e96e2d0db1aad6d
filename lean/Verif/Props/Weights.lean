import Verif.Proofs.Weights

/-
C35: spill weights and the words that hold them.
-/
namespace Regalloc.Weights

/-- C35. Comparing values of non-negative finite floats is comparing their bits. -/
theorem C35_value_order (a b : SpillWeight) : a.value ≤ b.value ↔ a.f32 ≤ b.f32 := by
  rw [value_eq, value_eq, val_le, UInt32.le_iff_toNat_le]

/-- C35. Storing a weight in 16 bits and reading it back gives a finite weight, never
larger, and doing it again changes nothing. -/
theorem C35_compress (w : SpillWeight) (h : w.Finite) :
    (SpillWeight.fromBits w.toBits).Finite ∧ (SpillWeight.fromBits w.toBits).value ≤ w.value ∧
    SpillWeight.fromBits (SpillWeight.fromBits w.toBits).toBits = SpillWeight.fromBits w.toBits := by
  unfold SpillWeight.Finite at *
  have hr := roundtrip_toNat (w := w) (by omega)
  refine ⟨by rw [hr]; omega, ?_, ?_⟩
  · rw [value_eq, value_eq, val_le, hr]; omega
  · have hr2 := roundtrip_toNat (w := SpillWeight.fromBits w.toBits) (by rw [hr]; omega)
    have : (SpillWeight.fromBits (SpillWeight.fromBits w.toBits).toBits).f32 = (SpillWeight.fromBits w.toBits).f32 := by
      rw [← UInt32.toNat_inj, hr2, hr]; omega
    cases h1 : SpillWeight.fromBits (SpillWeight.fromBits w.toBits).toBits
    cases h2 : SpillWeight.fromBits w.toBits
    rw [h1, h2] at this
    exact congrArg _ this

/-- C35. Compression preserves order. -/
theorem C35_compress_monotone (a b : SpillWeight) (ha : a.Finite) (hb : b.Finite) (h : a.value ≤ b.value) :
    (SpillWeight.fromBits a.toBits).value ≤ (SpillWeight.fromBits b.toBits).value ∧ a.toBits ≤ b.toBits := by
  unfold SpillWeight.Finite at *
  rw [value_eq, value_eq, val_le] at h
  refine ⟨?_, ?_⟩
  · rw [value_eq, value_eq, val_le, roundtrip_toNat (by omega), roundtrip_toNat (by omega)]
    omega
  · rw [UInt16.le_iff_toNat_le, toBits_toNat, toBits_toNat]
    omega

/-- C35. The loss is below one part in 256 for normal weights. -/
theorem C35_compress_precision (w : SpillWeight) (h : w.Normal) :
    2 ^ 8 * (w.value - (SpillWeight.fromBits w.toBits).value) < w.value := by
  obtain ⟨h1, h2⟩ := h
  unfold SpillWeight.Finite at h1
  have hr := roundtrip_toNat (w := w) (by omega)
  rw [value_eq, value_eq, hr]
  generalize w.f32.toNat = n at *
  have e1 : n / 2 ^ 15 * 2 ^ 15 / 2 ^ 23 = n / 2 ^ 23 := by omega
  have e2 : n / 2 ^ 15 * 2 ^ 15 % 2 ^ 23 = n % 2 ^ 23 - n % 2 ^ 15 := by omega
  have e3 : n % 2 ^ 15 ≤ n % 2 ^ 23 := by omega
  unfold val
  rw [e1, e2, if_neg (by omega), if_neg (by omega)]
  have hpos : 0 < 2 ^ (n / 2 ^ 23 - 1) := Nat.two_pow_pos _
  rw [← Nat.sub_mul, ← Nat.mul_assoc]
  refine Nat.mul_lt_mul_of_pos_right ?_ hpos
  omega

/-- C35. Every 16-bit value survives the way back and forth. -/
theorem C35_bits_roundtrip (b : UInt16) : (SpillWeight.fromBits b).toBits = b := by
  rw [← UInt16.toNat_inj, toBits_toNat, fromBits_toNat]
  have := b.toNat_lt
  omega

/-- 4000.0 (`0x457a0000`) survives; 4001.0 (`0x457a1000`) becomes 4000.0. -/
example : SpillWeight.fromBits (SpillWeight.toBits ⟨0x457a0000⟩) = ⟨0x457a0000⟩ ∧
    SpillWeight.fromBits (SpillWeight.toBits ⟨0x457a1000⟩) = ⟨0x457a0000⟩ := by decide +kernel

example : SpillWeight.Normal ⟨0x457a1000⟩ := by unfold SpillWeight.Normal SpillWeight.Finite; decide

/-- C35. The weight of a use: at least 1000 and finite, capped at loop depth 10, and
larger in deeper loops, for definitions, and for operands that need a register. -/
theorem C35_use_weight (c : OperandConstraint) (d : Nat) (isDef : Bool) :
    1000 ≤ spillWeightFromConstraint c d isDef ∧ spillWeightFromConstraint c d isDef < 2 ^ 30 ∧
    (d < 10 → spillWeightFromConstraint c d isDef < spillWeightFromConstraint c (d + 1) isDef) ∧
    (10 ≤ d → spillWeightFromConstraint c d isDef = spillWeightFromConstraint c 10 isDef) ∧
    spillWeightFromConstraint c d false < spillWeightFromConstraint c d true ∧
    spillWeightFromConstraint .Stack d isDef < spillWeightFromConstraint .Any d isDef ∧
    spillWeightFromConstraint .Any d isDef < spillWeightFromConstraint .Reg d isDef := by
  have hcap : ∀ c isDef, spillWeightFromConstraint c d isDef = spillWeightFromConstraint c (min 10 d) isDef := by
    intro c isDef
    unfold spillWeightFromConstraint
    rw [show min 10 (min 10 d) = min 10 d by omega]
  have hcap' : d < 10 → min 10 d = d := by omega
  have hcap'' : 10 ≤ d → min 10 d = 10 := by omega
  -- the constraints fall in three groups
  have hc : ∃ c' ∈ [OperandConstraint.Stack, .Any, .Reg], ∀ d isDef, spillWeightFromConstraint c d isDef = spillWeightFromConstraint c' d isDef := by
    cases c with
    | Any => exact ⟨.Any, by simp, fun _ _ => rfl⟩
    | Reg => exact ⟨.Reg, by simp, fun _ _ => rfl⟩
    | FixedReg p => exact ⟨.Reg, by simp, fun _ _ => rfl⟩
    | Stack => exact ⟨.Stack, by simp, fun _ _ => rfl⟩
    | Reuse k => exact ⟨.Stack, by simp, fun _ _ => rfl⟩
    | Limit n => exact ⟨.Stack, by simp, fun _ _ => rfl⟩
  obtain ⟨c', hc', he⟩ := hc
  simp only [he]
  have key : ∀ c' ∈ [OperandConstraint.Stack, .Any, .Reg], ∀ k : Fin 11, ∀ isDef : Bool,
      1000 ≤ spillWeightFromConstraint c' k.val isDef ∧ spillWeightFromConstraint c' k.val isDef < 2 ^ 30 ∧
      (k.val < 10 → spillWeightFromConstraint c' k.val isDef < spillWeightFromConstraint c' (k.val + 1) isDef) ∧
      spillWeightFromConstraint c' k.val false < spillWeightFromConstraint c' k.val true ∧
      spillWeightFromConstraint .Stack k.val isDef < spillWeightFromConstraint .Any k.val isDef ∧
      spillWeightFromConstraint .Any k.val isDef < spillWeightFromConstraint .Reg k.val isDef := by decide +kernel
  have := key c' hc' ⟨min 10 d, by omega⟩ isDef
  simp only [← hcap] at this
  refine ⟨this.1, this.2.1, ?_, ?_, this.2.2.2.1, this.2.2.2.2.1, this.2.2.2.2.2⟩
  · intro h
    have h3 := this.2.2.1
    rw [hcap' h] at h3
    exact h3 h
  · intro h
    rw [hcap, hcap'' h]

/-- C35. The word of a live range: setting the weight keeps the flags and stores the weight
up to the last two bits, and setting or merging flags keeps the weight. -/
theorem C35_range_word (w : RangeWord) (x : SpillWeight) (hx : x.Finite) (fw : UInt32) :
    (w.setWeight x).weight.f32.toNat = x.f32.toNat / 4 * 4 ∧ (w.setWeight x).weight.value ≤ x.value ∧
    (w.setWeight x).flagWord = w.flagWord ∧
    (w.setFlag startsAtDef).weight = w.weight ∧ (w.setFlag startsAtDef).hasFlag startsAtDef = true ∧
    (w.clearFlag startsAtDef).weight = w.weight ∧ (w.clearFlag startsAtDef).hasFlag startsAtDef = false ∧
    (w.mergeFlags (RangeWord.flagWord ⟨fw⟩)).weight = w.weight ∧
    ((w.mergeFlags (RangeWord.flagWord ⟨fw⟩)).hasFlag startsAtDef = (w.hasFlag startsAtDef || RangeWord.hasFlag ⟨fw⟩ startsAtDef)) := by
  obtain ⟨w⟩ := w
  obtain ⟨x⟩ := x
  unfold SpillWeight.Finite at hx
  simp only at hx
  have h29 : ((1 : UInt32) <<< 29).toNat = 2 ^ 29 := by decide
  have hwt : ((RangeWord.setWeight ⟨w⟩ ⟨x⟩).weight).f32.toNat = x.toNat / 4 * 4 := by
    have : ((RangeWord.setWeight ⟨w⟩ ⟨x⟩).weight).f32 = (x >>> 2) <<< 2 &&& 0x7fffffff := by
      unfold RangeWord.setWeight RangeWord.weight
      bits32
    rw [this]
    simp only [UInt32.toNat_and, UInt32.toNat_shiftLeft, UInt32.toNat_shiftRight, UInt32.reduceToNat, Nat.shiftLeft_eq,
      Nat.shiftRight_eq_div_pow]
    rw [show (2147483647 : Nat) = 2 ^ 31 - 1 from rfl, Nat.and_two_pow_sub_one_eq_mod]
    norm_num
    omega
  refine ⟨hwt, ?_, ?_, ?_, ?_, ?_, ?_, ?_, ?_⟩
  · rw [value_eq, value_eq, val_le, hwt]; simp only; omega
  · unfold RangeWord.setWeight RangeWord.flagWord
    bits32
  · unfold RangeWord.setFlag RangeWord.weight startsAtDef
    congr 1
    bits32
  · unfold RangeWord.setFlag RangeWord.hasFlag startsAtDef
    rw [decide_eq_true_eq, bit_iff _ 29 _ h29]
    simp only [UInt32.toNat_or, h29]
    rw [Nat.testBit_or, Nat.testBit_two_pow_self, Bool.or_true]
  · unfold RangeWord.clearFlag RangeWord.weight startsAtDef
    congr 1
    bits32
  · unfold RangeWord.clearFlag RangeWord.hasFlag startsAtDef
    rw [decide_eq_false_iff_not, not_not]
    bits32
  · unfold RangeWord.mergeFlags RangeWord.weight RangeWord.flagWord
    congr 1
    bits32
  · unfold RangeWord.mergeFlags RangeWord.hasFlag RangeWord.flagWord startsAtDef
    have hf : (fw &&& (0xe0000000 : UInt32)).toNat.testBit 29 = fw.toNat.testBit 29 := by
      rw [UInt32.toNat_and, Nat.testBit_and, show ((0xe0000000 : UInt32).toNat).testBit 29 = true from by decide, Bool.and_true]
    rw [Bool.eq_iff_iff, Bool.or_eq_true, decide_eq_true_eq, decide_eq_true_eq, decide_eq_true_eq, bit_iff _ 29 _ h29, bit_iff _ 29 _ h29, bit_iff _ 29 _ h29,
      UInt32.toNat_or, Nat.testBit_or, hf, Bool.or_eq_true]

/-- C35, finding. `assign_flag` does not do what its name says: it drops the spill weight,
and assigning `false` leaves the flag set. (No caller uses it.) -/
theorem C35_assign_flag_wrong :
    ∃ w : RangeWord, (w.assignFlag startsAtDef false).hasFlag startsAtDef = true ∧
      (w.assignFlag startsAtDef true).weight ≠ w.weight :=
  ⟨⟨0x20000001⟩, by decide +kernel⟩

/-- C35. The word of a bundle: within the maximum weight, every field reads back as set, and
the later setters change only their own flag. -/
theorem C35_bundle_word (weight : UInt32) (a b c d : Bool) (h : weight ≤ bundleMax) :
    ∃ w, BundleWord.make weight a b c d = some w ∧
      w.weight = weight ∧ w.minimal = a ∧ w.fixed = b ∧ w.fixedDef = c ∧ w.stack = d ∧
      (some w.setFixed = BundleWord.make weight a true c d) ∧ (some w.setFixedDef = BundleWord.make weight a b true d) ∧
      (some w.setStack = BundleWord.make weight a b c true) := by
  unfold BundleWord.make
  simp only [if_pos h]
  have hm : bundleMax.toNat = 2 ^ 28 - 1 := by decide
  rw [UInt32.le_iff_toNat_le, hm] at h
  have hbit : ∀ k, 28 ≤ k → weight.toNat.testBit k = false := by
    intro k hk
    apply Nat.testBit_lt_two_pow
    have := Nat.pow_le_pow_right (n := 2) (by omega) hk
    omega
  have hw : weight &&& bundleMax = weight := by
    rw [← UInt32.toNat_inj, UInt32.toNat_and, hm, Nat.and_two_pow_sub_one_eq_mod, Nat.mod_eq_of_lt (by omega)]
  have h31 : ((1 : UInt32) <<< 31).toNat = 2 ^ 31 := by decide
  have h30 : ((1 : UInt32) <<< 30).toNat = 2 ^ 30 := by decide
  have h29 : ((1 : UInt32) <<< 29).toNat = 2 ^ 29 := by decide
  have h28 : ((1 : UInt32) <<< 28).toNat = 2 ^ 28 := by decide
  refine ⟨_, rfl, ?_, ?_, ?_, ?_, ?_, ?_, ?_, ?_⟩
  · unfold BundleWord.weight
    have dist : ∀ p q m : UInt32, (p ||| q) &&& m = (p &&& m) ||| (q &&& m) := by
      intro p q m
      rw [← UInt32.toNat_inj]
      simp only [UInt32.toNat_and, UInt32.toNat_or, Nat.and_or_distrib_right]
    have z1 : ∀ t : Bool, (if t then (1 : UInt32) <<< 31 else 0) &&& bundleMax = 0 := by decide
    have z2 : ∀ t : Bool, (if t then (1 : UInt32) <<< 30 else 0) &&& bundleMax = 0 := by decide
    have z3 : ∀ t : Bool, (if t then (1 : UInt32) <<< 29 else 0) &&& bundleMax = 0 := by decide
    have z4 : ∀ t : Bool, (if t then (1 : UInt32) <<< 28 else 0) &&& bundleMax = 0 := by decide
    simp only [dist, z1, z2, z3, z4, hw, UInt32.or_zero]
  · unfold BundleWord.minimal
    rw [Bool.eq_iff_iff, decide_eq_true_eq, bit_iff _ 31 _ h31]
    simp only [UInt32.toNat_or, Nat.testBit_or, hbit 31 (by omega)]
    cases a <;> cases b <;> cases c <;> cases d <;> decide
  · unfold BundleWord.fixed
    rw [Bool.eq_iff_iff, decide_eq_true_eq, bit_iff _ 30 _ h30]
    simp only [UInt32.toNat_or, Nat.testBit_or, hbit 30 (by omega)]
    cases a <;> cases b <;> cases c <;> cases d <;> decide
  · unfold BundleWord.fixedDef
    rw [Bool.eq_iff_iff, decide_eq_true_eq, bit_iff _ 29 _ h29]
    simp only [UInt32.toNat_or, Nat.testBit_or, hbit 29 (by omega)]
    cases a <;> cases b <;> cases c <;> cases d <;> decide
  · unfold BundleWord.stack
    rw [Bool.eq_iff_iff, decide_eq_true_eq, bit_iff _ 28 _ h28]
    simp only [UInt32.toNat_or, Nat.testBit_or, hbit 28 (by omega)]
    cases a <;> cases b <;> cases c <;> cases d <;> decide
  · have e : ∀ t : Bool, (if t then (1 : UInt32) <<< 30 else 0) ||| ((1 : UInt32) <<< 30) = (1 : UInt32) <<< 30 := by decide
    simp only [BundleWord.setFixed, Option.some.injEq, BundleWord.mk.injEq, if_true]
    conv => rhs; rw [← e b]
    ac_rfl
  · have e : ∀ t : Bool, (if t then (1 : UInt32) <<< 29 else 0) ||| ((1 : UInt32) <<< 29) = (1 : UInt32) <<< 29 := by decide
    simp only [BundleWord.setFixedDef, Option.some.injEq, BundleWord.mk.injEq, if_true]
    conv => rhs; rw [← e c]
    ac_rfl
  · have e : ∀ t : Bool, (if t then (1 : UInt32) <<< 28 else 0) ||| ((1 : UInt32) <<< 28) = (1 : UInt32) <<< 28 := by decide
    simp only [BundleWord.setStack, Option.some.injEq, BundleWord.mk.injEq, if_true]
    conv => rhs; rw [← e d]
    ac_rfl

example : (BundleWord.make 3000 true false true false).isSome = true := by decide

/-- C35. Weights of bundles, from evictable to unevictable: every weight fits its field;
bundles that are not minimal weigh less than minimal ones, minimal ones without a limit
less than those with one, those less the larger the limit, and fixed ones most. -/
theorem C35_bundle_weights (f : Bool) (l l' : UInt8) (lim : Option UInt8) (total prio t' p' : UInt32) :
    bundleWeight false f lim total prio ≤ bundleMax ∧
    bundleWeight false f lim total prio < bundleWeight true false none t' p' ∧
    bundleWeight true false none total prio < bundleWeight true false (some l) t' p' ∧
    (l < l' → bundleWeight true false (some l') total prio < bundleWeight true false (some l) t' p') ∧
    bundleWeight true false (some l) total prio < bundleWeight true true lim t' p' ∧
    bundleWeight true true lim t' p' ≤ bundleMax := by
  have hb : bundleMax.toNat = 2 ^ 28 - 1 := by decide
  have hl : minimalLimited.toNat = 2 ^ 28 - 2 := by decide
  have hm : minimalBundle.toNat = 2 ^ 28 - 258 := by decide
  have hn : maxNormal.toNat = 2 ^ 28 - 259 := by decide
  have hsub : ∀ x : UInt8, (minimalLimited - x.toUInt32).toNat = 2 ^ 28 - 2 - x.toNat := by
    intro x
    have := x.toNat_lt
    rw [UInt32.toNat_sub_of_le]
    · rw [hl]; simp
    · rw [UInt32.le_iff_toNat_le, hl]; simp; omega
  have hnorm : (bundleWeight false f lim total prio).toNat ≤ 2 ^ 28 - 259 := by
    unfold bundleWeight
    simp only [Bool.false_eq_true, if_false]
    split
    · have : min maxNormal (total / prio) ≤ maxNormal := by
        rw [show min maxNormal (total / prio) = if maxNormal ≤ total / prio then maxNormal else total / prio from rfl]
        rw [UInt32.le_iff_toNat_le]
        split
        · omega
        · rename_i h
          rw [UInt32.le_iff_toNat_le] at h
          omega
      rw [UInt32.le_iff_toNat_le, hn] at this
      exact this
    · simp
  have h1 := l.toNat_lt
  have h2 := l'.toNat_lt
  refine ⟨?_, ?_, ?_, ?_, ?_, ?_⟩
  · rw [UInt32.le_iff_toNat_le, hb]; omega
  · rw [UInt32.lt_iff_toNat_lt]
    simp only [bundleWeight, if_true, Bool.false_eq_true, if_false] at *
    omega
  · rw [UInt32.lt_iff_toNat_lt]
    simp only [bundleWeight, if_true, Bool.false_eq_true, if_false, hsub]
    omega
  · intro h
    rw [UInt32.lt_iff_toNat_lt]
    rw [UInt8.lt_iff_toNat_lt] at h
    simp only [bundleWeight, if_true, Bool.false_eq_true, if_false, hsub]
    omega
  · rw [UInt32.lt_iff_toNat_lt]
    simp only [bundleWeight, if_true, Bool.false_eq_true, if_false, hsub, minimalFixed]
    omega
  · simp [bundleWeight, minimalFixed]

example : bundleWeight false false none 12000 4 = 3000 ∧ bundleWeight true false (some 16) 0 0 = 0x0fffffee := by decide +kernel

end Regalloc.Weights
