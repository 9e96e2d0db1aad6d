import Verif.Model.Lib

/-
Model of spill weights and of the packed words that hold them:
`/repo/src/ion/liveranges.rs:31-97`, `/repo/src/ion/data_structures.rs:118-272`,
`/repo/src/ion/process.rs:331-362`. A 32-bit float is its bit pattern; the only float
arithmetic modelled is that of `spill_weight_from_constraint`.
-/
namespace Regalloc.Weights

/-- `/repo/src/ion/liveranges.rs:33` `SpillWeight`, the bits of the `f32`. -/
structure SpillWeight where
  f32 : UInt32
  deriving DecidableEq, Repr

/-- `/repo/src/ion/liveranges.rs:59-61` `to_bits`. -/
def SpillWeight.toBits (w : SpillWeight) : UInt16 := (w.f32 >>> 15).toUInt16

/-- `/repo/src/ion/liveranges.rs:67-70` `from_bits`. -/
def SpillWeight.fromBits (b : UInt16) : SpillWeight := ⟨b.toUInt32 <<< 15⟩

/-! ### `spill_weight_from_constraint` -/

/-- Round a natural number to 24 significant bits, ties to even: the value of `f32`
addition or multiplication with that exact result (IEEE 754). -/
def round24 (n : Nat) : Nat :=
  let e := n.log2 - 23
  let q := n / 2 ^ e
  let r := n % 2 ^ e
  if 2 * r < 2 ^ e ∨ (2 * r = 2 ^ e ∧ q % 2 = 0) then q * 2 ^ e else (q + 1) * 2 ^ e

/-- `/repo/src/ion/liveranges.rs:36-52` `spill_weight_from_constraint`, as the integer
the float stands for. -/
def spillWeightFromConstraint (c : OperandConstraint) (loopDepth : Nat) (isDef : Bool) : Nat :=
  let depth := min 10 loopDepth
  let hot := (List.range depth).foldl (fun a _ => round24 (a * 4)) 1000
  let def_ := if isDef then 2000 else 0
  let con := match c with
    | .Any => 1000
    | .Reg => 2000
    | .FixedReg _ => 2000
    | _ => 0
  round24 (round24 (hot + def_) + con)

/-! ### The word of a live range -/

/-- `uses_spill_weight_and_flags`, `/repo/src/ion/data_structures.rs:125`. -/
structure RangeWord where
  bits : UInt32
  deriving DecidableEq, Repr

/-- `/repo/src/ion/data_structures.rs:130-133` `LiveRangeFlag::StartsAtDef`. -/
def startsAtDef : UInt32 := 1

/-- `/repo/src/ion/data_structures.rs:137-139` `set_flag`. -/
def RangeWord.setFlag (w : RangeWord) (flag : UInt32) : RangeWord := ⟨w.bits ||| (flag <<< 29)⟩

/-- `/repo/src/ion/data_structures.rs:141-143` `clear_flag`. -/
def RangeWord.clearFlag (w : RangeWord) (flag : UInt32) : RangeWord := ⟨w.bits &&& ~~~(flag <<< 29)⟩

/-- `/repo/src/ion/data_structures.rs:145-149` `assign_flag`. -/
def RangeWord.assignFlag (w : RangeWord) (flag : UInt32) (val : Bool) : RangeWord :=
  ⟨(w.bits &&& (0xe0000000 : UInt32)) ||| (if val then flag <<< 29 else 0)⟩

/-- `/repo/src/ion/data_structures.rs:151-153` `has_flag`. -/
def RangeWord.hasFlag (w : RangeWord) (flag : UInt32) : Bool := decide ((w.bits &&& (flag <<< 29)) ≠ 0)

/-- `/repo/src/ion/data_structures.rs:155-157` `flag_word`. -/
def RangeWord.flagWord (w : RangeWord) : UInt32 := w.bits &&& 0xe0000000

/-- `/repo/src/ion/data_structures.rs:159-161` `merge_flags`. -/
def RangeWord.mergeFlags (w : RangeWord) (flagWord : UInt32) : RangeWord := ⟨w.bits ||| flagWord⟩

/-- `/repo/src/ion/data_structures.rs:163-169` `uses_spill_weight`. -/
def RangeWord.weight (w : RangeWord) : SpillWeight := ⟨(w.bits &&& (0x1fffffff : UInt32)) <<< 2⟩

/-- `/repo/src/ion/data_structures.rs:171-175` `set_uses_spill_weight`. -/
def RangeWord.setWeight (w : RangeWord) (x : SpillWeight) : RangeWord :=
  ⟨(w.bits &&& (0xe0000000 : UInt32)) ||| ((x.f32 >>> 2) &&& (0x1fffffff : UInt32))⟩

/-! ### The word of a bundle -/

/-- `/repo/src/ion/data_structures.rs:209` `BUNDLE_MAX_SPILL_WEIGHT`. -/
def bundleMax : UInt32 := ((1 : UInt32) <<< 28) - 1
/-- `/repo/src/ion/data_structures.rs:210`. -/
def minimalFixed : UInt32 := bundleMax
/-- `/repo/src/ion/data_structures.rs:211`. -/
def minimalLimited : UInt32 := bundleMax - 1
/-- `/repo/src/ion/data_structures.rs:212`. -/
def minimalBundle : UInt32 := minimalLimited - 256
/-- `/repo/src/ion/data_structures.rs:213`. -/
def maxNormal : UInt32 := minimalBundle - 1

/-- `spill_weight_and_props`, `/repo/src/ion/data_structures.rs:205`. -/
structure BundleWord where
  bits : UInt32
  deriving DecidableEq, Repr

/-- `/repo/src/ion/data_structures.rs:217-232` `set_cached_spill_weight_and_props`; `none`
is the debug assertion. -/
def BundleWord.make (weight : UInt32) (minimal fixed fixedDef stack : Bool) : Option BundleWord :=
  if weight ≤ bundleMax then
    some ⟨weight ||| (if minimal then (1 : UInt32) <<< 31 else 0) ||| (if fixed then (1 : UInt32) <<< 30 else 0) |||
      (if fixedDef then (1 : UInt32) <<< 29 else 0) ||| (if stack then (1 : UInt32) <<< 28 else 0)⟩
  else none

/-- `/repo/src/ion/data_structures.rs:235-237`. -/
def BundleWord.minimal (w : BundleWord) : Bool := decide ((w.bits &&& ((1 : UInt32) <<< 31)) ≠ 0)
/-- `/repo/src/ion/data_structures.rs:240-242`. -/
def BundleWord.fixed (w : BundleWord) : Bool := decide ((w.bits &&& ((1 : UInt32) <<< 30)) ≠ 0)
/-- `/repo/src/ion/data_structures.rs:245-247`. -/
def BundleWord.fixedDef (w : BundleWord) : Bool := decide ((w.bits &&& ((1 : UInt32) <<< 29)) ≠ 0)
/-- `/repo/src/ion/data_structures.rs:250-252`. -/
def BundleWord.stack (w : BundleWord) : Bool := decide ((w.bits &&& ((1 : UInt32) <<< 28)) ≠ 0)
/-- `/repo/src/ion/data_structures.rs:255-257`. -/
def BundleWord.setFixed (w : BundleWord) : BundleWord := ⟨w.bits ||| ((1 : UInt32) <<< 30)⟩
/-- `/repo/src/ion/data_structures.rs:260-262`. -/
def BundleWord.setFixedDef (w : BundleWord) : BundleWord := ⟨w.bits ||| ((1 : UInt32) <<< 29)⟩
/-- `/repo/src/ion/data_structures.rs:265-267`. -/
def BundleWord.setStack (w : BundleWord) : BundleWord := ⟨w.bits ||| ((1 : UInt32) <<< 28)⟩
/-- `/repo/src/ion/data_structures.rs:270-272` `cached_spill_weight`. -/
def BundleWord.weight (w : BundleWord) : UInt32 := w.bits &&& bundleMax

/-- `/repo/src/ion/process.rs:323-354`: the weight of a bundle; `total` is the sum of the
weights of its ranges as an integer. -/
def bundleWeight (minimal fixed : Bool) (limit : Option UInt8) (total prio : UInt32) : UInt32 :=
  if minimal then
    if fixed then minimalFixed
    else
      match limit with
      | some l => minimalLimited - l.toUInt32
      | none => minimalBundle
  else if prio > 0 then min maxNormal (total / prio)
  else 0

end Regalloc.Weights
