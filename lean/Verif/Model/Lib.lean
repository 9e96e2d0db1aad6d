/-
Model of the packed data types of `/repo/src/lib.rs`.

`u8/u32/u64` are Lean's `UInt8/UInt32/UInt64` (wrapping arithmetic, exactly as
release-mode Rust), `usize` is `Nat`; an `as u32` cast is `UInt32.ofNat`, which
truncates as the Rust cast does. `unreachable!()` is `none`.
-/
namespace Regalloc

/-- `/repo/src/lib.rs:88-92` `RegClass`. -/
inductive RegClass
  | Int | Float | Vector
  deriving DecidableEq, Repr, Inhabited

/-- `/repo/src/lib.rs:89-91` discriminants (`class as u8`). -/
def RegClass.toNat : RegClass → Nat
  | .Int => 0
  | .Float => 1
  | .Vector => 2

/-- The three-way match on a class field used at `/repo/src/lib.rs:137-144`,
`447-454` and `946-954`; the `unreachable!()` arm is `none`. -/
def RegClass.ofNat? : Nat → Option RegClass
  | 0 => some .Int
  | 1 => some .Float
  | 2 => some .Vector
  | _ => none

/-! ### `PReg`, lib.rs:110-180 -/

/-- `/repo/src/lib.rs:110-112`. -/
structure PReg where
  bits : UInt8
  deriving DecidableEq, Repr

namespace PReg

/-- `/repo/src/lib.rs:116` `MAX` (= 63). -/
def MAX : Nat := (1 <<< 6) - 1

/-- `/repo/src/lib.rs:117` `NUM_INDEX` (= 256). -/
def NUM_INDEX : Nat := 1 <<< (6 + 2)

/-- `/repo/src/lib.rs:118` `INVALID`. -/
def INVALID : UInt8 := (UInt8.ofNat RegClass.Int.toNat <<< 6) ||| UInt8.ofNat MAX

/-- `/repo/src/lib.rs:122-127` `new` (release behaviour). -/
def new (hwEnc : Nat) (c : RegClass) : PReg :=
  ⟨(UInt8.ofNat c.toNat <<< 6) ||| UInt8.ofNat hwEnc⟩

/-- `/repo/src/lib.rs:131-133` `hw_enc`. -/
def hwEnc (p : PReg) : Nat := p.bits.toNat &&& MAX

/-- `/repo/src/lib.rs:137-144` `class`; `none` is the `unreachable!()` arm. -/
def class? (p : PReg) : Option RegClass :=
  RegClass.ofNat? ((p.bits >>> 6) &&& 3).toNat

/-- `/repo/src/lib.rs:150-152` `index`. -/
def index (p : PReg) : Nat := p.bits.toNat

/-- `/repo/src/lib.rs:156-160` `from_index`. -/
def fromIndex (i : Nat) : PReg := ⟨UInt8.ofNat (i &&& (NUM_INDEX - 1))⟩

/-- `/repo/src/lib.rs:165-169` `invalid`. -/
def invalid : PReg := ⟨INVALID⟩

/-- `/repo/src/lib.rs:173-179` `as_valid`. -/
def asValid (p : PReg) : Option PReg := if p.bits = INVALID then none else some p

end PReg

instance : Inhabited PReg := ⟨PReg.invalid⟩

/-! ### `VReg`, lib.rs:424-470 -/

/-- `/repo/src/lib.rs:424-426`. -/
structure VReg where
  bits : UInt32
  deriving DecidableEq, Repr, Inhabited

namespace VReg

/-- `/repo/src/lib.rs:430` `MAX` (= 2^30 - 1). -/
def MAX : Nat := (1 <<< 30) - 1

/-- `/repo/src/lib.rs:433-438` `new`. -/
def new (v : Nat) (c : RegClass) : VReg :=
  ⟨(UInt32.ofNat v <<< 2) ||| UInt32.ofNat c.toNat⟩

/-- `/repo/src/lib.rs:441-444` `vreg`. -/
def vreg (v : VReg) : Nat := (v.bits >>> 2).toNat

/-- `/repo/src/lib.rs:447-454` `class`. -/
def class? (v : VReg) : Option RegClass := RegClass.ofNat? (v.bits &&& 3).toNat

/-- `/repo/src/lib.rs:457-459` `invalid`. -/
def invalid : VReg := VReg.new MAX .Int

/-- `/repo/src/lib.rs:467-469` `from_bits`. -/
def fromBits (b : UInt32) : VReg := ⟨b⟩

end VReg

/-! ### `SpillSlot`, lib.rs:503-547 -/

/-- `/repo/src/lib.rs:503-505`. -/
structure SpillSlot where
  bits : UInt32
  deriving DecidableEq, Repr, Inhabited

namespace SpillSlot

/-- `/repo/src/lib.rs:509` `MAX`. -/
def MAX : Nat := (1 <<< 24) - 1

/-- `/repo/src/lib.rs:513-516` `new`. -/
def new (slot : Nat) : SpillSlot := ⟨UInt32.ofNat slot⟩

/-- `/repo/src/lib.rs:520-522` `index`. -/
def index (s : SpillSlot) : Nat := (s.bits &&& 0x00ffffff).toNat

/-- `/repo/src/lib.rs:526-528` `plus`. -/
def plus (s : SpillSlot) (offset : Nat) : SpillSlot := new (s.index + offset)

/-- `/repo/src/lib.rs:532-534` `invalid`. -/
def invalid : SpillSlot := ⟨0xffffffff⟩

/-- `/repo/src/lib.rs:538-540` `is_invalid`. -/
def isInvalid (s : SpillSlot) : Bool := decide (s = invalid)

end SpillSlot

/-! ### `Operand`, lib.rs:567-1028 -/

/-- `/repo/src/lib.rs:567-585`. -/
inductive OperandConstraint
  | Any | Reg | Stack
  | FixedReg (p : PReg)
  | Reuse (i : Nat)
  | Limit (n : Nat)
  deriving DecidableEq, Repr, Inhabited

/-- `/repo/src/lib.rs:604-607` `OperandKind` (Def = 0, Use = 1). -/
inductive OperandKind
  | Def | Use
  deriving DecidableEq, Repr, Inhabited

/-- `/repo/src/lib.rs:629-632` `OperandPos` (Early = 0, Late = 1). -/
inductive OperandPos
  | Early | Late
  deriving DecidableEq, Repr, Inhabited

/-- discriminant of `OperandKind`. -/
def OperandKind.toNat : OperandKind → Nat
  | .Def => 0
  | .Use => 1

/-- discriminant of `OperandPos`. -/
def OperandPos.toNat : OperandPos → Nat
  | .Early => 0
  | .Late => 1

/-- `/repo/src/lib.rs:658-676`. -/
structure Operand where
  bits : UInt64
  deriving DecidableEq, Repr, Inhabited

namespace Operand

/-- `/repo/src/lib.rs:709-731`: the 7-bit constraint field. `Limit` asserts (in
release too, lib.rs:721-725) that the limit is a power of two at most 64, which
is the `none` result here; `ilog2` is `Nat.log2`. -/
def constraintField? : OperandConstraint → Option Nat
  | .Any => some 0
  | .Reg => some 1
  | .Stack => some 2
  | .FixedReg p => some (0b1000000 ||| p.hwEnc)
  | .Reuse i => some (0b0100000 ||| i)
  | .Limit n =>
    if n = 2 ^ n.log2 ∧ n ≤ PReg.MAX + 1 then some (0b0010000 ||| n.log2) else none

/-- `/repo/src/lib.rs:703-742` `new`. `none` when the vreg class field is the
unreachable value 3 or the `Limit` assertions fail. The `debug_assert!`s on
`FixedReg`'s class and `Reuse`'s width are not part of release behaviour. -/
def new? (v : VReg) (c : OperandConstraint) (k : OperandKind) (p : OperandPos) : Option Operand := do
  let f ← constraintField? c
  let cls ← v.class?
  some ⟨(UInt64.ofNat v.vreg <<< 0)
    ||| (UInt64.ofNat cls.toNat <<< 32)
    ||| (UInt64.ofNat p.toNat <<< 34)
    ||| (UInt64.ofNat k.toNat <<< 35)
    ||| (UInt64.ofNat f <<< 36)⟩

/-! Named constructors, `/repo/src/lib.rs:748-920`. -/

/-- `/repo/src/lib.rs:748-755`. -/
def regUse? (v : VReg) := new? v .Reg .Use .Early
/-- `/repo/src/lib.rs:761-768`. -/
def regUseAtEnd? (v : VReg) := new? v .Reg .Use .Late
/-- `/repo/src/lib.rs:775-782`. -/
def regDef? (v : VReg) := new? v .Reg .Def .Late
/-- `/repo/src/lib.rs:796-803`. -/
def regDefAtStart? (v : VReg) := new? v .Reg .Def .Early
/-- `/repo/src/lib.rs:818-828`: a temp is an early def. -/
def regTemp? (v : VReg) := new? v .Reg .Def .Early
/-- `/repo/src/lib.rs:836-843`. -/
def regReuseDef? (v : VReg) (i : Nat) := new? v (.Reuse i) .Def .Late
/-- `/repo/src/lib.rs:850-857`. -/
def regFixedUse? (v : VReg) (p : PReg) := new? v (.FixedReg p) .Use .Early
/-- `/repo/src/lib.rs:864-871`. -/
def regFixedDef? (v : VReg) (p : PReg) := new? v (.FixedReg p) .Def .Late
/-- `/repo/src/lib.rs:875-882`. -/
def regFixedUseAtEnd? (v : VReg) (p : PReg) := new? v (.FixedReg p) .Use .Late
/-- `/repo/src/lib.rs:886-893`. -/
def regFixedDefAtStart? (v : VReg) (p : PReg) := new? v (.FixedReg p) .Def .Early
/-- `/repo/src/lib.rs:899-906`. -/
def anyUse? (v : VReg) := new? v .Any .Use .Early
/-- `/repo/src/lib.rs:912-919`. -/
def anyDef? (v : VReg) := new? v .Any .Def .Late

/-- `/repo/src/lib.rs:946-954` `class`. -/
def class? (o : Operand) : Option RegClass := RegClass.ofNat? ((o.bits >>> 32) &&& 3).toNat

/-- `/repo/src/lib.rs:939-942` `vreg`. -/
def vreg? (o : Operand) : Option VReg := do
  let c ← o.class?
  some (VReg.new ((o.bits >>> 0) &&& 0xffffffff).toNat c)

/-- `/repo/src/lib.rs:959-966` `kind`. -/
def kind (o : Operand) : OperandKind :=
  if ((o.bits >>> 35) &&& 1).toNat = 0 then .Def else .Use

/-- `/repo/src/lib.rs:973-980` `pos`. -/
def pos (o : Operand) : OperandPos :=
  if ((o.bits >>> 34) &&& 1).toNat = 0 then .Early else .Late

/-- `/repo/src/lib.rs:985-1002` `constraint`. -/
def constraint? (o : Operand) : Option OperandConstraint := do
  let f := ((o.bits >>> 36) &&& 127).toNat
  if f &&& 0b1000000 ≠ 0 then
    let c ← o.class?
    some (.FixedReg (PReg.new (f &&& 0b0111111) c))
  else if f &&& 0b0100000 ≠ 0 then some (.Reuse (f &&& 0b0011111))
  else if f &&& 0b0010000 ≠ 0 then some (.Limit (1 <<< (f &&& 0b0001111)))
  else match f with
    | 0 => some .Any
    | 1 => some .Reg
    | 2 => some .Stack
    | _ => none

/-- `/repo/src/lib.rs:1008-1013` `as_fixed_nonallocatable`. -/
def asFixedNonallocatable? (o : Operand) : Option PReg :=
  match o.constraint?, o.vreg? with
  | some (.FixedReg p), some v => if v.vreg = VReg.MAX then some p else none
  | _, _ => none

/-- `/repo/src/lib.rs:925-932` `fixed_nonallocatable`. -/
def fixedNonallocatable? (p : PReg) : Option Operand := do
  let c ← p.class?
  new? (VReg.new VReg.MAX c) (.FixedReg p) .Use .Early

/-- `/repo/src/lib.rs:1024-1027` `from_bits`. -/
def fromBits (b : UInt64) : Operand := ⟨b⟩

end Operand

/-! ### `Allocation`, lib.rs:1067-1195 -/

/-- `/repo/src/lib.rs:1202-1206` `AllocationKind`. -/
inductive AllocationKind
  | None | Reg | Stack
  deriving DecidableEq, Repr, Inhabited

/-- discriminants at `/repo/src/lib.rs:1203-1205`. -/
def AllocationKind.toNat : AllocationKind → Nat
  | .None => 0
  | .Reg => 1
  | .Stack => 2

/-- `/repo/src/lib.rs:1067-1072`. -/
structure Allocation where
  bits : UInt32
  deriving DecidableEq, Repr, Inhabited

namespace Allocation

/-- `/repo/src/lib.rs:1093-1098` `new` (release behaviour; the
`debug_assert!(index < 1 << 28)` is not included). -/
def new (k : AllocationKind) (index : Nat) : Allocation :=
  ⟨(UInt32.ofNat k.toNat <<< 29) ||| UInt32.ofNat index⟩

/-- `/repo/src/lib.rs:1103-1105` `none`. -/
def none : Allocation := new .None 0

/-- `/repo/src/lib.rs:1109-1111` `reg`. -/
def reg (p : PReg) : Allocation := new .Reg p.index

/-- `/repo/src/lib.rs:1115-1117` `stack`. -/
def stack (s : SpillSlot) : Allocation := new .Stack s.bits.toNat

/-- `/repo/src/lib.rs:1121-1128` `kind`; `none` is the `unreachable!()` arm. -/
def kind? (a : Allocation) : Option AllocationKind :=
  match ((a.bits >>> 29) &&& 7).toNat with
  | 0 => some .None
  | 1 => some .Reg
  | 2 => some .Stack
  | _ => Option.none

/-- `/repo/src/lib.rs:1132-1134` `is_none`. -/
def isNone (a : Allocation) : Bool := a.kind? == some .None

/-- `/repo/src/lib.rs:1144-1146` `is_reg`. -/
def isReg (a : Allocation) : Bool := a.kind? == some .Reg

/-- `/repo/src/lib.rs:1150-1152` `is_stack`. -/
def isStack (a : Allocation) : Bool := a.kind? == some .Stack

/-- `/repo/src/lib.rs:1157-1159` `index`. -/
def index (a : Allocation) : Nat := (a.bits &&& 0x0fffffff).toNat

/-- `/repo/src/lib.rs:1163-1169` `as_reg`. -/
def asReg (a : Allocation) : Option PReg :=
  if a.kind? = some .Reg then some (PReg.fromIndex a.index) else Option.none

/-- `/repo/src/lib.rs:1173-1181` `as_stack`. -/
def asStack (a : Allocation) : Option SpillSlot :=
  if a.kind? = some .Stack then some ⟨UInt32.ofNat a.index⟩ else Option.none

/-- `/repo/src/lib.rs:1191-1194` `from_bits` as compiled in release mode. -/
def fromBits (b : UInt32) : Allocation := ⟨b⟩

/-- `/repo/src/lib.rs:1191-1194` `from_bits` as compiled with debug assertions:
`debug_assert!(bits >> 29 >= 5)` panics (`none`) when it fails. -/
def fromBitsDebug? (b : UInt32) : Option Allocation :=
  if (b >>> 29) ≥ 5 then some ⟨b⟩ else Option.none

end Allocation

/-! ### `Inst`, `ProgPoint`, lib.rs:1369-1469, index.rs:79-136 -/

/-- `/repo/src/index.rs:85,136` `Inst(u32)`. -/
structure Inst where
  idx : UInt32
  deriving DecidableEq, Repr, Inhabited

/-- `/repo/src/index.rs:88-90` `Inst::new`. -/
def Inst.new (i : Nat) : Inst := ⟨UInt32.ofNat i⟩

/-- `/repo/src/index.rs:97-99` `Inst::invalid`. -/
def Inst.invalid : Inst := ⟨0xffffffff⟩

/-- `/repo/src/lib.rs:1369-1372` `InstPosition`. -/
inductive InstPosition
  | Before | After
  deriving DecidableEq, Repr, Inhabited

/-- discriminants at `/repo/src/lib.rs:1370-1371`. -/
def InstPosition.toNat : InstPosition → Nat
  | .Before => 0
  | .After => 1

/-- `/repo/src/lib.rs:1377-1379`. -/
structure ProgPoint where
  bits : UInt32
  deriving DecidableEq, Repr, Inhabited

namespace ProgPoint

/-- `/repo/src/lib.rs:1398-1401` `new`. -/
def new (i : Inst) (p : InstPosition) : ProgPoint :=
  ⟨(i.idx <<< 1) ||| UInt32.ofNat p.toNat⟩

/-- `/repo/src/lib.rs:1405-1407` `before`. -/
def before (i : Inst) : ProgPoint := new i .Before

/-- `/repo/src/lib.rs:1411-1413` `after`. -/
def after (i : Inst) : ProgPoint := new i .After

/-- `/repo/src/lib.rs:1417-1421` `inst`. `(bits as i32) >> 1` is an arithmetic
shift; the result is sign-extended to `usize` and truncated back to `u32` by
`Inst::new`, i.e. bit 31 is copied. -/
def inst (p : ProgPoint) : Inst := ⟨(p.bits >>> 1) ||| (p.bits &&& 0x80000000)⟩

/-- `/repo/src/lib.rs:1426-1432` `pos`. -/
def pos (p : ProgPoint) : InstPosition := if (p.bits &&& 1) = 0 then .Before else .After

/-- `/repo/src/lib.rs:1438-1442` `next` (wrapping, as in release mode). -/
def next (p : ProgPoint) : ProgPoint := ⟨p.bits + 1⟩

/-- `/repo/src/lib.rs:1447-1451` `prev` (wrapping, as in release mode). -/
def prev (p : ProgPoint) : ProgPoint := ⟨p.bits - 1⟩

/-- `/repo/src/lib.rs:1466-1468` `invalid`. -/
def invalid : ProgPoint := before Inst.invalid

end ProgPoint

/-- `/repo/src/ion/data_structures.rs:988-990` `u64_key`. -/
def u64Key (b a : UInt32) : UInt64 := a.toUInt64 ||| (b.toUInt64 <<< 32)

end Regalloc
