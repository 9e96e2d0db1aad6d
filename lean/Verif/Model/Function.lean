import Verif.Model.Lib
import Verif.Model.PRegSet

/-
The `Function` trait (`/repo/src/lib.rs:1216-1355`) as a record of functions.
Blocks and instructions are `Nat`; an instruction range is a pair `(from, to)`.
Operands are kept decoded (`Op`); `Props/Encodings.lean` (C04) proves the packed
64-bit encoding loses nothing. Program points are `Nat`s, `2 * inst` for Before
and `2 * inst + 1` for After (`ProgPoint::to_index`, `/repo/src/lib.rs:1455`).
-/
namespace Regalloc

/-- Decoded `Operand`, `/repo/src/lib.rs:658-1028`. -/
structure Op where
  vreg : VReg
  constraint : OperandConstraint
  kind : OperandKind
  pos : OperandPos
  deriving DecidableEq, Repr

/-- `/repo/src/lib.rs:1003-1010` `as_fixed_nonallocatable`. -/
def Op.asFixedNonallocatable (o : Op) : Option PReg :=
  match o.constraint with
  | .FixedReg p => if o.vreg.vreg = VReg.MAX then some p else none
  | _ => none

/-- `/repo/src/lib.rs:1216-1355` `Function` (configuration queries omitted here
are modelled where they are used). -/
structure Func where
  numInsts : Nat
  numBlocks : Nat
  entry : Nat
  insns : Nat → Nat × Nat
  succs : Nat → List Nat
  preds : Nat → List Nat
  params : Nat → List VReg
  isRet : Nat → Bool
  isBranch : Nat → Bool
  args : Nat → Nat → Nat → List VReg
  operands : Nat → List Op
  clobbers : Nat → List PReg
  numVregs : Nat

/-- `/repo/src/index.rs:164-167` `InstRange::last`. -/
def Func.lastInst (f : Func) (b : Nat) : Nat := (f.insns b).2 - 1

/-- `/repo/src/index.rs:177-179` `InstRange::iter`. -/
def Func.blockInsts (f : Func) (b : Nat) : List Nat :=
  List.range' (f.insns b).1 ((f.insns b).2 - (f.insns b).1)

/-- `ProgPoint::before`, as an index. -/
abbrev ptBefore (i : Nat) : Nat := 2 * i
/-- `ProgPoint::after`, as an index. -/
abbrev ptAfter (i : Nat) : Nat := 2 * i + 1

/-- `/repo/src/lib.rs:1644-1666` `RegAllocError` (the variants produced by the
modelled passes). -/
inductive RegAllocError
  | critEdge (pred block : Nat)
  | ssa (v : VReg) (inst : Option Nat)
  | bb (block : Nat)
  | branch (inst : Nat)
  | entryLivein
  | disallowedBranchArg (inst : Nat)
  | tooManyLiveRegs
  | tooManyOperands
  deriving DecidableEq, Repr

end Regalloc
