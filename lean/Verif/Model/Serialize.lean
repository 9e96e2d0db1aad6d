import Verif.Model.Function

/-
Model of `/repo/src/serialize.rs` (without the derived serde encodings): building the
copy and answering queries on it. Vectors are lists; indexing past the end, a panic in
the code, is `none`.
-/
namespace Regalloc.Serialize

/-- A client's `Function` with all its queries, `/repo/src/lib.rs:1216-1355`. -/
structure Client extends Func where
  debugLabels : List (VReg × Nat × Nat × Nat)
  spillslotSize : RegClass → Nat
  multiNamedByLast : Bool
  allowMultipleDefs : Bool

/-- `/repo/src/serialize.rs:8-13` `InstOpcode`. -/
inductive Opcode
  | op
  | ret
  | branch
  deriving DecidableEq, Repr

/-- `/repo/src/serialize.rs:25-30` `InstData`. -/
structure InstData where
  op : Opcode
  operands : List Op
  clobbers : List PReg

/-- `/repo/src/serialize.rs:38-54` `SerializableFunction`. -/
structure Copy where
  machineEnv : MachineEnv
  entryBlock : Nat
  insts : List InstData
  blocks : List (Nat × Nat)
  blockPreds : List (List Nat)
  blockSuccs : List (List Nat)
  blockParamsIn : List (List VReg)
  blockParamsOut : List (List (List VReg))
  numVregs : Nat
  debugValueLabels : List (VReg × Nat × Nat × Nat)
  spillslotSize : List Nat
  multiNamedByLast : Bool
  allowMultipleDefs : Bool

/-- `/repo/src/serialize.rs:66-72`. -/
def opcode (f : Client) (i : Nat) : Opcode :=
  if f.isRet i then .ret else if f.isBranch i then .branch else .op

/-- `/repo/src/serialize.rs:58-123` `new`. `none` is the assertion in `InstRange::last`
(`/repo/src/index.rs:164-167`) failing on an empty block. -/
def Copy.new? (f : Client) (env : MachineEnv) : Option Copy :=
  if (List.range f.numBlocks).all (fun b => (f.insns b).1 < (f.insns b).2) then
    some {
      machineEnv := env
      entryBlock := f.entry
      insts := (List.range f.numInsts).map (fun i => ⟨opcode f i, f.operands i, f.clobbers i⟩)
      blocks := (List.range f.numBlocks).map f.insns
      blockPreds := (List.range f.numBlocks).map f.preds
      blockSuccs := (List.range f.numBlocks).map f.succs
      blockParamsIn := (List.range f.numBlocks).map f.params
      blockParamsOut := (List.range f.numBlocks).map (fun b =>
        (List.range (f.succs b).length).map (fun k => f.args b (f.lastInst b) k))
      numVregs := f.numVregs
      debugValueLabels := f.debugLabels
      spillslotSize := [f.spillslotSize .Int, f.spillslotSize .Float, f.spillslotSize .Vector]
      multiNamedByLast := f.multiNamedByLast
      allowMultipleDefs := f.allowMultipleDefs }
  else none

namespace Copy

/-- `/repo/src/serialize.rs:132-134`. -/
def numInsts (c : Copy) : Nat := c.insts.length
/-- `/repo/src/serialize.rs:136-138`. -/
def numBlocks (c : Copy) : Nat := c.blocks.length
/-- `/repo/src/serialize.rs:144-146`. -/
def blockInsns (c : Copy) (b : Nat) : Option (Nat × Nat) := c.blocks[b]?
/-- `/repo/src/serialize.rs:148-150`. -/
def succs (c : Copy) (b : Nat) : Option (List Nat) := c.blockSuccs[b]?
/-- `/repo/src/serialize.rs:152-154`. -/
def preds (c : Copy) (b : Nat) : Option (List Nat) := c.blockPreds[b]?
/-- `/repo/src/serialize.rs:156-158`. -/
def params (c : Copy) (b : Nat) : Option (List VReg) := c.blockParamsIn[b]?
/-- `/repo/src/serialize.rs:160-162`. -/
def isRet (c : Copy) (i : Nat) : Option Bool := c.insts[i]?.map (fun d => decide (d.op = .ret))
/-- `/repo/src/serialize.rs:164-166`. -/
def isBranch (c : Copy) (i : Nat) : Option Bool := c.insts[i]?.map (fun d => decide (d.op = .branch))
/-- `/repo/src/serialize.rs:168-170`. -/
def args (c : Copy) (b _inst k : Nat) : Option (List VReg) := c.blockParamsOut[b]? >>= fun l => l[k]?
/-- `/repo/src/serialize.rs:172-174`. -/
def operands (c : Copy) (i : Nat) : Option (List Op) := c.insts[i]?.map (·.operands)
/-- `/repo/src/serialize.rs:176-178`. -/
def clobbers (c : Copy) (i : Nat) : Option (List PReg) := c.insts[i]?.map (·.clobbers)
/-- `/repo/src/serialize.rs:188-190`; `RegClass as usize`, `/repo/src/lib.rs:88-92`. -/
def slotSize (c : Copy) (r : RegClass) : Option Nat :=
  c.spillslotSize[match r with | .Int => 0 | .Float => 1 | .Vector => 2]?

end Copy

end Regalloc.Serialize
