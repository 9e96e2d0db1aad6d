import Verif.Model.Moves
import Verif.Model.RegTraversal
import Verif.Model.RedundantMoves
import Verif.Model.SpillSlots

/-
Model of the sort keys, of `InsertedMoves` and `Edits`
(`/repo/src/ion/data_structures.rs:340-396,822-994`), and of
`resolve_inserted_moves` (`/repo/src/ion/moves.rs:778-1007`).
-/
namespace Regalloc

/-- `/repo/src/ion/data_structures.rs:992-994` `u128_key`. -/
def u128Key (d c b a : UInt32) : BitVec 128 :=
  a.toBitVec.setWidth 128 ||| (b.toBitVec.setWidth 128 <<< 32) ||| (c.toBitVec.setWidth 128 <<< 64) |||
    (d.toBitVec.setWidth 128 <<< 96)

/-- `/repo/src/ion/data_structures.rs:357-362` `BlockparamOut`. -/
structure BlockparamOut where
  toVreg : UInt32
  toBlock : UInt32
  fromBlock : UInt32
  fromVreg : UInt32
  deriving DecidableEq, Repr

/-- `/repo/src/ion/data_structures.rs:365-372` `BlockparamOut::key`. -/
def BlockparamOut.key (x : BlockparamOut) : BitVec 128 := u128Key x.fromVreg x.fromBlock x.toBlock x.toVreg

/-- `/repo/src/ion/data_structures.rs:381-385` `BlockparamIn`. -/
structure BlockparamIn where
  fromBlock : UInt32
  toBlock : UInt32
  toVreg : UInt32
  deriving DecidableEq, Repr

/-- `/repo/src/ion/data_structures.rs:388-395` `BlockparamIn::key`. -/
def BlockparamIn.key (x : BlockparamIn) : BitVec 128 := u128Key x.toVreg x.toBlock x.fromBlock 0

/-- `/repo/src/ion/data_structures.rs:835-842` `InsertMovePrio`. -/
inductive InsertMovePrio
  | InEdgeMoves | Regular | MultiFixedRegInitial | MultiFixedRegSecondary | ReusedInput | OutEdgeMoves
  deriving DecidableEq, Repr

/-- Discriminants (`prio as u32`). -/
def InsertMovePrio.toU32 : InsertMovePrio → UInt32
  | .InEdgeMoves => 0
  | .Regular => 1
  | .MultiFixedRegInitial => 2
  | .MultiFixedRegSecondary => 3
  | .ReusedInput => 4
  | .OutEdgeMoves => 5

/-- `/repo/src/ion/data_structures.rs:935-938` `PosWithPrio`. -/
structure PosWithPrio where
  prio : UInt32
  pos : ProgPoint
  deriving DecidableEq, Repr

/-- `/repo/src/ion/data_structures.rs:942-944` `PosWithPrio::key`. -/
def PosWithPrio.key (p : PosWithPrio) : UInt64 := u64Key p.pos.bits p.prio

/-- `/repo/src/ion/data_structures.rs:827-832` `InsertedMove`. -/
structure InsertedMove where
  pp : PosWithPrio
  src : Allocation
  dst : Allocation
  vreg : VReg
  deriving DecidableEq, Repr

/-- `/repo/src/ion/data_structures.rs:850-888` `InsertedMoves::push`; `none` when a debug
assertion on the classes fails. -/
def InsertedMoves.push (ms : List InsertedMove) (pos : ProgPoint) (prio : InsertMovePrio) (src dst : Allocation) (v : VReg) :
    Option (List InsertedMove) :=
  if src = dst then some ms
  else
    let classOk (a : Allocation) : Bool :=
      match a.asReg with
      | some p => decide (p.class? = v.class?)
      | none => true
    if classOk src && classOk dst then some (ms ++ [⟨⟨prio.toU32, pos⟩, src, dst, v⟩]) else none

namespace ResolveMoves

/-- What `resolve_inserted_moves` reads: the function, the final location of each
operand, the block of each instruction, the machine, the ranges recorded on each
register, which registers are fixed stack slots, the register borrowed per class
(`preferred_victim_by_class`), the slot sizes and the naming convention. -/
structure MoveEnv where
  f : Func
  getAlloc : Nat → Nat → Allocation
  insnBlock : Nat → Nat
  machine : MachineEnv
  maps : PReg → PregMap.PMap
  isStackReg : PReg → Bool
  victim : RegClass → PReg
  size : RegClass → UInt32
  byLast : Bool

/-- The classes in the order of `/repo/src/ion/moves.rs:886-890`. -/
def classes : List RegClass := [.Int, .Float, .Vector]

/-- The part used by the redundant-move tracker. -/
def MoveEnv.rm (e : MoveEnv) : RedundantMoves.RMEnv :=
  ⟨e.f, e.getAlloc, e.insnBlock, classes.filterMap e.machine.scratch⟩

/-- `is_stack_alloc`, `/repo/src/ion/moves.rs:952-958`. -/
def MoveEnv.isStack (e : MoveEnv) (a : Allocation) : Bool :=
  match a.asReg with
  | some p => e.isStackReg p
  | none => a.isStack

/-- `moves.iter().any(|m| m.from_alloc == alloc || m.to_alloc == alloc)`. -/
def mentions (ms : List InsertedMove) (a : Allocation) : Bool := ms.any fun m => decide (m.src = a) || decide (m.dst = a)

/-- All answers of `find_free_reg`, `/repo/src/ion/moves.rs:908-943`, in order: the
dedicated scratch register, then the registers of the traversal with nothing recorded
at the point and not mentioned by the moves. -/
def freeRegs (e : MoveEnv) (cls : RegClass) (pos : Nat) (ms : List InsertedMove) : List Allocation :=
  (e.machine.scratch cls).toList.map Allocation.reg ++
    ((RegTraversalIter.new e.machine cls none none 0 none).all.filter (fun p =>
      (RangeMap.find? (e.maps p) ⟨pos, pos + 1⟩).isNone && !(mentions ms (Allocation.reg p)))).map Allocation.reg

/-- The placeholder of `/repo/src/ion/moves.rs:945-951`. -/
def placeholder (i : Nat) : Allocation := Allocation.stack (SpillSlot.new (SpillSlot.MAX - i))

/-- The callbacks given to `MoveAndScratchResolver`, `/repo/src/ion/moves.rs:908-966`. -/
def scratchEnv (e : MoveEnv) (cls : RegClass) (pos : Nat) (ms : List InsertedMove) : Moves.ScratchEnv :=
  ⟨fun i => (freeRegs e cls pos ms)[i]?, placeholder, e.isStack, e.victim cls⟩

/-- Number of calls to `get_stackslot` that `compute` makes: one if a cycle needs a
scratch location and no register is free (`/repo/src/moves.rs:340-357`), one if a
stack-to-stack move needs a register and none is free (`/repo/src/moves.rs:367-380`). -/
def slotsUsed (e : Moves.ScratchEnv) (mv : MoveVecWithScratch (Option VReg)) : Nat :=
  let (moves, fc, sc) :=
    if Moves.needsScratch mv then
      match e.findReg 0 with
      | some r => (Moves.withScratch r mv, 1, 0)
      | none => (Moves.withScratch (e.getSlot 0) mv, 1, 1)
    else (Moves.withScratch Allocation.none mv, 0, 0)
  if !(moves.any e.isS2S) then sc
  else
    match e.findReg fc with
    | some _ => sc
    | none => sc + 1

/-- Slots taken so far: `num_spillslots` and `extra_spillslots_by_class`. -/
structure Slots where
  num : UInt32
  extra : RegClass → List Allocation

/-- `/repo/src/ion/moves.rs:971-981`: make sure the class has `n` extra slots. The loop
runs over `i in 0..n`; it allocates when `i` reaches the length of the list. -/
def ensureExtra (e : MoveEnv) (cls : RegClass) : Nat → Slots → Option Slots
  | 0, s => some s
  | n + 1, s =>
    match ensureExtra e cls n s with
    | none => none
    | some s =>
      if n ≥ (s.extra cls).length then
        match Spill.allocSlot e.byLast s.num (e.size cls) with
        | none => none
        | some (slot, num) => some ⟨num, fun c => if c = cls then s.extra c ++ [Allocation.stack slot] else s.extra c⟩
      else some s

/-- `rewrites`, `/repo/src/ion/moves.rs:982-990`. -/
def rewrite (extra : List Allocation) (used : Nat) (a : Allocation) : Allocation :=
  match (List.range used).find? (fun i => decide (placeholder i = a)) with
  | some i => (extra[i]?).getD a
  | none => a

/-- The moves of one class at one point, `/repo/src/ion/moves.rs:891-1000`: the moves
resolved one after the other, and the slots. `none` is a panic. -/
def resolveClass (e : MoveEnv) (cls : RegClass) (pp : PosWithPrio) (ms : List InsertedMove) (s : Slots) :
    Option (List (Move (Option VReg)) × Slots) :=
  let pms : List (Move (Option VReg)) := ms.map fun m => ⟨m.src, m.dst, some m.vreg⟩
  let se := scratchEnv e cls pp.pos.bits.toNat ms
  match Moves.resolve? pms with
  | none => none
  | some mv =>
    match Moves.compute? se mv with
    | none => none
    | some out =>
      match ensureExtra e cls (slotsUsed se mv) s with
      | none => none
      | some s =>
        let rw := rewrite (s.extra cls) (slotsUsed se mv)
        some (out.map fun m => ⟨rw m.src, rw m.dst, m.t⟩, s)

/-- The moves of one position and priority, class by class, `/repo/src/ion/moves.rs:864-1001`. -/
def resolveGroup (e : MoveEnv) (pp : PosWithPrio) (ms : List InsertedMove) :
    List RegClass → Slots → Option (List (Move (Option VReg)) × Slots)
  | [], s => some ([], s)
  | c :: cs, s =>
    match resolveClass e c pp (ms.filter fun m => decide (m.vreg.class? = some c)) s with
    | none => none
    | some (out, s) =>
      match resolveGroup e pp ms cs s with
      | none => none
      | some (rest, s) => some (out ++ rest, s)

/-- A resolved move with its position and priority. -/
structure RMove where
  pp : PosWithPrio
  src : Allocation
  dst : Allocation
  vreg : Option VReg
  deriving DecidableEq, Repr

/-- `while i < len { .. }` of `/repo/src/ion/moves.rs:846-1002` without the tracker,
which does not influence the resolver: the resolved moves of all groups in order. The
list must be sorted; a group is a maximal run of equal positions and priorities. -/
def resolveAll (e : MoveEnv) : Nat → List InsertedMove → Slots → Option (List RMove × Slots)
  | _, [], s => some ([], s)
  | 0, _ :: _, _ => none
  | fuel + 1, m :: ms, s =>
    let group := m :: ms.takeWhile (fun x => decide (x.pp = m.pp))
    let rest := ms.dropWhile (fun x => decide (x.pp = m.pp))
    match resolveGroup e m.pp group classes s with
    | none => none
    | some (out, s) =>
      match resolveAll e fuel rest s with
      | none => none
      | some (outs, s) => some (out.map (fun x => ⟨m.pp, x.src, x.dst, x.t⟩) ++ outs, s)

/-- The tracker over the resolved moves and `Edits::add`
(`/repo/src/ion/moves.rs:860-861,992-999`, `/repo/src/ion/data_structures.rs:921-928`):
moves elided or with equal ends are dropped. Side effects are processed once per group
in the code; doing it per move changes nothing since there are none between equal
positions. -/
def eliminate (e : MoveEnv) : RedundantMoves → Nat → List RMove → List RMove
  | _, _, [] => []
  | s, last, m :: ms =>
    let s := RedundantMoves.sideEffects e.rm s last m.pp.pos.bits.toNat
    let r := s.processMove m.src m.dst m.vreg
    let rest := eliminate e r.2 m.pp.pos.bits.toNat ms
    if r.1 then rest else if m.src = m.dst then rest else m :: rest

/-- `Edits::sort`, `/repo/src/ion/data_structures.rs:917-919` (stable). -/
def sortEdits (es : List RMove) : List RMove := isort (fun a b => decide (a.pp.key ≤ b.pp.key)) es

/-- `/repo/src/ion/moves.rs:778-1007` `resolve_inserted_moves` on moves already sorted
by key (the code sorts them with an unstable sort, so the theorems allow any sorted
permutation): the edits and the slots. -/
def resolveSorted (e : MoveEnv) (ms : List InsertedMove) (s : Slots) : Option (List RMove × Slots) :=
  match resolveAll e ms.length ms s with
  | none => none
  | some (out, s) => some (sortEdits (eliminate e RedundantMoves.empty 0 out), s)

end ResolveMoves
end Regalloc
