import Verif.Model.Cfg
import Verif.Model.Ion
import Verif.Model.InsertedMoves
import Verif.Model.Output

/-
Model of `apply_allocations_and_insert_moves`, `/repo/src/ion/moves.rs:76-776`: once every
live range has a location, give each operand its location and insert the moves that carry
values between ranges, along edges and into constrained operands. Simplifications:
* A range is one record: its points, the flag, its uses and its location
  (`get_alloc_for_range`, `:58-74`). The list of a register is already sorted by first point
  (`:83-90`); the sort is unstable, so theorems allow any sorted list.
* Indices into `blockparam_ins` and `blockparam_outs` are the rest of the list from there on.
* Hash maps and tables are functions. Keys made of two 32-bit numbers are pairs.
* The order in which `inter_block_dests` are visited (`:608`, an unstable sort) only orders
  the inserted moves, which are sorted later; it is left out.
* Annotations, statistics and debug locations are left out.
* A failing debug assertion, index or `unwrap` is `none`.
-/
namespace Regalloc.Apply

/-- `/repo/src/ion/data_structures.rs:119-127` `LiveRange`, with the location of its bundle. -/
structure FRange where
  range : RKey
  startsAtDef : Bool
  uses : List Ion.Use
  alloc : Allocation
  deriving DecidableEq, Repr

/-- `/repo/src/ion/data_structures.rs:317-327` `FixedRegFixupLevel`. -/
inductive Level
  | Initial | Secondary
  deriving DecidableEq, Repr

/-- `/repo/src/ion/data_structures.rs:330-337` `MultiFixedRegFixup`. -/
structure Fixup where
  pos : Nat
  fromSlot : Nat
  toSlot : Nat
  preg : PReg
  vreg : Nat
  level : Level
  deriving DecidableEq, Repr

/-- `/repo/src/ion/data_structures.rs:381-385` `BlockparamIn`. -/
structure In where
  fromBlock : Nat
  toBlock : Nat
  toVreg : Nat
  deriving DecidableEq, Repr

/-- `/repo/src/ion/data_structures.rs:357-362` `BlockparamOut`. -/
structure Out where
  fromVreg : Nat
  fromBlock : Nat
  toBlock : Nat
  toVreg : Nat
  deriving DecidableEq, Repr

/-- What the pass reads: the function, the number of virtual registers, the register (with
its class) of each index, the sorted ranges of each, the block of each instruction, which
registers are live into which block, the sorted lists of parameters and arguments, the fixups,
and the locations of operands that were assigned before. -/
structure Env where
  f : Func
  numVregs : Nat
  vreg : Nat → VReg
  ranges : Nat → List FRange
  insnBlock : Nat → Nat
  liveIn : Nat → Nat → Bool
  ins : List In
  outs : List Out
  fixups : List Fixup
  allocs : Nat → Nat → Allocation

/-- `block_entry`, `/repo/src/cfg.rs:84`. -/
def entryPt (f : Func) (b : Nat) : Nat := ptBefore (f.insns b).1

/-- `block_exit`, `/repo/src/cfg.rs:85`. -/
def exitPt (f : Func) (b : Nat) : Nat := ptAfter (f.lastInst b)

/-- A program point by its number. -/
def pnt (n : Nat) : ProgPoint := ⟨UInt32.ofNat n⟩

/-- Comparison of pairs, `(a, b) < (c, d)`. -/
def pairLt (p q : Nat × Nat) : Bool := decide (p.1 < q.1) || (decide (p.1 = q.1) && decide (p.2 < q.2))

/-- `PrevBuffer`, `/repo/src/ion/moves.rs:93-98`. -/
structure Prev where
  prev : Option FRange
  prevIns : List In
  buffered : Option FRange
  bufferedIns : List In

/-- `/repo/src/ion/moves.rs:101-108` `PrevBuffer::new`. -/
def Prev.new (ins : List In) : Prev := ⟨none, ins, none, ins⟩

/-- First half of `/repo/src/ion/moves.rs:142-164` `advance`. -/
def Prev.shift (p : Prev) (cur : FRange) : Prev :=
  match p.buffered with
  | some e => if e.range.fr < cur.range.fr then { p with prev := some e, prevIns := p.bufferedIns } else p
  | none => p

/-- The longer of the buffered range and the current one. -/
def longer (b : Option FRange) (cur : FRange) : Option FRange :=
  match b with
  | some e => if e.range.to < cur.range.to then some cur else some e
  | none => some cur

/-- `/repo/src/ion/moves.rs:142-164` `advance`. -/
def Prev.advance (p : Prev) (cur : FRange) : Prev :=
  { p.shift cur with buffered := longer p.buffered cur }

/-- `BlockparamDest`, `/repo/src/ion/moves.rs:258-263`. -/
structure PDest where
  fromBlock : Nat
  toBlock : Nat
  toVreg : Nat
  alloc : Allocation
  deriving DecidableEq, Repr

/-- `InterBlockDest`, `/repo/src/ion/moves.rs:222-226`. -/
structure Dest where
  fromBlock : Nat
  toBlock : Nat
  alloc : Allocation
  deriving DecidableEq, Repr

/-- The variables of the pass. -/
structure St where
  moves : List InsertedMove
  srcs : Nat → Option Allocation
  dests : List Dest
  psrcs : Nat → Nat → Option Allocation
  pdests : List PDest
  reuse : List Nat
  allocs : Nat → Nat → Allocation
  outs : List Out
  buf : Prev

/-- `is_start_of_block`, `/repo/src/ion/moves.rs:31-34`. -/
def isStart (x : Env) (p : Nat) : Bool := decide (entryPt x.f (x.insnBlock (p / 2)) = p)

/-- A move between ranges of one register, `/repo/src/ion/moves.rs:350-375`. -/
def regularMove (x : Env) (v : Nat) (prev : Option FRange) (r : FRange) (ms : List InsertedMove) : Option (List InsertedMove) :=
  match prev with
  | none => some ms
  | some q =>
    if decide (q.range.to ≥ r.range.fr) && (decide (q.range.to > r.range.fr) || !isStart x r.range.fr) && !r.startsAtDef then
      if r.range.fr % 2 = 0 then InsertedMoves.push ms (pnt r.range.fr) .Regular q.alloc r.alloc (x.vreg v) else none
    else some ms

/-- Enter a source, preferring registers, `/repo/src/ion/moves.rs:389-400`. -/
def prefer (old : Option Allocation) (a : Allocation) : Option Allocation :=
  match old with
  | some o => if !o.isReg then some a else some o
  | none => some a

/-- `while blockparam_out_idx < ..`, `/repo/src/ion/moves.rs:411-454`. -/
def scanOuts (v b : Nat) (a : Allocation) : List Out → (Nat → Nat → Option Allocation) → List Out × (Nat → Nat → Option Allocation)
  | [], m => ([], m)
  | o :: os, m =>
    if pairLt (v, b) (o.fromVreg, o.fromBlock) then (o :: os, m)
    else if o.fromVreg = v ∧ o.fromBlock = b then
      scanOuts v b a os (fun x w => if x = b ∧ w = o.toVreg then prefer (m x w) a else m x w)
    else scanOuts v b a os m

/-- The blocks from `b` on, as long as `p` holds: `while block.index() < num_blocks`. -/
def blocksWhile (f : Func) (b : Nat) (p : Nat → Bool) : List Nat := (List.range' b (f.numBlocks - b)).takeWhile p

/-- Blocks whose end the range covers, `/repo/src/ion/moves.rs:382-386`. -/
def endBlocks (x : Env) (r : FRange) : List Nat :=
  blocksWhile x.f (x.insnBlock (r.range.fr / 2)) (fun b => !decide (r.range.to < exitPt x.f b + 1))

/-- One block whose end is covered, `/repo/src/ion/moves.rs:383-457`. -/
def endBlock (v : Nat) (a : Allocation) (st : St) (b : Nat) : St :=
  { st with
    srcs := Ion.upd st.srcs b (prefer (st.srcs b) a)
    outs := (scanOuts v b a st.outs st.psrcs).1
    psrcs := (scanOuts v b a st.outs st.psrcs).2 }

/-- First block whose start may be covered, `/repo/src/ion/moves.rs:463-466`. -/
def firstStart (x : Env) (r : FRange) : Nat :=
  if entryPt x.f (x.insnBlock (r.range.fr / 2)) < r.range.fr then x.insnBlock (r.range.fr / 2) + 1 else x.insnBlock (r.range.fr / 2)

/-- Blocks whose start the range covers, `/repo/src/ion/moves.rs:463-470`. -/
def startBlocks (x : Env) (r : FRange) : List Nat :=
  blocksWhile x.f (firstStart x r) (fun b => !decide (entryPt x.f b ≥ r.range.to))

/-- `while idx < ..`, `/repo/src/ion/moves.rs:479-513`: the rest of the list and the
destinations found. -/
def scanIns (v b : Nat) (a : Allocation) : List In → List In × List PDest
  | [] => ([], [])
  | i :: is =>
    if pairLt (v, b) (i.toVreg, i.toBlock) then (i :: is, [])
    else if i.toVreg = v ∧ i.toBlock = b then
      ((scanIns v b a is).1, ⟨i.fromBlock, i.toBlock, i.toVreg, a⟩ :: (scanIns v b a is).2)
    else scanIns v b a is

/-- Destinations for the predecessors that end outside the range,
`/repo/src/ion/moves.rs:517-547`. -/
def predDests (x : Env) (v : Nat) (r : FRange) (b : Nat) : List Dest :=
  if x.liveIn b v then
    ((x.f.preds b).filter (fun p => !(decide (r.range.fr ≤ exitPt x.f p) && decide (exitPt x.f p < r.range.to)))).map
      (fun p => ⟨p, b, r.alloc⟩)
  else []

/-- One block whose start is covered, `/repo/src/ion/moves.rs:467-550`. -/
def startBlock (x : Env) (v : Nat) (r : FRange) (st : St) (b : Nat) : St :=
  { st with
    pdests := st.pdests ++ (scanIns v b r.alloc st.buf.prevIns).2
    buf := { st.buf with bufferedIns := (scanIns v b r.alloc st.buf.prevIns).1 }
    dests := st.dests ++ predDests x v r b }

/-- `set_alloc`, `/repo/src/ion/moves.rs:52-56`. -/
def setAlloc (m : Nat → Nat → Allocation) (i k : Nat) (a : Allocation) : Nat → Nat → Allocation :=
  fun j l => if j = i ∧ l = k then a else m j l

/-- One use, `/repo/src/ion/moves.rs:553-566`. -/
def applyUse (r : FRange) (st : St) (u : Ion.Use) : Option St :=
  if r.range.fr ≤ u.pos ∧ u.pos < r.range.to then
    some { st with
      allocs := setAlloc st.allocs (u.pos / 2) u.slot r.alloc
      reuse := match u.op.constraint with | .Reuse _ => st.reuse ++ [u.pos / 2] | _ => st.reuse }
  else none

/-- The loops over blocks and uses of one range, `/repo/src/ion/moves.rs:382-566`. -/
def scanRange (x : Env) (v : Nat) (r : FRange) (st : St) : Option St :=
  r.uses.foldlM (applyUse r) ((startBlocks x r).foldl (startBlock x v r) ((endBlocks x r).foldl (endBlock v r.alloc) st))

/-- One range, `/repo/src/ion/moves.rs:292-566`. -/
def procRange (x : Env) (v : Nat) (st : St) (r : FRange) : Option St :=
  if r.alloc = Allocation.none then none
  else
    match regularMove x v (st.buf.advance r).prev r st.moves with
    | none => none
    | some ms => scanRange x v r { st with moves := ms, buf := st.buf.advance r }

/-- Insert a move on an edge, `/repo/src/ion/moves.rs:624-625`. -/
def edgeMove (x : Env) (ms : List InsertedMove) (a c : Nat) (src dst : Allocation) (v : VReg) : Option (List InsertedMove) :=
  match Cfg.chooseMoveLocation x.f a c with
  | none => none
  | some (p, tail) => InsertedMoves.push ms (pnt p) (if tail then .OutEdgeMoves else .InEdgeMoves) src dst v

/-- One destination, `/repo/src/ion/moves.rs:613-626`. -/
def destMove (x : Env) (v : Nat) (srcs : Nat → Option Allocation) (ms : List InsertedMove) (d : Dest) : Option (List InsertedMove) :=
  match srcs d.fromBlock with
  | none => none
  | some s => edgeMove x ms d.fromBlock d.toBlock s d.alloc (x.vreg v)

/-- Body of the loop over registers, `/repo/src/ion/moves.rs:273-630`. -/
def procVreg (x : Env) (st : St) (v : Nat) : Option St :=
  if (x.ranges v).isEmpty then some st
  else
    match (x.ranges v).foldlM (procRange x v) { st with srcs := fun _ => none, buf := Prev.new st.buf.prevIns } with
    | none => none
    | some st =>
      match st.dests.foldlM (destMove x v st.srcs) st.moves with
      | none => none
      | some ms => some { st with moves := ms, dests := [] }

/-- One block parameter, `/repo/src/ion/moves.rs:637-642`. -/
def paramMove (x : Env) (psrcs : Nat → Nat → Option Allocation) (ms : List InsertedMove) (d : PDest) : Option (List InsertedMove) :=
  match psrcs d.fromBlock d.toVreg with
  | none => none
  | some s => edgeMove x ms d.fromBlock d.toBlock s d.alloc (x.vreg d.toVreg)

/-- The moves and the locations of operands. -/
abbrev MA := List InsertedMove × (Nat → Nat → Allocation)

/-- Priority of a fixup, `/repo/src/ion/moves.rs:657-660`. -/
def Level.prio : Level → InsertMovePrio
  | .Initial => .MultiFixedRegInitial
  | .Secondary => .MultiFixedRegSecondary

/-- One fixup, `/repo/src/ion/moves.rs:646-667`. -/
def fixupMove (x : Env) (ma : MA) (fx : Fixup) : Option MA :=
  match InsertedMoves.push ma.1 (pnt fx.pos) fx.level.prio (ma.2 (fx.pos / 2) fx.fromSlot) (Allocation.reg fx.preg) (x.vreg fx.vreg) with
  | none => none
  | some ms => some (ms, setAlloc ma.2 (fx.pos / 2) fx.toSlot (Allocation.reg fx.preg))

/-- One operand of an instruction that reuses inputs, `/repo/src/ion/moves.rs:725-766`; the
list has the inputs reused so far. -/
def reuseOp (x : Env) (i : Nat) (acc : MA × List Nat) (ok : Op × Nat) : Option (MA × List Nat) :=
  match ok.1.constraint with
  | .Reuse j =>
    if j ∈ acc.2 ∨ ok.1.pos ≠ .Late then none
    else if acc.1.2 i j = acc.1.2 i ok.2 then some (acc.1, acc.2 ++ [j])
    else
      match (x.f.operands i)[j]? with
      | none => none
      | some o =>
        match InsertedMoves.push acc.1.1 (pnt (ptBefore i)) .ReusedInput (acc.1.2 i j) (acc.1.2 i ok.2) o.vreg with
        | none => none
        | some ms => some ((ms, setAlloc acc.1.2 i j (acc.1.2 i ok.2)), acc.2 ++ [j])
  | _ => some acc

/-- One instruction that reuses inputs, `/repo/src/ion/moves.rs:722-768`. -/
def reuseInst (x : Env) (ma : MA) (i : Nat) : Option MA :=
  ((x.f.operands i).zipIdx.foldlM (reuseOp x i) (ma, [])).map (·.1)

/-- State before the loop, `/repo/src/ion/moves.rs:236-272`. -/
def start (x : Env) : St := ⟨[], fun _ => none, [], fun _ _ => none, [], [], x.allocs, x.outs, Prev.new x.ins⟩

/-- `/repo/src/ion/moves.rs:76-776` `apply_allocations_and_insert_moves`: the inserted moves
and the location of each operand. -/
def apply (x : Env) : Option MA := do
  let st ← (List.range x.numVregs).foldlM (procVreg x) (start x)
  let ms ← st.pdests.foldlM (paramMove x st.psrcs) st.moves
  let ma ← x.fixups.foldlM (fixupMove x) (ms, st.allocs)
  st.reuse.foldlM (reuseInst x) ma

/-- The output tables (`/repo/src/lib.rs:1577-1600`), from the edits, the number of slots and the location of
each operand; operands of an instruction are stored one after the other from its offset on. -/
def outputOf (f : Func) (num : Nat) (edits : List ResolveMoves.RMove) (allocs : Nat → Nat → Allocation) : Output where
  numSpillslots := num
  edits := edits.map (fun m => (m.pp.pos.bits.toNat, ⟨m.src, m.dst⟩))
  allocs := (List.range f.numInsts).flatMap (fun i => (List.range (f.operands i).length).map (allocs i))
  offsets := (List.range f.numInsts).map (fun i => ((List.range i).map (fun j => (f.operands j).length)).sum)

end Regalloc.Apply
