import Verif.Model.Function
import Verif.Model.IndexSet
import Verif.Model.RangeMap
import Verif.Model.Ion

/-
Model of `build_liveranges`, `/repo/src/ion/liveranges.rs:370-772`, and of the functions it
calls. Simplifications:
* The arena of ranges and the lists of indices into it are one list of ranges per virtual
  register. `vreg_ranges[v]`, the current range of a live register, is always the range
  that was added last, so it is the head of the list.
* Lists that the code pushes to and reverses at the end (`:750-768`) grow at the head here,
  so they come out in the final order.
* `block_entry` is the Before point of the first instruction of a block and `block_exit` the
  After point of the last (`/repo/src/cfg.rs:84-85`); both are written out.
* Vectors indexed by register are functions. Weights, register classes (`observe_vreg_class`),
  statistics and tracing are left out.
* The lists of incoming and outgoing block parameters are not sorted.
-/
namespace Regalloc.Build

/-- How the pass can fail. -/
inductive Err
  | panic
  | tooManyOperands
  deriving DecidableEq, Repr

/-- `/repo/src/ion/data_structures.rs:119-127` `LiveRange`. -/
structure LR where
  range : RKey
  startsAtDef : Bool
  uses : List Ion.Use
  deriving DecidableEq, Repr

/-- `/repo/src/ion/data_structures.rs:330-337` `MultiFixedRegFixup`, of level `Initial`,
where both slots are the same. -/
structure Fixup where
  pos : Nat
  slot : Nat
  preg : PReg
  vreg : Nat
  deriving DecidableEq, Repr

/-- What the pass builds, and its local live set. `outs` has entries
(from_block, to_block, to_vreg, from_vreg), `ins` (to_vreg, to_block, from_block), `allocs`
(instruction, operand, register). -/
structure St where
  ranges : Nat → List LR
  pregs : List (PReg × RKey)
  fixups : List Fixup
  allocs : List (Nat × Nat × PReg)
  live : IndexSet
  ins : List (Nat × Nat × Nat)
  outs : List (Nat × Nat × Nat × Nat)

/-- `/repo/src/ion/liveranges.rs:99-101` `slot_idx`. -/
def slotIdx (i : Nat) : Except Err Nat := if i < 2 ^ 16 then .ok i else .error .tooManyOperands

/-- `/repo/src/ion/liveranges.rs:148-213` `add_liverange_to_vreg`; `multi` is
`allow_multiple_vreg_defs`. The range to use is the head of the result. -/
def addRange (multi : Bool) (rs : List LR) (range : RKey) : Except Err (List LR) :=
  match rs with
  | [] => .ok [⟨range, false, []⟩]
  | last :: rest =>
    if multi && last.range.contains range then .ok (last :: rest)
    else
      let range : RKey :=
        if multi && decide (last.range.fr ≤ range.to) && decide (range.to ≤ last.range.to) then ⟨range.fr, last.range.fr⟩
        else range
      if last.range.fr < range.to then .error .panic
      else if range.to < last.range.fr then .ok (⟨range, false, []⟩ :: last :: rest)
      else .ok ({ last with range := ⟨range.fr, last.range.to⟩ } :: rest)

/-- `/repo/src/ion/liveranges.rs:215-247` `insert_use_into_liverange`. -/
def insertUse (rs : List LR) (u : Ion.Use) : Except Err (List LR) :=
  match rs with
  | [] => .error .panic
  | r :: rest => .ok ({ r with uses := u :: r.uses } :: rest)

/-- `/repo/src/ion/liveranges.rs:262-270` `add_liverange_to_preg`. -/
def addPreg (st : St) (range : RKey) (p : PReg) : Except Err St :=
  if st.pregs.any (fun e => decide (e.1 = p) && (RKey.cmp e.2 range == .eq)) then .error .panic
  else .ok { st with pregs := (p, range) :: st.pregs }

/-- Outgoing block parameters of one edge, `/repo/src/ion/liveranges.rs:399-414`. -/
def outEdge (b c : Nat) (st : St) (p : VReg × VReg) : St :=
  { st with outs := (b, c, p.1.vreg, p.2.vreg) :: st.outs, live := st.live.set p.2.vreg true }

/-- `/repo/src/ion/liveranges.rs:396-415`. -/
def outParams (f : Func) (b : Nat) (st : St) : St :=
  if f.isBranch (f.lastInst b) then
    ((f.succs b).zipIdx).foldl (fun st ci =>
      ((f.params ci.1).zip (f.args b (f.lastInst b) ci.2)).foldl (outEdge b ci.1) st) st
  else st

/-- Assignment to one register's list. -/
def St.setRanges (st : St) (v : Nat) (rs : List LR) : St := { st with ranges := Ion.upd st.ranges v rs }

/-- One register live at the end of the block, `/repo/src/ion/liveranges.rs:418-432`. -/
def liveOut (multi : Bool) (f : Func) (b : Nat) (st : St) (v : Nat) : Except Err St := do
  let rs ← addRange multi (st.ranges v) ⟨ptBefore (f.insns b).1, ptAfter (f.lastInst b) + 1⟩
  return st.setRanges v rs

/-- `/repo/src/ion/liveranges.rs:445-457`. -/
def clobberRange (i : Nat) (st : St) (p : PReg) : Except Err St :=
  addPreg st ⟨ptAfter i, ptBefore (i + 1)⟩ p

/-- `reused_input`, `/repo/src/ion/liveranges.rs:463-473`: the register of the input that the
first reusing operand names. -/
def reusedInput (ops : List Op) : List Op → Except Err (Option VReg)
  | [] => .ok none
  | o :: rest =>
    match o.constraint with
    | .Reuse j =>
      match ops[j]? with
      | none => .error .panic
      | some r => if r.asFixedNonallocatable.isSome then .error .panic else .ok (some r.vreg)
    | _ => reusedInput ops rest

/-- `late_def_fixed`, `/repo/src/ion/liveranges.rs:487-497`. -/
def lateDefFixed (ops : List Op) : List PReg :=
  ops.filterMap (fun o =>
    match o.constraint, o.pos, o.kind with
    | .FixedReg p, .Late, .Def => some p
    | _, _, _ => none)

/-- The register whose fixed constraint on this operand is replaced by a fixup move,
`/repo/src/ion/liveranges.rs:499-530`. -/
def fixupReg (f : Func) (i : Nat) (live : IndexSet) (o : Op) : Option PReg :=
  if o.asFixedNonallocatable.isSome then none
  else
    match o.constraint, o.pos, o.kind with
    | .FixedReg p, .Early, .Use =>
      if live.get o.vreg.vreg && (decide (p ∈ lateDefFixed (f.operands i)) || (PRegSet.ofList (f.clobbers i)).contains p)
      then some p else none
    | _, _, _ => none

/-- Loop over the operands, `/repo/src/ion/liveranges.rs:498-567`; the result has the
operands with their rewrites. -/
def fixupOp (f : Func) (i : Nat) (acc : St × List Op) (ok : Op × Nat) : Except Err (St × List Op) :=
  match fixupReg f i acc.1.live ok.1 with
  | none => .ok (acc.1, acc.2 ++ [ok.1])
  | some p => do
    let k ← slotIdx ok.2
    let st := { acc.1 with fixups := ⟨ptBefore i, k, p, ok.1.vreg.vreg⟩ :: acc.1.fixups }
    let st ← addPreg st (RKey.singleton (ptBefore i)) p
    return (st, acc.2 ++ [{ ok.1 with constraint := .Any }])

/-- `pos`, `/repo/src/ion/liveranges.rs:577-598`. -/
def opPoint (reused : Option VReg) (i : Nat) (o : Op) : Nat :=
  match o.kind, o.pos with
  | .Def, .Early => ptBefore i
  | .Def, .Late => ptAfter i
  | .Use, .Late => ptAfter i
  | .Use, .Early =>
    match reused with
    | some r => if r ≠ o.vreg then ptAfter i else ptBefore i
    | none => ptBefore i

/-- Trimming at a definition, `/repo/src/ion/liveranges.rs:659-666`. -/
def trimAtDef (entry pos : Nat) (rs : List LR) : List LR :=
  match rs with
  | [] => []
  | r :: rest =>
    { r with range := if r.range.fr = entry then ⟨pos, r.range.to⟩ else r.range, startsAtDef := true } :: rest

/-- The current range of a register; a new one if the register is not live,
`/repo/src/ion/liveranges.rs:625-643` and `:677-688`. -/
def current (multi live : Bool) (rs : List LR) (range : RKey) : Except Err (List LR) :=
  if live = true then .ok rs else addRange multi rs range

/-- A definition, `/repo/src/ion/liveranges.rs:621-672`. -/
def procDef (multi : Bool) (f : Func) (b : Nat) (st : St) (pos k : Nat) (o : Op) : Except Err St := do
  let v := o.vreg.vreg
  let rs ← current multi (st.live.get v) (st.ranges v) ⟨pos, ptBefore (pos / 2 + 1)⟩
  let k ← slotIdx k
  let rs ← insertUse rs ⟨o, pos, k⟩
  return { st.setRanges v (trimAtDef (ptBefore (f.insns b).1) pos rs) with live := (st.live.set v true).set v false }

/-- A use, `/repo/src/ion/liveranges.rs:673-702`. -/
def procUse (multi : Bool) (f : Func) (b : Nat) (st : St) (pos k : Nat) (o : Op) : Except Err St := do
  let v := o.vreg.vreg
  let rs ← current multi (st.live.get v) (st.ranges v) ⟨ptBefore (f.insns b).1, pos + 1⟩
  let k ← slotIdx k
  let rs ← insertUse rs ⟨o, pos, k⟩
  return { st.setRanges v rs with live := st.live.set v true }

/-- Body of the loop over operands, `/repo/src/ion/liveranges.rs:600-702`. -/
def procOp (multi : Bool) (f : Func) (b i : Nat) (reused : Option VReg) (st : St) (ok : Op × Nat) : Except Err St :=
  match ok.1.asFixedNonallocatable with
  | some p => .ok { st with allocs := (i, ok.2, p) :: st.allocs }
  | none =>
    match ok.1.kind with
    | .Def => procDef multi f b st (opPoint reused i ok.1) ok.2 ok.1
    | .Use => procUse multi f b st (opPoint reused i ok.1) ok.2 ok.1

/-- The operands of one instruction in the order in which the loops at
`/repo/src/ion/liveranges.rs:570-603` reach them: those at the After point, then those at
the Before point. -/
def visitOrder (reused : Option VReg) (i : Nat) (ops : List Op) : List (Op × Nat) :=
  ops.zipIdx.filter (fun ok => opPoint reused i ok.1 = ptAfter i) ++
  ops.zipIdx.filter (fun ok => opPoint reused i ok.1 = ptBefore i)

/-- One instruction, `/repo/src/ion/liveranges.rs:443-703`. -/
def procInst (multi : Bool) (f : Func) (b : Nat) (st : St) (i : Nat) : Except Err St := do
  let st ← (PRegSet.ofList (f.clobbers i)).toList.foldlM (clobberRange i) st
  let reused ← reusedInput (f.operands i) (f.operands i)
  let (st, ops) ← (f.operands i).zipIdx.foldlM (fixupOp f i) (st, [])
  (visitOrder reused i ops).foldlM (procOp multi f b i reused) st

/-- Definition of one block parameter, `/repo/src/ion/liveranges.rs:710-723`. -/
def paramRange (multi : Bool) (f : Func) (b : Nat) (st : St) (p : VReg) : Except Err St :=
  if st.live.get p.vreg then .ok { st with live := st.live.set p.vreg false }
  else do
    let rs ← addRange multi (st.ranges p.vreg) ⟨ptBefore (f.insns b).1, ptBefore (f.insns b).1 + 1⟩
    return st.setRanges p.vreg rs

/-- One block parameter, `/repo/src/ion/liveranges.rs:709-735`. -/
def procParam (multi : Bool) (f : Func) (b : Nat) (st : St) (p : VReg) : Except Err St := do
  let st ← paramRange multi f b st p
  return { st with ins := (f.preds b).reverse.map (fun q => (p.vreg, b, q)) ++ st.ins }

/-- One block, `/repo/src/ion/liveranges.rs:384-736`. -/
def procBlock (ord : HashOrder) (multi : Bool) (f : Func) (liveouts : Nat → IndexSet) (st : St) (b : Nat) : Except Err St := do
  let st := outParams f b { st with live := liveouts b }
  let st ← (st.live.iter ord).foldlM (liveOut multi f b) st
  let st ← (f.blockInsts b).reverse.foldlM (procInst multi f b) st
  (f.params b).foldlM (procParam multi f b) st

/-- State before the loop. -/
def start : St := ⟨fun _ => [], [], [], [], .new, [], []⟩

/-- `/repo/src/ion/liveranges.rs:370-772` `build_liveranges`. -/
def build (ord : HashOrder) (multi : Bool) (f : Func) (liveouts : Nat → IndexSet) : Except Err St :=
  (List.range f.numBlocks).reverse.foldlM (procBlock ord multi f liveouts) start

end Regalloc.Build
