import Verif.Model.Output
import Verif.Model.Moves
import Verif.Model.Lru
import Verif.Model.VRegSet

/-
Model of the single-pass allocator, `/repo/src/fastalloc/mod.rs` (with
`/repo/src/fastalloc/iter.rs`).

General conventions:
* the mutable state is a record passed through; the result is `Except`, with
  `tooMany` for `RegAllocError::TooManyLiveRegs` and `panic` for a panic;
* the vectors indexed by virtual register, physical register and instruction are
  total functions: indexing out of range, which panics in Rust, is not an error
  here, so the model returns a result in more cases than the code;
* `VReg::invalid()` in `vreg_in_preg`, `SpillSlot::invalid()` in
  `vreg_spillslots` and `usize::MAX` in `reused_input_to_reuse_op` are `none`;
* edits are consed instead of pushed, so the final `edits.reverse()`
  (line 1562) disappears;
* slot numbers are `Nat`; the debug assertion `slot <= SpillSlot::MAX`
  (`/repo/src/lib.rs:514`) is the only debug assertion kept, as a panic;
* the `i16` counters are unbounded integers;
* `trace!` calls and statistics are left out; the debug-location bookkeeping
  (`vreg_to_live_inst_range`, `build_debug_info`) is in `Model/FastDebug.lean`.
-/
namespace Regalloc
namespace Fast

/-- Why a run does not produce an output. -/
inductive FErr
  | tooMany | panic
  deriving DecidableEq, Repr

/-- `Result<_, RegAllocError>`, or a panic. -/
abbrev R := Except FErr

/-- `VReg::class`, `/repo/src/lib.rs:447-454`; the unreachable class value is read
as `Int`. -/
def vcls (v : VReg) : RegClass := v.class?.getD .Int

/-- `PReg::class`, `/repo/src/lib.rs:137-144`; as for `vcls`. -/
def pcls (p : PReg) : RegClass := p.class?.getD .Int

/-- Functional update. -/
def set1 {α β : Type} [DecidableEq α] (g : α → β) (a : α) (x : β) : α → β := fun b => if b = a then x else g b

/-- The fixed parts of `Env`/`State` (`/repo/src/fastalloc/mod.rs:108-136`,
`414-438`): the function, the machine environment and the two spill-slot queries of
the function (`spillslot_size`, `multi_spillslot_named_by_last_slot`). -/
structure Cx where
  f : Func
  env : MachineEnv
  size : RegClass → Nat
  byLast : Bool

namespace Cx

/-- `/repo/src/fastalloc/mod.rs:485` `fixed_stack_slots`. -/
def fixedStack (cx : Cx) : PRegSet := PRegSet.ofList cx.env.fixedStackSlots

/-- `/repo/src/fastalloc/mod.rs:450` `allocatable_regs`. -/
def allocatable (cx : Cx) : PRegSet := PRegSet.ofEnv cx.env

/-- `/repo/src/fastalloc/mod.rs:468-474` `init_available_pregs`. -/
def initAvail (cx : Cx) : PRegSet := cx.env.fixedStackSlots.foldl PRegSet.add cx.allocatable

/-- `/repo/src/fastalloc/mod.rs:442-449` `regs`. -/
def regs (cx : Cx) (c : RegClass) : PRegSet := (cx.env.preferred c).unionFrom (cx.env.nonPreferred c)

/-- `/repo/src/fastalloc/mod.rs:451-467` `num_available_pregs`. -/
def initNum (cx : Cx) (c : RegClass) : Int := ((cx.env.preferred c).len + (cx.env.nonPreferred c).len : Nat)

/-- `/repo/src/fastalloc/mod.rs:499-505` `preferred_victim`. -/
def victim (cx : Cx) (c : RegClass) : PReg := (cx.regs c).maxPreg.getD PReg.invalid

/-- `/repo/src/fastalloc/mod.rs:140-143` `is_stack`. -/
def isStack (cx : Cx) (a : Allocation) : Bool :=
  a.isStack || (match a.asReg with | some p => cx.fixedStack.contains p | none => false)

/-- The operands of an instruction with their indices
(`/repo/src/fastalloc/iter.rs:10-18`). -/
def opsOf (cx : Cx) (i : Nat) : List (Nat × Op) := (cx.f.operands i).zipIdx.map (fun x => (x.2, x.1))

/-- The clobbers as a set, `Function::inst_clobbers`. -/
def clob (cx : Cx) (i : Nat) : PRegSet := PRegSet.ofList (cx.f.clobbers i)

end Cx

/-- `/repo/src/fastalloc/mod.rs:351-355` `ExclusiveOperandPos`. -/
inductive EPos
  | earlyOnly | lateOnly | both
  deriving DecidableEq, Repr

/-- `/repo/src/fastalloc/mod.rs:384-397` `From<Operand> for ExclusiveOperandPos`. -/
def epos (o : Op) : EPos :=
  match o.kind, o.pos with
  | .Use, .Late => .both
  | .Def, .Early => .both
  | _, p =>
    match o.constraint with
    | .Reuse _ => .both
    | _ => match p with
      | .Early => .earlyOnly
      | .Late => .lateOnly

/-- The changing parts of `Env` and `State`, `/repo/src/fastalloc/mod.rs:108-136`
and `414-438`. -/
structure FS where
  edits : List (Nat × Edit)
  scratch : RegClass → Option PReg
  availE : PRegSet
  availL : PRegSet
  numAvail : EPos → RegClass → Int
  numAny : EPos → RegClass → Int
  alloc : Nat → Allocation
  slot : Nat → Option Nat
  inPreg : PReg → Option VReg
  numSlots : Nat
  lrus : RegClass → Lru
  live : VRegSet
  reused : Nat → Option Nat
  allocs : Nat → Nat → Allocation

/-- `/repo/src/fastalloc/mod.rs:441-542` `Env::new`. -/
def FS.init (cx : Cx) : FS where
  edits := []
  scratch := cx.env.scratch
  availE := cx.initAvail
  availL := cx.initAvail
  numAvail := fun _ c => cx.initNum c
  numAny := fun _ _ => 0
  alloc := fun _ => Allocation.none
  slot := fun _ => none
  inPreg := fun _ => none
  numSlots := 0
  lrus := fun c => Lru.new c (cx.regs c)
  live := VRegSet.withCapacity cx.f.numVregs
  reused := fun _ => none
  allocs := fun _ _ => Allocation.none

/-- The location of spill slot number `n`. -/
def stk (n : Nat) : Allocation := Allocation.stack (SpillSlot.new n)

/-- Availability by phase. -/
def FS.avail (s : FS) : OperandPos → PRegSet
  | .Early => s.availE
  | .Late => s.availL

/-- `available_pregs[pos].remove(preg)`. -/
def FS.unavail (s : FS) (pos : OperandPos) (p : PReg) : FS :=
  match pos with
  | .Early => { s with availE := s.availE.remove p }
  | .Late => { s with availL := s.availL.remove p }

/-- Add to a counter. -/
def bump (g : EPos → RegClass → Int) (e : EPos) (c : RegClass) (d : Int) : EPos → RegClass → Int :=
  set1 g e (set1 (g e) c (g e c + d))

/-- The slot number given by `/repo/src/fastalloc/mod.rs:86-104` `allocstack` when
`n` slots are in use. Rounding up with a mask is written as rounding up to a
multiple (the size is a power of two, line 93). -/
def slotAt (byLast : Bool) (size n : Nat) : Nat :=
  let offset := (n + size - 1) / size * size
  if byLast then offset + size - 1 else offset

/-- The number of slots in use after `allocstack`. -/
def slotNext (size n : Nat) : Nat := (n + size - 1) / size * size + size

/-- `/repo/src/fastalloc/mod.rs:86-104` `allocstack`. -/
def allocstack (cx : Cx) (n : Nat) (c : RegClass) : R (Nat × Nat) :=
  if cx.size c = 0 then .error .panic
  else if slotAt cx.byLast (cx.size c) n > SpillSlot.MAX then .error .panic
  else .ok (slotAt cx.byLast (cx.size c) n, slotNext (cx.size c) n)

/-- `/repo/src/fastalloc/mod.rs:145-150` `get_spillslot`. -/
def getSpillslot (cx : Cx) (s : FS) (v : VReg) : R (Nat × FS) :=
  match s.slot v.vreg with
  | some n => .ok (n, s)
  | none =>
    match allocstack cx s.numSlots (vcls v) with
    | .error e => .error e
    | .ok (n, k) => .ok (n, { s with slot := set1 s.slot v.vreg (some n), numSlots := k })

/-- The point of an edit. -/
def pt (i : Nat) : InstPosition → Nat
  | .Before => ptBefore i
  | .After => ptAfter i

/-- `edits.push(..)`. -/
def FS.push (s : FS) (i : Nat) (pos : InstPosition) (src dst : Allocation) : FS :=
  { s with edits := (pt i pos, ⟨src, dst⟩) :: s.edits }

/-- `/repo/src/fastalloc/mod.rs:158-166`: give the occupant `v` its slot and make
it its allocation. -/
def toSlot (cx : Cx) (s : FS) (v : VReg) : R (Nat × FS) :=
  match getSpillslot cx s v with
  | .error e => .error e
  | .ok (n, s) => .ok (n, { s with alloc := set1 s.alloc v.vreg (stk n) })

/-- `/repo/src/fastalloc/mod.rs:152-175` `evict_vreg_in_preg` as called from
`alloc_scratch_reg`. The nested `add_move` needs no scratch register when `p` is a
real register; were `p` a fixed stack slot the three functions would call each
other forever, which is the `panic` here. Evicting from an empty register indexes
out of range. -/
def evictPlain (cx : Cx) (s : FS) (i : Nat) (p : PReg) (pos : InstPosition) : R FS :=
  match s.inPreg p with
  | none => .error .panic
  | some v =>
    match toSlot cx s v with
    | .error e => .error e
    | .ok (n, s) =>
      if cx.isStack (Allocation.reg p) then .error .panic
      else .ok (s.push i pos (stk n) (Allocation.reg p))

/-- `/repo/src/fastalloc/mod.rs:177-198` `alloc_scratch_reg`. -/
def allocScratch (cx : Cx) (s : FS) (i : Nat) (c : RegClass) (pos : InstPosition) : R FS :=
  match (s.lrus c).last? (s.availL.intersectFrom s.availE) with
  | none => .error .panic
  | some none => .error .tooMany
  | some (some p) =>
    match (if (s.inPreg p).isSome then evictPlain cx s i p pos else .ok s) with
    | .error e => .error e
    | .ok s => .ok { s with scratch := set1 s.scratch c (some p), availE := s.availE.remove p,
                            availL := s.availL.remove p }

/-- `/repo/src/fastalloc/mod.rs:212-218` `dec_clamp_zero` on the three counters. -/
def decClamp (s : FS) (c : RegClass) : FS :=
  { s with numAvail := fun e => set1 (s.numAvail e) c (max 0 (s.numAvail e c - 1)) }

/-- `/repo/src/fastalloc/mod.rs:209-225`: make sure there is a scratch register. -/
def ensureScratch (cx : Cx) (s : FS) (i : Nat) (c : RegClass) (pos : InstPosition) : R FS :=
  match s.scratch c with
  | some _ => .ok s
  | none =>
    match allocScratch cx s i c pos with
    | .error e => .error e
    | .ok s => .ok (decClamp s c)

/-- `/repo/src/fastalloc/mod.rs:200-248` `add_move`. -/
def addMove (cx : Cx) (s : FS) (i : Nat) (src dst : Allocation) (c : RegClass) (pos : InstPosition) : R FS :=
  if cx.isStack src && cx.isStack dst then
    match ensureScratch cx s i c pos with
    | .error e => .error e
    | .ok s =>
      match s.scratch c with
      | none => .error .panic
      | some r => .ok ((s.push i pos (Allocation.reg r) dst).push i pos src (Allocation.reg r))
  else .ok (s.push i pos src dst)

/-- `/repo/src/fastalloc/mod.rs:152-175` `evict_vreg_in_preg`. -/
def evict (cx : Cx) (s : FS) (i : Nat) (p : PReg) (pos : InstPosition) : R FS :=
  match s.inPreg p with
  | none => .error .panic
  | some v =>
    match toSlot cx s v with
    | .error e => .error e
    | .ok (n, s) => addMove cx s i (stk n) (Allocation.reg p) (vcls v) pos

/-! ### Definitions on a predecessor's branch -/

/-- The `find_map` of `/repo/src/fastalloc/mod.rs:260-280`: the register a branch
definition of `v` was left in, if the value has to be moved out of it. -/
def branchDefReg (f : Func) (b : Nat) (v : VReg) : List Op → R (Option PReg)
  | [] => .ok none
  | o :: os =>
    if o.kind = .Def ∧ o.vreg = v then
      if (f.preds b).length > 1 then .error .panic
      else match o.constraint with
        | .FixedReg p => .ok (some p)
        | .Stack => branchDefReg f b v os
        | .Any => branchDefReg f b v os
        | _ => .error .panic
    else branchDefReg f b v os

/-- `/repo/src/fastalloc/mod.rs:252-293` `move_if_def_pred_branch`. -/
def moveIfDefPredBranch (cx : Cx) (s : FS) (b pred : Nat) (v : VReg) (slot : Nat) : R FS :=
  match branchDefReg cx.f b v (cx.f.operands (cx.f.lastInst pred)) with
  | .error e => .error e
  | .ok none => .ok s
  | .ok (some p) => addMove cx s (cx.f.insns b).1 (Allocation.reg p) (stk slot) (vcls v) .Before

/-! ### Operands -/

/-- `/repo/src/fastalloc/mod.rs:544-559` `reset_available_pregs_and_scratch_regs`. -/
def reset (cx : Cx) (s : FS) : FS :=
  { s with availE := cx.initAvail, availL := cx.initAvail, scratch := cx.env.scratch,
           numAvail := fun _ c => cx.initNum c }

/-- `/repo/src/fastalloc/mod.rs:561-604` `reserve_reg_for_operand`. -/
def reserve (s : FS) (o : Op) (idx : Nat) (p : PReg) : R FS :=
  let na := o.asFixedNonallocatable.isSome
  match o.pos, o.kind with
  | .Early, .Use =>
    if !na && !s.availE.contains p then .error .tooMany
    else if (s.reused idx).isSome then
      if !na && !s.availL.contains p then .error .tooMany
      else .ok { s with availE := s.availE.remove p, availL := s.availL.remove p }
    else .ok { s with availE := s.availE.remove p }
  | .Late, .Def =>
    if !na && !s.availL.contains p then .error .tooMany
    else .ok { s with availL := s.availL.remove p }
  | _, _ =>
    if !na && (!s.availE.contains p || !s.availL.contains p) then .error .tooMany
    else .ok { s with availE := s.availE.remove p, availL := s.availL.remove p }

/-- The part common to `Any` and `Reg` of `/repo/src/fastalloc/mod.rs:619-641` and
`651-660`: is a register usable by the operand whose register it holds. -/
def regUsable (cx : Cx) (s : FS) (i : Nat) (o : Op) (p : PReg) : Bool :=
  if (s.avail o.pos).contains p then true
  else s.inPreg p == some o.vreg && (o.pos != .Late || !(cx.clob i).contains p)

/-- `/repo/src/fastalloc/mod.rs:606-674` `allocd_within_constraint`. -/
def withinConstraint (cx : Cx) (s : FS) (i : Nat) (o : Op) : R Bool :=
  let a := s.alloc o.vreg.vreg
  match o.constraint with
  | .Any =>
    match a.asReg with
    | some p =>
      if !cx.isStack a && decide (s.numAvail (epos o) (vcls o.vreg) < s.numAny (epos o) (vcls o.vreg)) then .ok false
      else .ok (regUsable cx s i o p)
    | none => .ok (!a.isNone)
  | .Reg =>
    if cx.isStack a then .ok false
    else match a.asReg with
      | some p => .ok (regUsable cx s i o p)
      | none => .ok false
  | .FixedReg p => .ok (a.asReg == some p)
  | .Reuse _ => .error .panic
  | .Stack => .ok (cx.isStack a)
  | .Limit _ => .error .panic

/-- `/repo/src/fastalloc/mod.rs:676-694` `freealloc`. -/
def freealloc (s : FS) (v : VReg) : R FS :=
  let a := s.alloc v.vreg
  if a.isNone then .error .panic
  else
    match s.live.remove? v.vreg with
    | none => .error .panic
    | some live =>
      .ok { s with
        inPreg := (match a.asReg with | some p => set1 s.inPreg p none | none => s.inPreg)
        alloc := set1 s.alloc v.vreg Allocation.none
        live := live }

/-- `/repo/src/fastalloc/mod.rs:697-704`: the registers a new operand may take. -/
def drawFrom (s : FS) (o : Op) : PRegSet :=
  match o.pos, o.kind with
  | .Late, .Use => s.availL.intersectFrom s.availE
  | .Early, .Def => s.availL.intersectFrom s.availE
  | p, _ => s.avail p

/-- `/repo/src/fastalloc/mod.rs:696-718` `select_suitable_reg_in_lru`. -/
def select (s : FS) (o : Op) : R PReg :=
  let d := drawFrom s o
  if d.isEmpty (vcls o.vreg) then .error .tooMany
  else
    match (s.lrus (vcls o.vreg)).last? d with
    | none => .error .panic
    | some none => .error .tooMany
    | some (some p) => .ok p

/-- `/repo/src/fastalloc/mod.rs:736-748` and `885-902`: take the register out of the
phases in which the operand occupies it. -/
def occupy (s : FS) (o : Op) (p : PReg) : FS :=
  let s := s.unavail o.pos p
  match o.pos, o.kind with
  | .Late, .Use => s.unavail .Early p
  | .Early, .Def => s.unavail .Late p
  | .Late, .Def =>
    match o.constraint with
    | .Reuse _ => s.unavail .Early p
    | _ => s
  | _, _ => s

/-- Marking a register as just used; `none` is a panic. -/
def poke (s : FS) (c : RegClass) (p : PReg) : R FS :=
  match (s.lrus c).poke? p with
  | none => .error .panic
  | some l => .ok { s with lrus := set1 s.lrus c l }

/-- `/repo/src/fastalloc/mod.rs:733-749`: the register `p` becomes the operand's. -/
def takeReg (cx : Cx) (s : FS) (i : Nat) (o : Op) (p : PReg) : R (Allocation × FS) :=
  match (if (s.inPreg p).isSome then evict cx s i p .After else .ok s) with
  | .error e => .error e
  | .ok s =>
    match poke s (vcls o.vreg) p with
    | .error e => .error e
    | .ok s => .ok (Allocation.reg p, occupy s o p)

/-- `/repo/src/fastalloc/mod.rs:720-752` `alloc_reg_for_operand`. -/
def allocReg (cx : Cx) (s : FS) (i : Nat) (o : Op) : R (Allocation × FS) :=
  match select s o with
  | .error e => .error e
  | .ok p => takeReg cx s i o p

/-- The spill slot of the operand's register as an allocation. -/
def slotAlloc (cx : Cx) (s : FS) (v : VReg) : R (Allocation × FS) :=
  match getSpillslot cx s v with
  | .error e => .error e
  | .ok (n, s) => .ok (stk n, s)

/-- The choice of `/repo/src/fastalloc/mod.rs:762-801`. Simplification: if
`alloc_reg_for_operand` fails for an `Any` operand the state is the one before the
call; in the code it can only fail before changing anything as long as the
allocatable registers are not fixed stack slots. -/
def chooseAlloc (cx : Cx) (s : FS) (i : Nat) (o : Op) : R (Allocation × FS) :=
  match o.constraint with
  | .Any =>
    if (o.kind = .Def ∧ s.alloc o.vreg.vreg = Allocation.none) ∨
        s.numAny (epos o) (vcls o.vreg) ≥ s.numAvail (epos o) (vcls o.vreg) then
      slotAlloc cx s o.vreg
    else
      match allocReg cx s i o with
      | .ok r => .ok r
      | .error .tooMany => slotAlloc cx s o.vreg
      | .error .panic => .error .panic
  | .Reg =>
    match allocReg cx s i o with
    | .error e => .error e
    | .ok (a, s) => .ok (a, { s with numAny := bump s.numAny (epos o) (vcls o.vreg) (-1) })
  | .FixedReg p => .ok (Allocation.reg p, s)
  | .Reuse _ => .error .panic
  | .Stack => slotAlloc cx s o.vreg
  | .Limit _ => .error .panic

/-- `self.allocs[(inst, op_idx)] = a`. -/
def FS.setAllocs (s : FS) (i idx : Nat) (a : Allocation) : FS :=
  { s with allocs := set1 s.allocs i (set1 (s.allocs i) idx a) }

/-- `/repo/src/fastalloc/mod.rs:756-808` `alloc_operand`. -/
def allocOperand (cx : Cx) (s : FS) (i : Nat) (o : Op) (idx : Nat) : R (Allocation × FS) :=
  match chooseAlloc cx s i o with
  | .error e => .error e
  | .ok (a, s) => .ok (a, s.setAllocs i idx a)

/-- The register of an allocation now holds `x`. -/
def FS.setIn (s : FS) (a : Allocation) (x : Option VReg) : FS :=
  match a.asReg with
  | some p => { s with inPreg := set1 s.inPreg p x }
  | none => s

/-- `/repo/src/fastalloc/mod.rs:838-858`: the register was not live so far. -/
def becomeLive (s : FS) (v : VReg) (a : Allocation) : R FS :=
  match s.live.insert? v with
  | none => .error .panic
  | some live => .ok (FS.setIn { s with live := live, alloc := set1 s.alloc v.vreg a } a (some v))

/-- `/repo/src/fastalloc/mod.rs:859-877`: the register was live in `c` and the
operand is given `a`. -/
def relocate (cx : Cx) (s : FS) (i : Nat) (o : Op) (a c : Allocation) : R FS :=
  match (if o.kind = .Def then addMove cx s i a c (vcls o.vreg) .After else .ok s) with
  | .error e => .error e
  | .ok s => .ok (s.setIn a none)

/-- `/repo/src/fastalloc/mod.rs:881-903`: the operand keeps the allocation. -/
def keepAlloc (cx : Cx) (s : FS) (i : Nat) (o : Op) (idx : Nat) : R FS :=
  let a := s.alloc o.vreg.vreg
  let s := s.setAllocs i idx a
  let s := if o.constraint = .Reg then { s with numAny := bump s.numAny (epos o) (vcls o.vreg) (-1) } else s
  match a.asReg with
  | none => .ok s
  | some p =>
    match (if cx.allocatable.contains p then poke s (pcls p) p else .ok s) with
    | .error e => .error e
    | .ok s =>
      let s := s.unavail o.pos p
      match o.pos, o.kind with
      | .Late, .Use => .ok (s.unavail .Early p)
      | .Early, .Def => .ok (s.unavail .Late p)
      | _, _ => .ok s

/-- `/repo/src/fastalloc/mod.rs:815-923` `process_operand_allocation`. -/
def processOperand (cx : Cx) (s : FS) (i : Nat) (o : Op) (idx : Nat) : R FS :=
  match o.asFixedNonallocatable with
  | some p => .ok (s.setAllocs i idx (Allocation.reg p))
  | none =>
    match withinConstraint cx s i o with
    | .error e => .error e
    | .ok true => keepAlloc cx s i o idx
    | .ok false =>
      let c := s.alloc o.vreg.vreg
      match allocOperand cx s i o idx with
      | .error e => .error e
      | .ok (a, s) => if c.isNone then becomeLive s o.vreg a else relocate cx s i o a c

/-! ### Branches -/

/-- The branch arguments in order with the parameter each feeds
(`/repo/src/fastalloc/mod.rs:941-960`); `none` is an index out of range. -/
def branchPairs (f : Func) (b i : Nat) : List (VReg × Option VReg) :=
  (f.succs b).zipIdx.flatMap fun sk =>
    (f.args b i sk.2).zipIdx.map fun vp => (vp.1, (f.params sk.1)[vp.2]?)

/-- The parallel moves collected so far, by class. -/
abbrev PMoves := RegClass → List (Move (Option VReg))

/-- `/repo/src/fastalloc/mod.rs:971-986`: an argument not in its slot yet. -/
def argToSlot (cx : Cx) (s : FS) (i : Nat) (v : VReg) (n : Nat) : R FS :=
  let c := s.alloc v.vreg
  if c.isNone then
    match s.live.insert? v with
    | none => .error .panic
    | some live => .ok { s with live := live, alloc := set1 s.alloc v.vreg (stk n) }
  else
    match (if c ≠ stk n then addMove cx s i (stk n) c (vcls v) .Before else .ok s) with
    | .error e => .error e
    | .ok s => .ok { s with alloc := set1 s.alloc v.vreg (stk n) }

/-- One round of the inner loop of `/repo/src/fastalloc/mod.rs:942-996`. -/
def branchArg (cx : Cx) (i : Nat) (st : FS × PMoves) (vp : VReg × Option VReg) : R (FS × PMoves) :=
  let (s, pm) := st
  let (v, p?) := vp
  if (cx.f.operands i).any (fun o => o.vreg = v ∧ o.kind = .Def) then .ok st
  else
    match p? with
    | none => .error .panic
    | some p =>
      match getSpillslot cx s p with
      | .error e => .error e
      | .ok (np, s) =>
        match getSpillslot cx s v with
        | .error e => .error e
        | .ok (nv, s) =>
          match argToSlot cx s i v nv with
          | .error e => .error e
          | .ok s => .ok (s, set1 pm (vcls v) (pm (vcls v) ++ [⟨stk nv, stk np, some v⟩]))

/-- One call of the `find_free_reg` closure, `/repo/src/fastalloc/mod.rs:1012-1027`:
the answer (`none` is a panic), and the closure's scratch register and available set
afterwards. -/
def findFree (l : Lru) (sc : Option PReg) (av : PRegSet) : Option (Option PReg) × Option PReg × PRegSet :=
  match sc with
  | some r => (some (some r), none, av)
  | none =>
    match l.last? av with
    | none => (none, none, av)
    | some none => (some none, none, av)
    | some (some p) => (some (some p), none, av.remove p)

/-- The two answers a call of the resolver may need. -/
structure Answers where
  r1 : Option (Option PReg)
  r2 : Option (Option PReg)
  av1 : PRegSet
  av2 : PRegSet

/-- `find_free_reg` called twice. -/
def answers (l : Lru) (sc : Option PReg) (av : PRegSet) : Answers :=
  let a := findFree l sc av
  let b := findFree l a.2.1 a.2.2
  ⟨a.1, b.1, a.2.2, b.2.2⟩

/-- The resolver's environment, `/repo/src/fastalloc/mod.rs:1011-1046`; `n` slots
are in use. -/
def resolverEnv (cx : Cx) (c : RegClass) (an : Answers) (n : Nat) : Moves.ScratchEnv where
  findReg := fun k => ((if k = 0 then an.r1 else an.r2).getD none).map Allocation.reg
  getSlot := fun k =>
    if k = 0 then stk (slotAt cx.byLast (cx.size c) n)
    else stk (slotAt cx.byLast (cx.size c) (slotNext (cx.size c) n))
  isStack := cx.isStack
  borrowed := cx.victim c

/-- Does the resolver ask for a register for the stack-to-stack moves
(`/repo/src/moves.rs:346-365`)? -/
def asksForS2S (e : Moves.ScratchEnv) (mv : MoveVecWithScratch (Option VReg)) : Bool :=
  (if Moves.needsScratch mv then
    match e.findReg 0 with
    | some r => Moves.withScratch r mv
    | none => Moves.withScratch (e.getSlot 0) mv
  else Moves.withScratch Allocation.none mv).any e.isS2S

/-- How many slots the resolver asks for. -/
def slotCalls (e : Moves.ScratchEnv) (mv : MoveVecWithScratch (Option VReg)) : Nat :=
  (if Moves.needsScratch mv && (e.findReg 0).isNone then 1 else 0) +
  (if asksForS2S e mv && (e.findReg (if Moves.needsScratch mv then 1 else 0)).isNone then 1 else 0)

/-- How often the resolver asks for a register. -/
def regCalls (e : Moves.ScratchEnv) (mv : MoveVecWithScratch (Option VReg)) : Nat :=
  (if Moves.needsScratch mv then 1 else 0) + (if asksForS2S e mv then 1 else 0)

/-- Slots in use after `k` scratch slots have been handed out. -/
def slotsAfter (cx : Cx) (c : RegClass) (n : Nat) : Nat → Nat
  | 0 => n
  | k + 1 => slotsAfter cx c (slotNext (cx.size c) n) k

/-- Is one of the first `k` scratch slots out of range? -/
def slotsBad (cx : Cx) (c : RegClass) (n : Nat) : Nat → Bool
  | 0 => false
  | k + 1 => cx.size c = 0 || decide (slotAt cx.byLast (cx.size c) n > SpillSlot.MAX) ||
      slotsBad cx c (slotNext (cx.size c) n) k

/-- One round of the loop of `/repo/src/fastalloc/mod.rs:1006-1050`: the resolved
moves of a class, pushed last first, i.e. in front of the edits in order. -/
def resolveClass (cx : Cx) (i : Nat) (pm : PMoves) (st : FS × PRegSet) (c : RegClass) : R (FS × PRegSet) :=
  let (s, av) := st
  let an := answers (s.lrus c) (s.scratch c) av
  let e := resolverEnv cx c an s.numSlots
  match Moves.resolve? (pm c) with
  | none => .error .panic
  | some mv =>
    let rc := regCalls e mv
    let sc := slotCalls e mv
    if (rc ≥ 1 ∧ an.r1 = none) ∨ (rc ≥ 2 ∧ an.r2 = none) ∨ slotsBad cx c s.numSlots sc = true then .error .panic
    else
      match Moves.compute? e mv with
      | none => .error .panic
      | some ms =>
        .ok ({ s with edits := ms.map (fun m => (ptBefore i, ⟨m.src, m.dst⟩)) ++ s.edits,
                      numSlots := slotsAfter cx c s.numSlots sc },
             if rc = 0 then av else if rc = 1 then an.av1 else an.av2)

/-- `/repo/src/fastalloc/mod.rs:934-1053` `process_branch`. -/
def processBranch (cx : Cx) (s : FS) (b i : Nat) : R FS :=
  match (branchPairs cx.f b i).foldlM (branchArg cx i) (s, fun _ => []) with
  | .error e => .error e
  | .ok (s, pm) =>
    match [RegClass.Int, .Float, .Vector].foldlM (resolveClass cx i pm) (s, s.availE.intersectFrom s.availL) with
    | .error e => .error e
    | .ok (s, _) => .ok s

/-! ### Instructions -/

/-- `/repo/src/fastalloc/mod.rs:1078-1101`: the first block parameter fed by `v`. -/
def firstParam (f : Func) (b i : Nat) (v : VReg) : Option (Option VReg) :=
  ((branchPairs f b i).find? (fun vp => vp.1 = v)).map Prod.snd

/-- `/repo/src/fastalloc/mod.rs:1065-1110`: allocation of a definition. -/
def defOperand (cx : Cx) (s : FS) (b i : Nat) (o : Op) (idx : Nat) : R FS :=
  match o.constraint with
  | .Reuse k =>
    match (cx.f.operands i)[k]? with
    | none => .error .panic
    | some ro => processOperand cx s i ⟨o.vreg, ro.constraint, .Def, .Early⟩ idx
  | _ =>
    if cx.f.isBranch i && decide (o.constraint = .Any ∨ o.constraint = .Stack) then
      match firstParam cx.f b i o.vreg with
      | none => processOperand cx s i o idx
      | some none => .error .panic
      | some (some p) =>
        match getSpillslot cx s p with
        | .error e => .error e
        | .ok (n, s) =>
          let old := s.slot o.vreg.vreg
          match processOperand cx { s with slot := set1 s.slot o.vreg.vreg (some n) } i
              { o with constraint := .Stack } idx with
          | .error e => .error e
          | .ok s => .ok { s with slot := set1 s.slot o.vreg.vreg old }
    else processOperand cx s i o idx

/-- `/repo/src/fastalloc/mod.rs:1111-1119`: store the defined value in its slot. -/
def storeDef (cx : Cx) (s : FS) (i : Nat) (v : VReg) : R FS :=
  match s.slot v.vreg with
  | none => .ok s
  | some n =>
    if s.alloc v.vreg ≠ stk n then addMove cx s i (s.alloc v.vreg) (stk n) (vcls v) .After else .ok s

/-- `/repo/src/fastalloc/mod.rs:1055-1124` `alloc_def_op`. -/
def allocDef (cx : Cx) (s : FS) (b i : Nat) (o : Op) (idx : Nat) : R FS :=
  match defOperand cx s b i o idx with
  | .error e => .error e
  | .ok s =>
    match storeDef cx s i o.vreg with
    | .error e => .error e
    | .ok s => freealloc s o.vreg

/-- `/repo/src/fastalloc/mod.rs:1126-1143` `alloc_use`. Simplification: the
`FixedReg` constraint of the rewritten operand keeps the class of the register, which
the packed operand would replace by that of `o`. -/
def allocUse (cx : Cx) (s : FS) (i : Nat) (o : Op) (idx : Nat) : R FS :=
  match s.reused idx with
  | some k =>
    match (s.allocs i k).asReg with
    | none => .error .panic
    | some p => processOperand cx s i { o with constraint := .FixedReg p } idx
  | none => processOperand cx s i o idx

/-- One round of the loop of `/repo/src/fastalloc/mod.rs:1154-1182`. -/
def countOp (cx : Cx) (i : Nat) (s : FS) (x : Nat × Op) : R FS :=
  let (idx, o) := x
  match o.constraint with
  | .Reuse k =>
    match (cx.f.operands i)[k]? with
    | none => .error .panic
    | some ro =>
      let s := { s with reused := set1 s.reused k (some idx) }
      if ro.constraint = .Reg then
        .ok { s with numAny := bump (bump s.numAny .both (vcls o.vreg) 1) .earlyOnly (vcls o.vreg) (-1) }
      else .ok s
  | .Reg => .ok { s with numAny := bump s.numAny (epos o) (vcls o.vreg) 1 }
  | _ => .ok s

/-- The fixed register of an operand. -/
def fixedOf (o : Op) : Option PReg :=
  match o.constraint with
  | .FixedReg p => some p
  | _ => none

/-- `/repo/src/fastalloc/iter.rs:36-38` `fixed`, with the register. -/
def fixedOps (cx : Cx) (i : Nat) : List (Nat × Op × PReg) :=
  (cx.opsOf i).filterMap (fun x => (fixedOf x.2).map (fun p => (x.1, x.2, p)))

/-- One round of the loop of `/repo/src/fastalloc/mod.rs:1184-1202`; the state
carries `seen` and `num_fixed_regs_allocatable_clobbers`. -/
def reserveFixed (cx : Cx) (i : Nat) (st : FS × PRegSet × Nat) (x : Nat × Op × PReg) : R (FS × PRegSet × Nat) :=
  let (s, seen, nc) := st
  let (idx, o, p) := x
  match reserve s o idx p with
  | .error e => .error e
  | .ok s =>
    if seen.contains p then .ok (s, seen, nc)
    else if cx.allocatable.contains p then
      match poke s (pcls p) p with
      | .error e => .error e
      | .ok s =>
        .ok ({ s with numAvail := bump s.numAvail (epos o) (vcls o.vreg) (-1) }, seen.add p,
          if (cx.clob i).contains p then nc + 1 else nc)
    else .ok (s, seen.add p, nc)

/-- One round of the loop of `/repo/src/fastalloc/mod.rs:1207-1222`. -/
def evictFixed (cx : Cx) (i : Nat) (s : FS) (x : Nat × Op × PReg) : R FS :=
  let (_, o, p) := x
  match s.inPreg p with
  | none => .ok s
  | some v =>
    if v = o.vreg then .ok s
    else
      match evict cx s i p .After with
      | .error e => .error e
      | .ok s => .ok { s with inPreg := set1 s.inPreg p none }

/-- The first half of a round of `/repo/src/fastalloc/mod.rs:1223-1249`. -/
def evictClobber1 (cx : Cx) (i : Nat) (s : FS) (p : PReg) : R FS :=
  match s.inPreg p with
  | none => .ok s
  | some _ =>
    match evict cx s i p .After with
    | .error e => .error e
    | .ok s => .ok { s with inPreg := set1 s.inPreg p none }

/-- One round of the loop of `/repo/src/fastalloc/mod.rs:1223-1249`. -/
def evictClobber (cx : Cx) (i : Nat) (st : FS × Nat) (p : PReg) : R (FS × Nat) :=
  match evictClobber1 cx i st.1 p with
  | .error e => .error e
  | .ok s =>
    if cx.allocatable.contains p then
      if st.2 = 0 then
        .ok ({ s with numAvail := bump (bump s.numAvail .lateOnly (pcls p) (-1)) .both (pcls p) (-1) }, 0)
      else .ok (s, st.2 - 1)
    else .ok (s, st.2)

/-- One operand, in the order of `/repo/src/fastalloc/mod.rs:1276-1290`. -/
def allocOp (cx : Cx) (b i : Nat) (s : FS) (x : Nat × Op) : R FS :=
  match x.2.kind with
  | .Def => allocDef cx s b i x.2 x.1
  | .Use => allocUse cx s i x.2 x.1

/-- One round of the loop of `/repo/src/fastalloc/mod.rs:1292-1308`. -/
def useMove (cx : Cx) (i : Nat) (s : FS) (x : Nat × Op) : R FS :=
  if x.2.kind ≠ .Use ∨ x.2.asFixedNonallocatable.isSome then .ok s
  else
    let c := s.alloc x.2.vreg.vreg
    let a := s.allocs i x.1
    if c ≠ a then addMove cx s i c a (vcls x.2.vreg) .Before else .ok s

/-- `/repo/src/fastalloc/iter.rs:44-50`: the operands at a position. -/
def opsAt (cx : Cx) (i : Nat) (pos : OperandPos) : List (Nat × Op) :=
  (cx.opsOf i).filter (fun x => x.2.pos = pos)

/-- `/repo/src/fastalloc/mod.rs:1147-1205`: counting and reservation. -/
def instSetup (cx : Cx) (s : FS) (i : Nat) : R (FS × Nat) :=
  match (cx.opsOf i).foldlM (countOp cx i) (reset cx s) with
  | .error e => .error e
  | .ok s =>
    match (fixedOps cx i).foldlM (reserveFixed cx i) (s, PRegSet.empty, 0) with
    | .error e => .error e
    | .ok (s, _, nc) => .ok ({ s with availL := s.availL.intersectFrom (cx.clob i).invert }, nc)

/-- `/repo/src/fastalloc/mod.rs:1207-1249`: evictions. -/
def instEvict (cx : Cx) (s : FS) (nc i : Nat) : R FS :=
  match (fixedOps cx i).foldlM (evictFixed cx i) s with
  | .error e => .error e
  | .ok s =>
    match (cx.clob i).toList.foldlM (evictClobber cx i) (s, nc) with
    | .error e => .error e
    | .ok (s, _) => .ok s

/-- `/repo/src/fastalloc/mod.rs:1276-1290`: the operands. -/
def instOps (cx : Cx) (s : FS) (b i : Nat) : R FS :=
  match (opsAt cx i .Late).foldlM (allocOp cx b i) s with
  | .error e => .error e
  | .ok s => (opsAt cx i .Early).foldlM (allocOp cx b i) s

/-- `/repo/src/fastalloc/mod.rs:1145-1316` `alloc_inst`. -/
def allocInst (cx : Cx) (b : Nat) (s : FS) (i : Nat) : R FS :=
  match instSetup cx s i with
  | .error e => .error e
  | .ok (s, nc) =>
    match instEvict cx s nc i with
    | .error e => .error e
    | .ok s =>
      match instOps cx s b i with
      | .error e => .error e
      | .ok s =>
        match (cx.opsOf i).foldlM (useMove cx i) s with
        | .error e => .error e
        | .ok s =>
          match (if cx.f.isBranch i then processBranch cx s b i else .ok s) with
          | .error e => .error e
          | .ok s => .ok { s with reused := fun _ => none }

/-! ### Blocks -/

/-- One round of the loop of `/repo/src/fastalloc/mod.rs:1346-1389`. -/
def reloadParam (cx : Cx) (b : Nat) (s : FS) (v : VReg) : R FS :=
  let a := s.alloc v.vreg
  if a = Allocation.none then .ok s
  else
    match getSpillslot cx s v with
    | .error e => .error e
    | .ok (n, s) =>
      match freealloc s v with
      | .error e => .error e
      | .ok s => if stk n = a then .ok s else addMove cx s (cx.f.insns b).1 (stk n) a (vcls v) .Before

/-- One round of the loop of `/repo/src/fastalloc/mod.rs:1390-1427`. -/
def reloadLive (cx : Cx) (b : Nat) (s : FS) (v : VReg) : R FS :=
  let a := s.alloc v.vreg
  match getSpillslot cx s v with
  | .error e => .error e
  | .ok (n, s) =>
    let s := FS.setIn { s with alloc := set1 s.alloc v.vreg (stk n) } a none
    if stk n = a then .ok s else addMove cx s (cx.f.insns b).1 (stk n) a (vcls v) .Before

/-- `/repo/src/fastalloc/mod.rs:1432-1442` `get_succ_idx_of_pred`; `none` is a panic. -/
def succIdx (f : Func) (pred b : Nat) : Option Nat := (f.succs pred).findIdx? (fun s => s = b)

/-- One round of the inner loop of `/repo/src/fastalloc/mod.rs:1451-1464`. -/
def predParam (cx : Cx) (b idx n : Nat) (s : FS) (pred : Nat) : R FS :=
  match succIdx cx.f pred b with
  | none => .error .panic
  | some k =>
    match (cx.f.args pred (cx.f.lastInst pred) k)[idx]? with
    | none => .error .panic
    | some v => moveIfDefPredBranch cx s b pred v n

/-- One round of the loop of `/repo/src/fastalloc/mod.rs:1446-1465`. -/
def predParams (cx : Cx) (b : Nat) (s : FS) (x : VReg × Nat) : R FS :=
  match s.slot x.1.vreg with
  | none => .ok s
  | some n => (cx.f.preds b).foldlM (predParam cx b x.2 n) s

/-- One round of the loop of `/repo/src/fastalloc/mod.rs:1466-1474`. The slot of a
live register was made valid by the loop before. -/
def predLive (cx : Cx) (b : Nat) (s : FS) (v : VReg) : R FS :=
  (cx.f.preds b).foldlM (fun s pred => moveIfDefPredBranch cx s b pred v ((s.slot v.vreg).getD 0)) s

/-- `/repo/src/fastalloc/mod.rs:1324-1471` `reload_at_begin`. -/
def reloadAtBegin (cx : Cx) (s : FS) (b : Nat) : R FS :=
  match (cx.f.params b).foldlM (reloadParam cx b) (reset cx s) with
  | .error e => .error e
  | .ok s =>
    match s.live.toList? with
    | none => .error .panic
    | some live =>
      match live.foldlM (reloadLive cx b) s with
      | .error e => .error e
      | .ok s =>
        match (cx.f.params b).zipIdx.foldlM (predParams cx b) { s with scratch := cx.env.scratch } with
        | .error e => .error e
        | .ok s => live.foldlM (predLive cx b) s

/-- `/repo/src/fastalloc/mod.rs:1534-1542` `alloc_block`. -/
def allocBlock (cx : Cx) (s : FS) (b : Nat) : R FS :=
  match (cx.f.blockInsts b).reverse.foldlM (allocInst cx b) s with
  | .error e => .error e
  | .ok s => reloadAtBegin cx s b

/-- `/repo/src/fastalloc/mod.rs:1556-1565` `Env::run`, without the debug
information. -/
def runEnv (cx : Cx) : R FS := (List.range cx.f.numBlocks).reverse.foldlM (allocBlock cx) (FS.init cx)

/-- The output tables, `/repo/src/fastalloc/mod.rs:35-54` and `1632-1640`. -/
def outputOf (cx : Cx) (s : FS) : Output where
  numSpillslots := s.numSlots
  edits := s.edits
  allocs := (List.range cx.f.numInsts).flatMap (fun i => (List.range (cx.f.operands i).length).map (s.allocs i))
  offsets := (List.range cx.f.numInsts).map
    (fun i => ((List.range i).map (fun j => (cx.f.operands j).length)).sum)

/-- `/repo/src/fastalloc/mod.rs:1612-1641` `run` with the SSA validation off (it is
modelled separately, `Model/Ssa.lean`). -/
def run (cx : Cx) : R Output :=
  match runEnv cx with
  | .error e => .error e
  | .ok s => .ok (outputOf cx s)

end Fast
end Regalloc
