import Verif.Model.Split
import Verif.Model.RegTraversal
import Verif.Model.Weights
import Verif.Model.Sort

/-
Model of the allocation loop: `/repo/src/ion/process.rs:41-51` and `:53-263`, `:975-1351`,
`/repo/src/ion/merge.rs:426-440`, `/repo/src/ion/spill.rs:22-68`. Statistics, traces and the
scratch vectors are omitted.

The weight of a bundle is a cached number in the code; here it is computed when it is read,
from the cached flags and priority. The sum of the weights of the ranges, a float, is an
arbitrary function of the state (`Params.total`). The tables of `CFGInfo` are total functions;
the code reads them for instructions and blocks of the program only.
-/
namespace Regalloc.Ion

open PregMap (PMap ScanEnv tryAlloc)

/-- What the loop reads and does not change: the machine, `cfginfo.insn_block`,
`cfginfo.approx_loop_depth`, `cfginfo.block_entry` (a program point), the number of
instructions, and the sum of the weights of the ranges of a bundle. -/
structure Params where
  env : MachineEnv
  insnBlock : Nat → Nat
  depth : Nat → Nat
  blockEntry : Nat → Nat
  numInsts : Nat
  total : St → Nat → Nat

/-- The state: the arenas and `pregs[..].allocations`. -/
structure PSt where
  st : St
  maps : PReg → PMap

/-- How the loop fails. `panic` is an index out of range, a failed debug assertion or
`unwrap`; `unallocatable` is the panic of `/repo/src/ion/process.rs:1275`; `underflow` is
`prev()` of program point 0 at `:1217`; `fuel` is an artefact of the model. -/
inductive PErr
  | panic
  | tooManyLiveRegs
  | unallocatable
  | underflow
  | fuel
  deriving DecidableEq, Repr

/-- `cached_spill_weight`, computed as in `/repo/src/ion/process.rs:325-358` (see
`Weights.bundleWeight`, whose words these numbers are). -/
def weight (P : Params) (st : St) (b : Nat) : Nat :=
  let x := st.bundles b
  if x.minimal then
    if x.fixed then 2 ^ 28 - 1
    else
      match x.limit with
      | some l => 2 ^ 28 - 2 - l
      | none => 2 ^ 28 - 258
  else if x.prio > 0 then min (2 ^ 28 - 259) (P.total st b / x.prio)
  else 0

/-- What `try_to_allocate_bundle_to_reg` reads of the other bundles. A range in a register's
map has a bundle (proved); the number used otherwise belongs to none. -/
def scanEnv (P : Params) (st : St) (maxCost : Option Nat) : ScanEnv :=
  ⟨fun i => (st.ranges i).bundle.getD st.nBundles, weight P st, maxCost⟩

/-- The ranges of a bundle, as they are entered into the map of a register. -/
def rangesOf (st : St) (b : Nat) : List (RKey × Nat) := (st.bundles b).ranges.map (fun e => (e.range, e.index))

/-- Assignment to the map of one register. -/
def PSt.setMap (q : PSt) (p : PReg) (m : PMap) : PSt := { q with maps := fun r => if r = p then m else q.maps r }

/-- The successful end of `try_to_allocate_bundle_to_reg`, `/repo/src/ion/process.rs:196-209`. -/
def PSt.take (q : PSt) (b : Nat) (p : PReg) (m : PMap) : PSt :=
  PSt.setMap { q with st := q.st.modB b (fun x => { x with alloc := some p }) } p m

/-- `/repo/src/ion/process.rs:214-244` `evict_bundle`. -/
def evictBundle (q : PSt) (b : Nat) : PSt :=
  match (q.st.bundles b).alloc with
  | none => q
  | some p =>
    let m := PregMap.evict (q.maps p) (rangesOf q.st b)
    let st := q.st.modB b (fun x => { x with alloc := none })
    PSt.setMap { q with st := { st with queue := st.queue ++ [(b, (st.bundles b).prio, none)] } } p m

/-- `/repo/src/ion/process.rs:250-263` `maximum_spill_weight_in_bundle_set`. -/
def maxWeightIn (P : Params) (st : St) (bs : List Nat) : Nat := bs.foldl (fun m b => max m (weight P st b)) 0

/-- The best options of a scan over registers, `/repo/src/ion/process.rs:1060-1065`: cost and
set of bundles to evict; cost, point and register to split for. -/
structure Best where
  evict : Option (Nat × List Nat)
  split : Option (Nat × Nat × PReg)
  deriving Repr

/-- `scan_limit_cost`, `/repo/src/ion/process.rs:1095-1101`. -/
def Best.limit (x : Best) : Option Nat :=
  match x.evict, x.split with
  | some a, some b => some (max a.1 b.1)
  | _, _ => none

/-- Keep the first of the lowest cost. -/
def lower {α : Type} (old : Option (Nat × α)) (cost : Nat) (x : α) : Option (Nat × α) :=
  match old with
  | none => some (cost, x)
  | some (c, y) => if cost < c then some (cost, x) else some (c, y)

/-- The cost of a move at a point, `/repo/src/ion/process.rs:1134-1143`. -/
def moveCost (P : Params) (p : Nat) : Nat :=
  Weights.spillWeightFromConstraint .Reg (P.depth (P.insnBlock (instOf p))) true

/-- How the scan over the registers ends. -/
inductive Probe
  | done (q : PSt)
  | best (x : Best)

/-- The scan over registers, `/repo/src/ion/process.rs:1081-1183`. -/
def tryRegs (P : Params) (b : Nat) (q : PSt) : List PReg → Best → Except PErr Probe
  | [], x => .ok (.best x)
  | p :: ps, x =>
    match tryAlloc (scanEnv P q.st x.limit) (q.maps p) (rangesOf q.st b) with
    | none => .error .panic
    | some (.Allocated m) =>
      let q := q.take b p m
      .ok (.done { q with st := q.st.modS (q.st.bundles b).spillset (fun s => { s with hint := some p }) })
    | some (.Conflict bs at_) =>
      let cost := maxWeightIn P q.st bs
      tryRegs P b q ps ⟨lower x.evict cost bs, lower x.split (cost + moveCost P at_) (at_, p)⟩
    | some (.ConflictWithFixed cost at_) =>
      tryRegs P b q ps { x with split := lower x.split (cost + moveCost P at_) (at_, p) }
    | some .ConflictHighCost => tryRegs P b q ps x

/-- The entries of one register that keep it from being used in `range` and cannot be moved,
`/repo/src/ion/process.rs:1220-1243`: reservations and minimal bundles. -/
def countTaken (st : St) (range : RKey) : PMap → Nat
  | [] => 0
  | (k, v) :: m =>
    if k.to ≤ range.fr then countTaken st range m
    else if k.fr ≥ range.to then 0
    else
      let n := match v with
        | none => 1
        | some i =>
          match (st.ranges i).bundle with
          | some c => if (st.bundles c).minimal then 1 else 0
          | none => 0
      n + countTaken st range m

/-- A minimal bundle got no register, `/repo/src/ion/process.rs:1203-1276`: the error to
report. -/
def stuck (P : Params) (q : PSt) (b : Nat) (cls : RegClass) (req : Requirement) : PErr :=
  let regs := (P.env.preferred cls).toList ++ (P.env.nonPreferred cls).toList
  let check (limit : Option Nat) : PErr :=
    match (q.st.bundles b).ranges with
    | [] => .panic
    | e :: _ =>
      if e.range.fr = 0 ∧ regs ≠ [] then .underflow
      else
        let taken := (regs.map (fun p =>
          countTaken q.st e.range (RangeMap.seek (q.maps p) ⟨e.range.fr - 1, e.range.fr - 1⟩))).sum
        let total := (regs.filter (RegTraversalIter.within limit)).length
        if taken ≥ total then .tooManyLiveRegs else .unallocatable
  match req with
  | .Register => check none
  | .Limit n => check (some n)
  | _ => .unallocatable

/-- Move a split point out of a loop the bundle does not start in,
`/repo/src/ion/process.rs:1302-1322`. -/
def hoist (P : Params) (start at_ : Nat) : Nat :=
  let d := P.depth (P.insnBlock (instOf start))
  if P.depth (P.insnBlock (instOf at_)) > d then
    match ((List.range (P.insnBlock (instOf at_) + 1)).filter (fun k => decide (k > P.insnBlock (instOf start)))).find?
        (fun k => decide (P.depth k > d)) with
    | some k => P.blockEntry k
    | none => at_
  else at_

/-- `try_to_allocate` found no register: give up, split or evict,
`/repo/src/ion/process.rs:1185-1345`. The Boolean tells whether the bundle is dealt with. -/
def resolve (P : Params) (b : Nat) (cls : RegClass) (req : Requirement) (attempts : Nat) (q : PSt) (x : Best) :
    Except PErr (Bool × PSt) :=
  if x.split.isNone ∧ x.evict.isNone then .error .panic
  else
    let w := weight P q.st b
    let minimal := (q.st.bundles b).minimal
    let noEvict := match x.evict with
      | none => true
      | some (c, _) => decide (c ≥ w)
    if attempts ≥ 2 ∨ noEvict = true then
      if minimal then .error (stuck P q b cls req)
      else
        match (q.st.bundles b).ranges with
        | [] => .error .panic
        | e :: _ =>
          let at0 := match x.split with
            | some (_, p, _) => p
            | none => 0
          let hint := x.split.map (fun s => s.2.2)
          match splitAndRequeue q.st b (hoist P e.range.fr (max at0 e.range.fr)) hint true with
          | none => .error .panic
          | some st => .ok (true, { q with st := st })
    else
      match x.evict with
      | none => .error .panic
      | some (_, bs) => .ok (false, bs.foldl evictBundle q)

/-- One turn of the loop of `process_bundle`, `/repo/src/ion/process.rs:1033-1183`, for a
requirement that asks for a register or a fixed stack slot. -/
def attempt (P : Params) (b : Nat) (cls : RegClass) (req : Requirement) (fixed hint : Option PReg) (attempts : Nat)
    (q : PSt) : Except PErr (Bool × PSt) :=
  if ¬ attempts < 100 * P.numInsts then .error .panic
  else
    match (q.st.bundles b).ranges with
    | [] => .error .panic
    | e :: _ =>
      let regs := (RegTraversalIter.new P.env cls fixed hint (instOf (q.st.ranges e.index).range.fr + b)
        (q.st.bundles b).limit).all
      match tryRegs P b q regs ⟨none, none⟩ with
      | .error x => .error x
      | .ok (.done q) => .ok (true, q)
      | .ok (.best x) => resolve P b cls req attempts q x

/-- The loop `'outer`. -/
def attemptLoop (P : Params) (b : Nat) (cls : RegClass) (req : Requirement) (fixed hint : Option PReg) :
    Nat → Nat → PSt → Except PErr PSt
  | 0, _, _ => .error .fuel
  | fuel + 1, attempts, q =>
    match attempt P b cls req fixed hint attempts q with
    | .error e => .error e
    | .ok (true, q) => .ok q
    | .ok (false, q) => attemptLoop P b cls req fixed hint fuel (attempts + 1) q

/-- Move the ranges of a bundle without requirement to the spill bundle,
`/repo/src/ion/process.rs:1016-1025`. -/
def moveToSpill (st : St) (b s : Nat) : St :=
  let es := (st.bundles b).ranges
  let st := st.modB b (fun x => { x with ranges := [] })
  let st := st.linkAll es s
  st.modB s (fun x => { x with ranges := x.ranges ++ es })

/-- `/repo/src/ion/process.rs:984-990`: the hint. -/
def chooseHint (P : Params) (st : St) (b : Nat) (hint : Option PReg) : Option PReg :=
  let h := match hint with
    | some p => some p
    | none => (st.spillsets (st.bundles b).spillset).hint
  match h with
  | some p => if p ∈ P.env.fixedStackSlots then none else some p
  | none => none

/-- `/repo/src/ion/process.rs:975-1351` `process_bundle`. The second turn of the loop ends it
(proved), so two turns of fuel suffice. -/
def processBundle (P : Params) (q : PSt) (b : Nat) (hint0 : Option PReg) : Except PErr PSt :=
  let cls := (q.st.spillsets (q.st.bundles b).spillset).cls
  let hint := chooseHint P q.st b hint0
  match Requirement.compute P.env (q.st.reqUses b) with
  | .error c =>
    if (q.st.bundles b).minimal then .error .panic
    else
      match splitAndRequeue q.st b c.splitPoint hint c.shouldTrim with
      | none => .error .panic
      | some st => .ok { q with st := st }
  | .ok .Any =>
    match (q.st.spillsets (q.st.bundles b).spillset).spillBundle with
    | some s => .ok { q with st := moveToSpill q.st b s }
    | none =>
      if ¬ 1 < 100 * P.numInsts then .error .panic
      else .ok { q with st := { q.st with spilled := q.st.spilled ++ [b] } }
  | .ok .Stack =>
    if ¬ 1 < 100 * P.numInsts then .error .panic
    else .ok { q with st := q.st.modS (q.st.bundles b).spillset (fun s => { s with required := true }) }
  | .ok (.FixedReg p) => attemptLoop P b cls (.FixedReg p) (some p) hint 2 1 q
  | .ok (.FixedStack p) => attemptLoop P b cls (.FixedStack p) (some p) hint 2 1 q
  | .ok .Register => attemptLoop P b cls .Register none hint 2 1 q
  | .ok (.Limit n) => attemptLoop P b cls (.Limit n) none hint 2 1 q

/-! ### The queue -/

/-- `Ord` of `PReg` (`/repo/src/lib.rs:108`) on hints: the invalid register is the absence of one. -/
def hintBits (h : Option PReg) : Nat :=
  match h with
  | some p => p.bits.toNat
  | none => PReg.invalid.bits.toNat

/-- Derived `Ord` of `PrioQueueEntry`, `/repo/src/ion/data_structures.rs:723-728`: priority,
bundle, hint. -/
def queueLt (a b : Nat × Nat × Option PReg) : Bool :=
  decide (a.2.1 < b.2.1) || (decide (a.2.1 = b.2.1) && (decide (a.1 < b.1) ||
    (decide (a.1 = b.1) && decide (hintBits a.2.2 < hintBits b.2.2))))

/-- The greatest of a list that starts with `m`. -/
def queueMax (m : Nat × Nat × Option PReg) : List (Nat × Nat × Option PReg) → Nat × Nat × Option PReg
  | [] => m
  | x :: xs => queueMax (if queueLt m x then x else m) xs

/-- `/repo/src/ion/data_structures.rs:811-814` `PrioQueue::pop`: the greatest entry, and the
queue without it. -/
def popMax : List (Nat × Nat × Option PReg) → Option ((Nat × Nat × Option PReg) × List (Nat × Nat × Option PReg))
  | [] => none
  | x :: xs => some (queueMax x xs, (x :: xs).erase (queueMax x xs))

/-- `/repo/src/ion/merge.rs:426-440` `queue_bundles`. -/
def queueBundles (st : St) : Option St := (List.range st.nBundles).foldlM (fun st b => requeue st b none) st

/-- `/repo/src/ion/process.rs:41-51` `process_bundles`. -/
def processBundles (P : Params) : Nat → PSt → Except PErr PSt
  | fuel, q =>
    match popMax q.st.queue with
    | none => .ok q
    | some ((b, _, hint), rest) =>
      match fuel with
      | 0 => .error .fuel
      | fuel + 1 =>
        match processBundle P { q with st := { q.st with queue := rest } } b hint with
        | .error e => .error e
        | .ok q => processBundles P fuel q

/-! ### Registers for spilled bundles -/

/-- The loop over registers in `/repo/src/ion/spill.rs:46-56`; `none` in the result: no
register was free. -/
def tryFirst (P : Params) (b : Nat) (q : PSt) : List PReg → Except PErr (Option PSt)
  | [] => .ok none
  | p :: ps =>
    match tryAlloc (scanEnv P q.st none) (q.maps p) (rangesOf q.st b) with
    | none => .error .panic
    | some (.Allocated m) => .ok (some (q.take b p m))
    | some _ => tryFirst P b q ps

/-- One spilled bundle, `/repo/src/ion/spill.rs:26-66`. The sort is unstable; the ranges have
different starts (proved). -/
def trySpilled (P : Params) (q : PSt) (b : Nat) : Except PErr PSt :=
  if (q.st.bundles b).ranges = [] then .ok q
  else
    let ss := (q.st.bundles b).spillset
    let regs := (RegTraversalIter.new P.env (q.st.spillsets ss).cls none (q.st.spillsets ss).hint b (q.st.bundles b).limit).all
    let q := { q with st := q.st.modB b (fun x => { x with
      ranges := isort (fun a b => decide (a.range.fr ≤ b.range.fr)) x.ranges }) }
    match tryFirst P b q regs with
    | .error e => .error e
    | .ok (some q) => .ok q
    | .ok none => .ok { q with st := q.st.modS ss (fun s => { s with required := true }) }

/-- `/repo/src/ion/spill.rs:22-68` `try_allocating_regs_for_spilled_bundles`. -/
def trySpilledAll (P : Params) (q : PSt) : Except PErr PSt := q.st.spilled.foldlM (trySpilled P) q

/-- `queue_bundles`, `process_bundles` and `try_allocating_regs_for_spilled_bundles`, in the
order of `/repo/src/ion/mod.rs:83-99`. -/
def allocate (P : Params) (fuel : Nat) (q : PSt) : Except PErr PSt :=
  match queueBundles q.st with
  | none => .error .panic
  | some st => do
    let q ← processBundles P fuel { q with st := st }
    trySpilledAll P q

end Regalloc.Ion
