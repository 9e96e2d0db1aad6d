import Verif.Model.Ion

/-
Model of bundle splitting, `/repo/src/ion/process.rs:265-973`. Statistics,
traces, spill weights and the release of unused capacity are omitted. `none` is a panic.
-/
namespace Regalloc.Ion

/-- `ProgPoint::inst`, as a number. -/
abbrev instOf (p : Nat) : Nat := p / 2

/-- `/repo/src/ion/process.rs:1364-1386` `minimal_range_for_use`. -/
def minimalRangeForUse (u : Use) : RKey :=
  let early := ptBefore (instOf u.pos)
  let late := ptAfter (instOf u.pos)
  let nextEarly := ptBefore (instOf u.pos + 1)
  if u.pos % 2 = 0 then
    match u.op.kind with
    | .Def => ⟨early, nextEarly⟩
    | .Use => ⟨early, late⟩
  else
    match u.op.kind with
    | .Def => ⟨late, nextEarly⟩
    | .Use => ⟨early, nextEarly⟩

/-- `/repo/src/ion/merge.rs:389-398` `compute_bundle_prio`. The length of a range counts
instructions (`CodeRange::len`, `/repo/src/ion/data_structures.rs:58-60`). -/
def bundlePrio (es : List Entry) : Nat :=
  (es.map (fun e => instOf e.range.to - instOf e.range.fr)).sum

/-- The uses of one range in `compute_bundle_limit`, `/repo/src/ion/merge.rs:403-420`. The
conversion to `u8` is omitted: a limit is at most 64 (`Operand::new`, `/repo/src/lib.rs:721-730`). -/
def useLimit : List Use → Option Nat → Option Nat
  | [], l => l
  | u :: us, l =>
    match u.op.constraint with
    | .Limit n =>
      match l with
      | some prev => useLimit us (some (min prev n))
      | none => useLimit us (some n)
    | .FixedReg _ => l
    | .Stack => l
    | .Any => useLimit us l
    | .Reg => useLimit us l
    | .Reuse _ => useLimit us l

/-- `/repo/src/ion/merge.rs:400-424` `compute_bundle_limit`. -/
def bundleLimit (st : St) (es : List Entry) : Option Nat :=
  es.foldl (fun l e => useLimit (st.ranges e.index).uses l) none

/-- The loop of `recompute_bundle_properties`, `/repo/src/ion/process.rs:284-300`: fixed,
fixed definition, stack, with its early exit. -/
def scanFlags : List Use → Bool × Bool × Bool → Bool × Bool × Bool
  | [], x => x
  | u :: us, (fixed, fixedDef, stack) =>
    let isFixed := match u.op.constraint with
      | .FixedReg _ => true
      | _ => false
    let fixed' := fixed || isFixed
    let fixedDef' := fixedDef || (isFixed && decide (u.op.kind = .Def))
    let stack' := stack || decide (u.op.constraint = .Stack)
    if stack' && fixed' then (fixed', fixedDef', stack') else scanFlags us (fixed', fixedDef', stack')

/-- `/repo/src/ion/process.rs:265-366` `recompute_bundle_properties`; `none`: the bundle
has no ranges. -/
def recomputeBundle (st : St) (b : Nat) : Option St :=
  match (st.bundles b).ranges with
  | [] => none
  | e :: es =>
    let r := st.ranges e.index
    let (minimal, fixed, fixedDef, stack) :=
      if r.vreg.isNone then (true, true, false, false)
      else if es.isEmpty then
        let (f, fd, s) := scanFlags r.uses (false, false, false)
        let m := match r.uses with
          | [] => true
          | [u] => (minimalRangeForUse u).contains r.range
          | _ => false
        (m, f, fd, s)
      else (false, false, false, false)
    some (st.modB b (fun x => { x with
      prio := bundlePrio (e :: es)
      limit := bundleLimit st (e :: es)
      minimal := minimal
      fixed := fixed
      fixedDef := fixedDef
      stack := stack }))

/-- `/repo/src/ion/process.rs:373-390` `recompute_range_properties` (without the weight). -/
def recomputeRange (st : St) (r : Nat) : St :=
  match (st.ranges r).uses with
  | u :: _ => if u.op.kind = .Def then st.modR r (fun x => { x with startsAtDef := true }) else st
  | [] => st

/-- `/repo/src/ion/process.rs:392-410` `get_or_create_spill_bundle`, with
`create_if_absent`. -/
def spillBundle (st : St) (b : Nat) : St × Nat :=
  let ss := (st.bundles b).spillset
  match (st.spillsets ss).spillBundle with
  | some s => (st, s)
  | none =>
    let idx := st.nBundles
    let st := st.modS ss (fun s => { s with spillBundle := some idx })
    ({ st with
      bundles := upd st.bundles idx { Bundle.fresh with spillset := ss }
      nBundles := idx + 1
      spilled := st.spilled ++ [idx] }, idx)

/-- `LiveRanges::add` (`/repo/src/ion/data_structures.rs:398-407`). -/
def St.addRange (st : St) (r : LRange) : St × Nat :=
  ({ st with ranges := upd st.ranges st.nRanges r, nRanges := st.nRanges + 1 }, st.nRanges)

/-- `vregs[v].ranges.push(entry)`; an invalid register index is a panic. -/
def St.pushVreg (st : St) (v : Option Nat) (e : Entry) : Option St :=
  match v with
  | none => none
  | some v => some { st with vregs := upd st.vregs v (st.vregs v ++ [e]) }

/-- Recompute and enqueue, `/repo/src/ion/process.rs:777-790`. -/
def requeue (st : St) (b : Nat) (hint : Option PReg) : Option St :=
  if (st.bundles b).ranges.length > 0 then do
    let st ← recomputeBundle st b
    some { st with queue := st.queue ++ [(b, (st.bundles b).prio, hint)] }
  else some st

/-! ### `split_into_minimal_bundles` -/

/-- State of the loops of `split_into_minimal_bundles`. -/
structure MinSt where
  st : St
  newLrs : List (Option Nat × Nat)
  newBundles : List Nat
  spillUses : List Use

/-- One use, `/repo/src/ion/process.rs:852-912`: the spill range and whether it starts at a
definition are threaded along. -/
def minUse (spillset : Nat) (vreg : Option Nat) (m : MinSt) (spillRange : RKey) (startsDef : Bool) (u : Use) :
    MinSt × RKey × Bool :=
  let isDef := decide (u.op.kind = .Def)
  if u.op.constraint = .Any then
    ({ m with spillUses := m.spillUses ++ [u] }, spillRange, startsDef || isDef)
  else
    let spillRange := if isDef then { spillRange with fr := ptBefore (instOf u.pos + 1) } else spillRange
    let cr := minimalRangeForUse u
    let nb := m.st.nBundles
    let (st, lr) := m.st.addRange ⟨cr, vreg, some nb, isDef, [u]⟩
    let st := { st with
      bundles := upd st.bundles nb { Bundle.fresh with spillset := spillset, ranges := [⟨cr, lr⟩] }
      nBundles := nb + 1 }
    ({ m with st := st, newLrs := m.newLrs ++ [(vreg, lr)], newBundles := m.newBundles ++ [nb] }, spillRange, startsDef)

/-- The uses of one range. -/
def minUses (spillset : Nat) (vreg : Option Nat) : List Use → MinSt × RKey × Bool → MinSt × RKey × Bool
  | [], x => x
  | u :: us, (m, r, d) => minUses spillset vreg us (minUse spillset vreg m r d u)

/-- One range of the bundle, `/repo/src/ion/process.rs:840-945`. `none` is the assertion
that no use is left over. -/
def minEntry (spillset spill : Nat) (m : MinSt) (e : Entry) : Option MinSt :=
  let r := m.st.ranges e.index
  let st := m.st.modR e.index (fun r => { r with uses := [] })
  let (m, spillRange, startsDef) := minUses spillset r.vreg r.uses ({ m with st := st }, e.range, false)
  if spillRange.isEmpty then
    if m.spillUses.isEmpty then some m else none
  else
    let (st, lr) := m.st.addRange ⟨spillRange, r.vreg, some spill, startsDef, m.spillUses⟩
    let st := st.modB spill (fun b => { b with ranges := b.ranges ++ [⟨spillRange, lr⟩] })
    some { m with st := st, spillUses := [], newLrs := m.newLrs ++ [(r.vreg, lr)] }

/-- Remove the old ranges from the registers' lists, `/repo/src/ion/process.rs:947-953`; an
invalid register is a panic. -/
def dropOld (removed : List Nat) (st : St) (v : Option Nat) : Option St :=
  match v with
  | none => none
  | some v => some { st with vregs := upd st.vregs v ((st.vregs v).filter (fun e => !removed.contains e.index)) }

/-- Add the new ranges, `/repo/src/ion/process.rs:955-960`. -/
def addNew (st : St) (q : Option Nat × Nat) : Option St := st.pushVreg q.1 ⟨(st.ranges q.2).range, q.2⟩

/-- `/repo/src/ion/process.rs:823-973` `split_into_minimal_bundles`. -/
def splitMinimal (st : St) (b : Nat) (hint : Option PReg) : Option St := do
  let spillset := (st.bundles b).spillset
  let (st, spill) := spillBundle st b
  let es := (st.bundles b).ranges
  let removed := es.map (·.index)
  let vregs := es.map (fun e => (st.ranges e.index).vreg)
  let st := st.modB b (fun x => { x with ranges := [] })
  let m ← es.foldlM (minEntry spillset spill) ⟨st, [], [], []⟩
  let st ← vregs.foldlM (dropOld removed) m.st
  let st ← m.newLrs.foldlM addNew st
  m.newBundles.foldlM (fun st b => requeue st b hint) st

/-! ### `split_and_requeue_bundle` -/

/-- The effective split point, `/repo/src/ion/process.rs:466-515`; `start` and `stop` are the
ends of the bundle and `firstUse` the position of its first use. -/
def splitPoint (start stop : Nat) (firstUse : Option Nat) (at_ : Nat) : Nat :=
  if at_ = start then
    match firstUse with
    | some pos => if instOf pos = instOf start then ptBefore (instOf pos + 1) else ptBefore (instOf pos)
    | none => ptBefore (instOf start + 1)
  else
    let p := if at_ % 2 = 1 then at_ + 1 else at_
    if p ≥ stop then p - 1 - 1 else p

/-- Result of locating the split: last entry of the old bundle, first entry of the new, the
split point, and whether to trim. -/
structure Located where
  last : Nat
  first : Nat
  at_ : Nat
  trim : Bool
  deriving DecidableEq, Repr

/-- `/repo/src/ion/process.rs:523-559`: the loop over the entries. -/
def locate (fixed : Bool) (uses : Nat → List Use) : List Entry → Nat → Located → Located
  | [], _, l => l
  | e :: es, i, l =>
    let l := if l.at_ > e.range.fr then { l with last := i, first := i } else l
    if l.at_ < e.range.to then
      let l := { l with first := i }
      if fixed then
        match (uses e.index).find? (fun u => decide (¬ u.pos < l.at_) &&
            (match u.op.constraint with
              | .FixedReg _ => true
              | _ => false)) with
        | some u =>
          let p := ptBefore (instOf u.pos)
          { l with at_ := p, last := if p > e.range.fr then i else l.last, trim := false }
        | none => l
      else l
    else locate fixed uses es (i + 1) l

/-- Split one range down the middle, `/repo/src/ion/process.rs:588-634`: `e` is cut at `at_`;
the new range is last in the register's list. Returns the new entry. -/
def cutRange (st : St) (e : Entry) (at_ : Nat) : Option (St × Entry) := do
  let orig := st.ranges e.index
  let n := (orig.uses.findIdx? (fun u => decide (u.pos ≥ at_))).getD orig.uses.length
  let range : RKey := ⟨at_, e.range.to⟩
  let (st, lr) := st.addRange ⟨range, orig.vreg, none, false, orig.uses.drop n⟩
  let st := st.modR e.index (fun r => { r with uses := r.uses.take n })
  let st := recomputeRange st e.index
  let st := recomputeRange st lr
  let st := st.modR e.index (fun r => { r with range := ⟨r.range.fr, at_⟩ })
  let st ← st.pushVreg orig.vreg ⟨range, lr⟩
  some (st, ⟨range, lr⟩)

/-- Move the part without uses at the end of the old bundle to the spill bundle,
`/repo/src/ion/process.rs:653-709`. The number bounds the iterations; each but the last
removes a range. -/
def trimTail (b : Nat) : Nat → St → Option St
  | 0, st => some st
  | n + 1, st =>
    match (st.bundles b).ranges.getLast? with
    | none => some st
    | some e =>
      match (st.ranges e.index).uses.getLast? with
      | none =>
        let (st, spill) := spillBundle st b
        let st := st.modB spill (fun x => { x with ranges := x.ranges ++ [e] })
        let st := st.modB b (fun x => { x with ranges := x.ranges.dropLast })
        let st := st.modR e.index (fun r => { r with bundle := some spill })
        trimTail b n st
      | some u =>
        let split := ptBefore (instOf u.pos + 1)
        let stop := e.range.to
        let vreg := (st.ranges e.index).vreg
        if split < stop then do
          let (st, spill) := spillBundle st b
          let st := st.modB b (fun x => { x with ranges := x.ranges.dropLast ++ [⟨⟨e.range.fr, split⟩, e.index⟩] })
          let st := st.modR e.index (fun r => { r with range := ⟨r.range.fr, split⟩ })
          let (st, lr) := st.addRange { LRange.fresh ⟨split, stop⟩ with bundle := some spill }
          let st := st.modB spill (fun x => { x with ranges := x.ranges ++ [⟨⟨split, stop⟩, lr⟩] })
          st.pushVreg vreg ⟨⟨split, stop⟩, lr⟩
        else some st

/-- Move the part without uses at the start of the new bundle to the spill bundle,
`/repo/src/ion/process.rs:710-774`. -/
def trimHead (b : Nat) : Nat → St → Option St
  | 0, st => some st
  | n + 1, st =>
    match (st.bundles b).ranges with
    | [] => some st
    | e :: es =>
      if (st.ranges e.index).startsAtDef then some st
      else
        match (st.ranges e.index).uses.head? with
        | none =>
          let (st, spill) := spillBundle st b
          let st := st.modB spill (fun x => { x with ranges := x.ranges ++ [e] })
          let st := st.modB b (fun x => { x with ranges := es })
          let st := st.modR e.index (fun r => { r with bundle := some spill })
          trimHead b n st
        | some u =>
          let split := ptBefore (instOf u.pos)
          let start := e.range.fr
          let vreg := (st.ranges e.index).vreg
          if split > start then do
            let (st, spill) := spillBundle st b
            let st := st.modB b (fun x => { x with ranges := ⟨⟨split, e.range.to⟩, e.index⟩ :: es })
            let st := st.modR e.index (fun r => { r with range := ⟨split, r.range.to⟩ })
            let (st, lr) := st.addRange { LRange.fresh ⟨start, split⟩ with bundle := some spill }
            let st := st.modB spill (fun x => { x with ranges := x.ranges ++ [⟨⟨start, split⟩, lr⟩] })
            st.pushVreg vreg ⟨⟨start, split⟩, lr⟩
          else some st

/-- The division of the list of ranges, `/repo/src/ion/process.rs:570-643`: cut the entry the
split point falls into, truncate the old list, link the rest to the new bundle. -/
def divide (st : St) (b : Nat) (l : Located) : Option (St × Nat) := do
  let es := (st.bundles b).ranges
  let newList := es.drop l.first
  let st := st.modB b (fun x => { x with ranges := x.ranges.take (l.last + 1) })
  match newList with
  | [] => none
  | e :: rest =>
    let (st, newList) ←
      if l.at_ > e.range.fr then do
        let (st, e') ← cutRange st e l.at_
        let last ← (st.bundles b).ranges[l.last]?
        let st := st.modB b (fun x => { x with ranges := x.ranges.set l.last ⟨(st.ranges e.index).range, last.index⟩ })
        some (st, e' :: rest)
      else some (st, e :: rest)
    let nb := st.nBundles
    let ss := (st.bundles b).spillset
    let st := { st with
      bundles := upd st.bundles nb { Bundle.fresh with spillset := ss }
      nBundles := nb + 1 }
    let st := st.linkAll newList nb
    some (st.modB nb (fun x => { x with ranges := newList }), nb)

/-- Which way `split_and_requeue_bundle` goes. -/
inductive SplitPlan
  | minimal
  | halves (l : Located)
  deriving DecidableEq, Repr

/-- `/repo/src/ion/process.rs:430-559`: the decisions; `MAX_SPLITS_PER_SPILLSET` is 2. -/
def planSplit (st : St) (b : Nat) (at_ : Nat) (trim : Bool) : Option SplitPlan :=
  if (st.spillsets (st.bundles b).spillset).splits ≥ 2 then some .minimal
  else
    match (st.bundles b).ranges.head?, (st.bundles b).ranges.getLast? with
    | some e, some e' =>
      if instOf (e'.range.to - 1) = instOf e.range.fr then some .minimal
      else
        let firstUse := (((st.bundles b).ranges.flatMap (fun e => (st.ranges e.index).uses)).head?).map (·.pos)
        let p := splitPoint e.range.fr e'.range.to firstUse at_
        some (.halves (locate (st.bundles b).fixed (fun r => (st.ranges r).uses) (st.bundles b).ranges 0 ⟨0, 0, p, trim⟩))
    | _, _ => none

/-- The split counter is raised before the test for a single instruction. -/
def countSplit (st : St) (b : Nat) : St :=
  if (st.spillsets (st.bundles b).spillset).splits ≥ 2 then st
  else st.modS (st.bundles b).spillset (fun s => { s with splits := s.splits + 1 })

/-- `/repo/src/ion/process.rs:645-775`: trimming both halves, if asked for. -/
def trimHalves (st : St) (b nb : Nat) (trim : Bool) : Option St :=
  if trim then do
    let st ← trimTail b (st.bundles b).ranges.length st
    trimHead nb (st.bundles nb).ranges.length st
  else some st

/-- `/repo/src/ion/process.rs:412-791` `split_and_requeue_bundle`. -/
def splitAndRequeue (st : St) (b : Nat) (at_ : Nat) (hint : Option PReg) (trim : Bool) : Option St := do
  let plan ← planSplit st b at_ trim
  let st := countSplit st b
  match plan with
  | .minimal => splitMinimal st b hint
  | .halves l =>
    let (st, nb) ← divide st b l
    let st ← trimHalves st b nb l.trim
    let st ← requeue st b hint
    requeue st nb hint

end Regalloc.Ion
