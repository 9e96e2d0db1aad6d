import Verif.Model.Ion
import Verif.Model.Sort

/-
Model of bundle creation and merging, `/repo/src/ion/merge.rs`. Annotations and traces
are omitted.
-/
namespace Regalloc.Ion

/-- `/repo/src/ion/merge.rs:24-40` `merge_bundle_properties`: what the cached properties
of `to` become. -/
def mergeProps (src dst : Bundle) : Bundle :=
  let dst := if src.fixed then { dst with fixed := true } else dst
  let dst := if src.fixedDef then { dst with fixedDef := true } else dst
  let dst := if src.stack then { dst with stack := true } else dst
  match src.limit with
  | some theirs =>
    match dst.limit with
    | some ours => { dst with limit := some (min ours theirs) }
    | none => { dst with limit := some theirs }
  | none => dst

/-- `/repo/src/ion/merge.rs:91-97` `adjust_range_start`. -/
def adjStart (fixedDef : Bool) (r : RKey) : Nat :=
  if fixedDef then ptBefore (r.fr / 2) else r.fr

/-- The two-pointer scan for an overlap, `/repo/src/ion/merge.rs:101-133`; the number is
how many more steps the 200-step limit allows. `true`: the scan reached the end. -/
def scan (fdFrom fdTo : Bool) : Nat → List Entry → List Entry → Bool
  | _, [], _ => true
  | _, _ :: _, [] => true
  | 0, _ :: _, _ :: _ => false
  | n + 1, f :: fs, t :: ts =>
    if adjStart fdFrom f.range ≥ t.range.to then scan fdFrom fdTo n (f :: fs) ts
    else if adjStart fdTo t.range ≥ f.range.to then scan fdFrom fdTo n fs (t :: ts)
    else false

/-- Ordering used to place entries. -/
def entryLe (a b : Entry) : Bool := decide (a.range.fr ≤ b.range.fr)

/-- `/repo/src/ion/merge.rs:194-217`: the merged list. A binary search in a strictly
sorted list gives the number of smaller keys, whether or not the key is found;
`sort_unstable_by_key` is modelled by a stable sort, which makes no difference as the
keys are distinct (`Props/Merge.lean`, `C33_sort_order_unique`). -/
def mergedRanges (src dst : List Entry) : List Entry :=
  match src with
  | [e] => insertBy entryLe e dst
  | _ => isort entryLe (dst ++ src)

/-- `/repo/src/ion/merge.rs:158-182`: the target has no ranges. -/
def commitMove (st : St) (src dst : Nat) : St :=
  let bs := st.bundles src
  let st := st.linkAll bs.ranges dst
  let st := st.modB src (fun b => { b with ranges := [] })
  st.modB dst (fun b => mergeProps bs { b with ranges := bs.ranges })

/-- `/repo/src/ion/merge.rs:190-254`: both have ranges. -/
def commitMerge (st : St) (src dst : Nat) : St :=
  let bs := st.bundles src
  let bd := st.bundles dst
  let st := st.linkAll bs.ranges dst
  let st := st.modB src (fun b => { b with ranges := [] })
  let st := st.modB dst (fun b => { b with ranges := mergedRanges bs.ranges b.ranges })
  let st :=
    if bs.spillset ≠ bd.spillset then
      st.modS bd.spillset (fun s => { s with range := s.range.join (st.spillsets bs.spillset).range })
    else st
  st.modB dst (mergeProps bs)

/-- `/repo/src/ion/merge.rs:42-257` `merge_bundles(from, to)`. The debug assertions on
classes (:64-75) are omitted. -/
def mergeBundles (env : MachineEnv) (st : St) (src dst : Nat) : Bool × St :=
  if src = dst then (true, st)
  else
    let bs := st.bundles src
    let bd := st.bundles dst
    if (st.spillsets bs.spillset).cls ≠ (st.spillsets bd.spillset).cls then (false, st)
    else if bs.alloc.isSome || bd.alloc.isSome then (false, st)
    else if scan bs.fixedDef bd.fixedDef 200 bs.ranges bd.ranges = false then (false, st)
    else if (bs.stack || bs.fixed || bs.limit.isSome || bd.stack || bd.fixed || bd.limit.isSome) &&
        (Requirement.mergeBundles env (st.reqUses src) (st.reqUses dst)).isNone then (false, st)
    else if bs.ranges.isEmpty then (true, st)
    else if bd.ranges.isEmpty then (true, commitMove st src dst)
    else (true, commitMerge st src dst)

/-! ### `merge_vreg_bundles` -/

/-- State of the scan for cached properties, `/repo/src/ion/merge.rs:286-289`. -/
structure Props where
  fixed : Bool
  fixedDef : Bool
  stack : Bool
  limit : Option Nat
  deriving DecidableEq, Repr

/-- The loop over the uses of one range, `/repo/src/ion/merge.rs:291-319`, with its early
exit. `u8::try_from` of a limit panics for a limit above 255, which an operand can
encode; the model is of limits up to 255, where it is the identity. -/
def useProps : List Use → Props → Props
  | [], p => p
  | u :: us, p =>
    match u.op.constraint with
    | .FixedReg _ =>
      let p := { p with fixed := true }
      let p := if u.op.kind = .Def then { p with fixedDef := true } else p
      if p.fixed && p.stack && p.fixedDef then p else useProps us p
    | .Stack =>
      let p := { p with stack := true }
      if p.fixed && p.stack && p.fixedDef then p else useProps us p
    | .Limit n =>
      let p := match p.limit with
        | some prev => { p with limit := some (min prev n) }
        | none => { p with limit := some n }
      if p.fixed && p.stack && p.fixedDef then p else useProps us p
    | .Any => useProps us p
    | .Reg => useProps us p
    | .Reuse _ => useProps us p

/-- `/repo/src/ion/merge.rs:261-346`: the bundle and spill set of one register. -/
def createBundle (cls : Nat → RegClass) (st : St) (v : Nat) : St :=
  match st.vregs v with
  | [] => st
  | e :: es =>
    let b := st.nBundles
    let rs := e :: es
    let range := rs.foldl (fun r e => r.join e.range) e.range
    let p := rs.foldl (fun p e => useProps (st.ranges e.index).uses p) ⟨false, false, false, none⟩
    let st := st.linkAll rs b
    let ss := st.nSpillsets
    let bun := { Bundle.fresh with
      ranges := rs
      spillset := ss
      fixed := p.fixed
      fixedDef := p.fixedDef
      stack := p.stack
      limit := p.limit }
    { st with
      bundles := upd st.bundles b bun
      nBundles := b + 1
      spillsets := upd st.spillsets ss ⟨none, none, cls v, none, false, 0, range⟩
      nSpillsets := ss + 1 }

/-- The bundle of the first range of a register, `/repo/src/ion/merge.rs:360-363`; `none`
is the indexing panic. -/
def bundleOf (st : St) (v : Nat) : Option Nat :=
  match st.vregs v with
  | [] => none
  | e :: _ => (st.ranges e.index).bundle

/-- One merge request `(from register, to register)`. -/
def mergeReq (env : MachineEnv) (st : St) (q : Nat × Nat) : Option St :=
  match bundleOf st q.1, bundleOf st q.2 with
  | some a, some b => some (mergeBundles env st a b).2
  | _, _ => none

/-- The requests of `/repo/src/ion/merge.rs:348-366`: each output tied to an input, with
the input's register as `from`. An input index out of range is a panic (`none`). -/
def reuseReqs (ops : List Op) : Option (List (Nat × Nat)) :=
  (ops.filterMap (fun o => match o.constraint with
    | .Reuse i => some (o, i)
    | _ => none)).mapM (fun q => (ops[q.2]?).map (fun d => (d.vreg.vreg, q.1.vreg.vreg)))

/-- `/repo/src/ion/merge.rs:259-387` `merge_vreg_bundles`. `outs` lists the
`(from_vreg, to_vreg)` of the block parameters passed. -/
def mergeVregBundles (env : MachineEnv) (f : Func) (cls : Nat → RegClass) (outs : List (Nat × Nat)) (st : St) :
    Option St := do
  let st := (List.range f.numVregs).foldl (createBundle cls) st
  let reqs ← (List.range f.numInsts).mapM (fun i => reuseReqs (f.operands i))
  let st ← reqs.flatten.foldlM (mergeReq env) st
  outs.foldlM (mergeReq env) st

end Regalloc.Ion
