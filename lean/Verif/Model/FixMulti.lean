import Verif.Model.LiveRanges
import Verif.Model.ApplyMoves

/-
Model of `fixup_multi_fixed_vregs`, `/repo/src/ion/liveranges.rs:774-914`: where one range has
several uses at one program point whose constraints no single location meets, replace
constraints by `Any` and note moves that meet them. `usize` has 64 bits. Tracing is left out.
-/
namespace Regalloc.Build

/-- What the search over the uses of one point finds, `/repo/src/ion/liveranges.rs:799-805`. -/
structure Conflict where
  requiresReg : Bool
  numReg : Nat
  numStack : Nat
  firstReg : Option Nat
  firstStack : Option Nat
  minLimit : Nat
  maxFixed : Nat
  deriving DecidableEq, Repr

/-- `/repo/src/ion/liveranges.rs:799-805`. -/
def Conflict.start : Conflict := ⟨false, 0, 0, none, none, 2 ^ 64 - 1, 0⟩

/-- `Option::get_or_insert` (standard library). -/
def orInsert {α : Type} (o : Option α) (x : α) : α := o.getD x

/-- One use, `/repo/src/ion/liveranges.rs:806-837`; `is_stack` is set from `fixed_stack_slots`. -/
def Conflict.see (env : MachineEnv) (c : Conflict) (u : Ion.Use) : Except Err Conflict :=
  match u.op.constraint with
  | .Any => .ok { c with firstReg := some (orInsert c.firstReg u.slot), firstStack := some (orInsert c.firstStack u.slot) }
  | .Reg => .ok { c with firstReg := some (orInsert c.firstReg u.slot), requiresReg := true }
  | .Reuse _ => .ok { c with firstReg := some (orInsert c.firstReg u.slot), requiresReg := true }
  | .Limit n => .ok { c with firstReg := some (orInsert c.firstReg u.slot), minLimit := min c.minLimit n, requiresReg := true }
  | .FixedReg p =>
    if p ∈ env.fixedStackSlots then
      .ok { c with maxFixed := max c.maxFixed p.hwEnc, numStack := c.numStack + 1,
                   firstStack := some (orInsert c.firstStack u.slot) }
    else
      .ok { c with maxFixed := max c.maxFixed p.hwEnc, requiresReg := true, numReg := c.numReg + 1,
                   firstReg := some (orInsert c.firstReg u.slot) }
  | .Stack => .error .panic

/-- No conflict, `/repo/src/ion/liveranges.rs:840-845`. -/
def Conflict.fine (c : Conflict) : Bool :=
  decide (c.numReg + c.numStack ≤ 1) && !(c.requiresReg && decide (c.numStack ≠ 0)) && decide (c.maxFixed < c.minLimit)

/-- `source_slot`, `/repo/src/ion/liveranges.rs:851-855`. -/
def Conflict.source (c : Conflict) : Except Err Nat :=
  match (if c.requiresReg then c.firstReg else c.firstStack) with
  | some s => .ok s
  | none => .error .panic

/-- The register named first so far, the uses and the fixups. -/
abbrev Rewrite := Option PReg × List Ion.Use × List Apply.Fixup

/-- One use, `/repo/src/ion/liveranges.rs:857-901`. -/
def rewriteUse (env : MachineEnv) (c : Conflict) (src : Nat) (acc : Rewrite) (u : Ion.Use) : Rewrite :=
  match u.op.constraint with
  | .FixedReg p =>
    let first := if c.requiresReg && decide (p ∈ env.fixedStackSlots) then acc.1 else some (orInsert acc.1 p)
    if !(c.requiresReg && decide (p ∈ env.fixedStackSlots)) && decide (orInsert acc.1 p = p) && decide (p.hwEnc < c.minLimit) then
      (first, acc.2.1 ++ [u], acc.2.2)
    else
      (first, acc.2.1 ++ [{ u with op := { u.op with constraint := .Any } }],
        acc.2.2 ++ [⟨u.pos, src, u.slot, p, u.op.vreg.vreg, .Secondary⟩])
  | _ => (acc.1, acc.2.1 ++ [u], acc.2.2)

/-- The uses at one point, `/repo/src/ion/liveranges.rs:794-902`. -/
def fixChunk (env : MachineEnv) (us : List Ion.Use) : Except Err (List Ion.Use × List Apply.Fixup) :=
  if us.length < 2 then .ok (us, [])
  else do
    let c ← us.foldlM (Conflict.see env) Conflict.start
    if c.fine then return (us, [])
    let src ← c.source
    return (us.foldl (rewriteUse env c src) (none, [], [])).2

/-- `slice::chunk_by` (standard library): maximal runs of uses at the same point. -/
def chunks : List Ion.Use → List (List Ion.Use)
  | [] => []
  | u :: us =>
    match chunks us with
    | (w :: ws) :: rest => if u.pos = w.pos then (u :: w :: ws) :: rest else [u] :: (w :: ws) :: rest
    | rest => [u] :: rest

/-- The uses of one range, `/repo/src/ion/liveranges.rs:789-903`. -/
def fixUses (env : MachineEnv) (us : List Ion.Use) : Except Err (List Ion.Use × List Apply.Fixup) :=
  (chunks us).foldlM (fun acc c => do
    let r ← fixChunk env c
    return (acc.1 ++ r.1, acc.2 ++ r.2)) ([], [])

/-- One range, `/repo/src/ion/liveranges.rs:786-911`: the state, the ranges done and the
fixups. -/
def fixRange (env : MachineEnv) (acc : St × List LR × List Apply.Fixup) (r : LR) : Except Err (St × List LR × List Apply.Fixup) := do
  let (us, fx) ← fixUses env r.uses
  let st ← fx.foldlM (fun st x => addPreg st (RKey.singleton x.pos) x.preg) acc.1
  return (st, acc.2.1 ++ [{ r with uses := us }], acc.2.2 ++ fx)

/-- One register, `/repo/src/ion/liveranges.rs:784-912`. -/
def fixVreg (env : MachineEnv) (acc : St × List Apply.Fixup) (v : Nat) : Except Err (St × List Apply.Fixup) := do
  let r ← (acc.1.ranges v).foldlM (fixRange env) (acc.1, [], acc.2)
  return (r.1.setRanges v r.2.1, r.2.2)

/-- `/repo/src/ion/liveranges.rs:774-914` `fixup_multi_fixed_vregs`, for `n` registers: the
state and the fixups it adds. -/
def fixupMulti (env : MachineEnv) (n : Nat) (st : St) : Except Err (St × List Apply.Fixup) :=
  (List.range n).foldlM (fixVreg env) (st, [])

end Regalloc.Build
