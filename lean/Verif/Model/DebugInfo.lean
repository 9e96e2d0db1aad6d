import Verif.Model.Pipeline

/-
Model of the debug locations computed by the backtracking allocator,
`/repo/src/ion/moves.rs:274`, `:576-622` and `:771-773`. They are computed in the loop of
`apply_allocations_and_insert_moves` over the ranges of each register, and do not influence
anything else, so they are a separate pass here. Simplifications:
* The binary search for the labels of a register (`:584-598`) is a scan. They agree on labels that
  are sorted by register, which the interface asks for (`/repo/src/lib.rs:1312`).
* Unused registers, which are skipped (`:282`), have no ranges.
-/
namespace Regalloc.Debug

/-- `/repo/src/lib.rs:1296-1315` `debug_value_labels`: the register, the instruction before which the
label starts, the one before which it ends, and the label. -/
structure Label where
  vreg : VReg
  fr : Nat
  to : Nat
  label : Nat
  deriving DecidableEq, Repr

/-- `/repo/src/lib.rs:1598` `debug_locations`: label, first point, end, location. -/
abbrev Loc := Nat × Nat × Nat × Allocation

/-- The labels of register `v`, `/repo/src/ion/moves.rs:584-610`. -/
def labelsOf (labels : List Label) (v : Nat) : List Label :=
  (labels.dropWhile (fun l => decide (l.vreg.vreg < v))).takeWhile (fun l => decide (l.vreg.vreg = v))

/-- One label on one range, `/repo/src/ion/moves.rs:600-621`. -/
def rangeLoc (r : Apply.FRange) (l : Label) : Option Loc :=
  if r.range.overlaps ⟨ptBefore l.fr, ptBefore l.to⟩ then
    some (l.label, max (ptBefore l.fr) r.range.fr, min (ptBefore l.to) r.range.to, r.alloc)
  else none

/-- The order of the tuples, `/repo/src/ion/moves.rs:773`. -/
def locLe (a b : Loc) : Bool :=
  Pipeline.lexLe [a.1, a.2.1, a.2.2.1, a.2.2.2.bits.toNat] [b.1, b.2.1, b.2.2.1, b.2.2.2.bits.toNat]

/-- All labels on all ranges, sorted. -/
def locations (x : Apply.Env) (labels : List Label) : List Loc :=
  isort locLe ((List.range x.numVregs).flatMap (fun v => (x.ranges v).flatMap (fun r => (labelsOf labels v).filterMap (rangeLoc r))))

end Regalloc.Debug

namespace Regalloc.Pipeline

/-- `debug_locations` of the output of the backtracking allocator. The passes before are those of
`Pipeline.run`. -/
def debugLocations (i : Input) (labels : List Debug.Label) : Except Fail (List Debug.Loc) :=
  match front i with
  | .error e => .error e
  | .ok fr =>
    match Ion.allocate (params i fr.info) i.fuel ⟨fr.st, reservations fr.b1.pregs⟩ with
    | .error .tooManyLiveRegs => .error (.error .tooManyLiveRegs)
    | .error .fuel => .error .fuel
    | .error _ => .error .panic
    | .ok q =>
      match Spill.allocateSpillslots i.byLast i.sizeN 0 (setsOf q.st) with
      | none => .error .panic
      | some (ss, slots, _) =>
        .ok (Debug.locations (applyEnv i fr.info fr.ls fr.b1 fr.second q.st (allocOf q.st ss.assigned slots)) labels)

end Regalloc.Pipeline
