import Verif.Model.Function

/-
Model of `/repo/src/ion/redundant_moves.rs` and of its use in
`/repo/src/ion/moves.rs:789-933`. The hash maps are total functions with the value
an absent key is read as (`None`, no copies): the code only reads them that way.
-/
namespace Regalloc

/-- `/repo/src/ion/redundant_moves.rs:7-11` `RedundantMoveState`. -/
inductive RedundantMoveState
  | Copy (a : Allocation) (v : Option VReg)
  | Orig (v : VReg)
  | None
  deriving DecidableEq, Repr

/-- `/repo/src/ion/redundant_moves.rs:13-16` `RedundantMoveEliminator`. -/
structure RedundantMoves where
  allocs : Allocation → RedundantMoveState
  reverse : Allocation → List Allocation

namespace RedundantMoves

/-- The eliminator at the start, and after `clear`
(`/repo/src/ion/redundant_moves.rs:105-109`). -/
def empty : RedundantMoves := ⟨fun _ => .None, fun _ => []⟩

/-- `insert` into a map. -/
def set {β : Type} (f : Allocation → β) (a : Allocation) (x : β) : Allocation → β := fun b => if b = a then x else f b

/-- `/repo/src/ion/redundant_moves.rs:111-128` `clear_alloc`. The entry of each copy
is overwritten and then removed. -/
def clearAlloc (s : RedundantMoves) (a : Allocation) : RedundantMoves :=
  ⟨set ((s.reverse a).foldl (fun m t => set m t .None) s.allocs) a .None, set s.reverse a []⟩

/-- The register recorded in a state, `/repo/src/ion/redundant_moves.rs:59-63`. -/
def vregOf : RedundantMoveState → Option VReg
  | .Copy _ v => v
  | .Orig v => some v
  | .None => none

/-- `/repo/src/ion/redundant_moves.rs:72-76`: one side is a recorded copy of the other. -/
def elides (fromState toState : RedundantMoveState) (src dst : Allocation) : Bool :=
  (match toState with
    | .Copy orig _ => decide (orig = src)
    | _ => false) ||
  (match fromState with
    | .Copy new _ => decide (new = dst)
    | _ => false)

/-- `/repo/src/ion/redundant_moves.rs:23-103` `process_move`; `true` is elide. -/
def processMove (s : RedundantMoves) (src dst : Allocation) (toVreg : Option VReg) : Bool × RedundantMoves :=
  let fromState := s.allocs src
  let toState := s.allocs dst
  match decide (src = dst), toVreg with
  | true, some v =>
    let s := s.clearAlloc dst
    (true, { s with allocs := set s.allocs dst (.Orig v) })
  | _, _ =>
    let dstVreg := toVreg.or (vregOf fromState)
    let elide := elides fromState toState src dst
    let s := if elide then s else s.clearAlloc dst
    if src.isReg || dst.isReg then
      (elide, ⟨set s.allocs dst (.Copy src dstVreg), set s.reverse src (s.reverse src ++ [dst])⟩)
    else (elide, s)

/-- A resolved move at a program point. -/
structure PMove where
  pos : Nat
  src : Allocation
  dst : Allocation
  vreg : Option VReg
  deriving Repr

/-- What the driver needs to know: the function, the final location of each operand
(`get_alloc`), the block of each instruction, and the dedicated scratch registers. -/
structure RMEnv where
  f : Func
  getAlloc : Nat → Nat → Allocation
  insnBlock : Nat → Nat
  scratch : List PReg

/-- Locations cleared for one instruction, in order, `/repo/src/ion/moves.rs:817-839`. -/
def instClears (e : RMEnv) (i : Nat) : List Allocation :=
  ((e.f.operands i).zipIdx.filter (fun p => p.1.kind = .Def)).map (fun p => e.getAlloc i p.2) ++
    (e.f.clobbers i).map Allocation.reg ++ e.scratch.map Allocation.reg

/-- `/repo/src/ion/moves.rs:791-841` `redundant_move_process_side_effects`. -/
def sideEffects (e : RMEnv) (s : RedundantMoves) (src dst : Nat) : RedundantMoves :=
  if e.insnBlock (src / 2) ≠ e.insnBlock (dst / 2) then empty
  else
    let startInst := if src % 2 = 0 then src / 2 else src / 2 + 1
    let endInst := if dst % 2 = 0 then dst / 2 else dst / 2 + 1
    (List.range' startInst (endInst - startInst)).foldl
      (fun s i => (instClears e i).foldl clearAlloc s) s

/-- The elimination part of the loop of `/repo/src/ion/moves.rs:846-993`, over the
resolved moves of all groups in order. Moves of one group share a position, for
which the code processes side effects once; doing it per move changes nothing since
there are none between equal positions. -/
def drive (e : RMEnv) : RedundantMoves → Nat → List PMove → List PMove
  | _, _, [] => []
  | s, last, m :: ms =>
    let s := sideEffects e s last m.pos
    let r := processMove s m.src m.dst m.vreg
    if r.1 then drive e r.2 m.pos ms else m :: drive e r.2 m.pos ms

end RedundantMoves
end Regalloc
