/-
Model of `/repo/src/moves.rs`: parallel-move resolution.

Simplifications (all stated where they apply):
* `SmallVec` is `List`.
* `ret.push(x)` followed by a final `ret.reverse()` is modelled by consing, so
  the final reverse disappears.
* `binary_search_by_key` on the destination-sorted list is modelled by its
  contract, "index of an element with that key, if there is one"; destinations
  are distinct under the documented precondition, so the index is unique.
* the unbounded `while` loops carry fuel; running out of fuel and indexing out
  of bounds are both the explicit result `none`, and the theorems show that it
  never occurs.
-/
import Verif.Model.Lib
import Verif.Model.Sort

namespace Regalloc

/-- One element of a `MoveVec<T>` (`/repo/src/moves.rs:12`): `(from, to, t)`. -/
structure Move (T : Type) where
  src : Allocation
  dst : Allocation
  t : T
  deriving DecidableEq, Repr, Inhabited

/-- `/repo/src/moves.rs:18-23` `MoveVecWithScratch`. -/
inductive MoveVecWithScratch (T : Type)
  | NoScratch (ms : List (Move T))
  | Scratch (ms : List (Move T))
  deriving DecidableEq, Repr

namespace Moves

variable {T : Type}

/-- `/repo/src/moves.rs:84-85`: the sort key. -/
def key (m : Move T) : UInt64 := u64Key m.dst.bits m.src.bits

/-- `/repo/src/moves.rs:84-85` `sort_by_key` (stable). -/
def sortMoves (ms : List (Move T)) : List (Move T) :=
  isort (fun a b => decide (key a ≤ key b)) ms

/-- `/repo/src/moves.rs:90` `dedup`: drop elements equal to their predecessor. -/
def dedup [DecidableEq T] : List (Move T) → List (Move T)
  | [] => []
  | [a] => [a]
  | a :: b :: l => if a = b then dedup (b :: l) else a :: dedup (b :: l)

/-- Contract of `binary_search_by_key(&a, |dst|)`, `/repo/src/moves.rs:49-53`
and `139-142`. -/
def findDst (ms : List (Move T)) (a : Allocation) : Option Nat :=
  ms.findIdx? (fun m => decide (m.dst = a))

/-- `/repo/src/moves.rs:44-60` `sources_overlap_dests`. -/
def sourcesOverlapDests (ms : List (Move T)) : Bool :=
  ms.any (fun m => (findDst ms m.src).isSome)

/-- `/repo/src/moves.rs:134-144` `must_come_before` (`NONE` is `none`). -/
def mustComeBefore (ms : List (Move T)) : List (Option Nat) :=
  ms.map (fun m => findDst ms m.src)

/-- `/repo/src/moves.rs:150-158` `State`. -/
inductive St
  | ToDo | Pending | Done
  deriving DecidableEq, Repr, Inhabited

/-- `/repo/src/moves.rs:176-179`: pop and emit the whole stack. -/
def popAll (ms : List (Move T)) : List Nat → List St → List (Move T) → Option (List St × List (Move T))
  | [], st, ret => some (st, ret)
  | i :: rest, st, ret =>
    match ms[i]? with
    | none => none
    | some m => popAll ms rest (st.set i .Done) (m :: ret)

/-- `/repo/src/moves.rs:213-220`: pop and emit until `next` has been emitted.
Returns the remaining stack. -/
def popUntil (ms : List (Move T)) (next : Nat) :
    List Nat → List St → List (Move T) → Option (List Nat × List St × List (Move T))
  | [], st, ret => some ([], st, ret)
  | i :: rest, st, ret =>
    match ms[i]? with
    | none => none
    | some m =>
      if i = next then some (rest, st.set i .Done, m :: ret)
      else popUntil ms next rest (st.set i .Done) (m :: ret)

/-- The inner `while let Some(&top) = stack.last()` loop,
`/repo/src/moves.rs:168-223`. The stack is a list with its top first. Returns
the states, the emitted moves and `scratch_used`. -/
def inner [Inhabited T] (ms : List (Move T)) (mcb : List (Option Nat)) :
    Nat → List St → List Nat → List (Move T) → Bool → Option (List St × List (Move T) × Bool)
  | 0, _, _, _, _ => none
  | _ + 1, st, [], ret, used => some (st, ret, used)
  | fuel + 1, st, top :: rest, ret, used =>
    match ms[top]?, mcb[top]? with
    | some m, some nx =>
      -- `next == NONE || state[next] == Done`
      let emit :=
        match popAll ms rest (st.set top .Done) (m :: ret) with
        | none => none
        | some (st', ret') => inner ms mcb fuel st' [] ret' used
      match nx with
      | none => emit
      | some next =>
        match st[next]? with
        | none => none
        | some .Done => emit
        | some .ToDo => inner ms mcb fuel (st.set next .Pending) (next :: top :: rest) ret used
        | some .Pending =>
          match popUntil ms next rest (st.set top .Done) (⟨Allocation.none, m.dst, m.t⟩ :: ret) with
          | none => none
          | some (stack', st', ret') =>
            inner ms mcb fuel st' stack' (⟨m.src, Allocation.none, default⟩ :: ret') true
    | _, _ => none

/-- The outer `while let Some(next) = position(ToDo)` loop,
`/repo/src/moves.rs:164-224`. -/
def outer [Inhabited T] (ms : List (Move T)) (mcb : List (Option Nat)) :
    Nat → List St → List (Move T) → Bool → Option (List (Move T) × Bool)
  | 0, _, _, _ => none
  | fuel + 1, st, ret, used =>
    match st.findIdx? (fun s => decide (s = .ToDo)) with
    | none => some (ret, used)
    | some next =>
      match inner ms mcb (2 * ms.length + 2) (st.set next .Pending) [next] ret used with
      | none => none
      | some (st', ret', used') => outer ms mcb fuel st' ret' used'

/-- `/repo/src/moves.rs:74-231` `ParallelMoves::resolve`. `T::default()` is
`default`; `none` would be a panic or exhausted fuel. -/
def resolve? [Inhabited T] [DecidableEq T] (ms : List (Move T)) : Option (MoveVecWithScratch T) :=
  if ms.length ≤ 1 then some (.NoScratch ms)
  else
    let ms := (dedup (sortMoves ms)).filter (fun m => decide (m.src ≠ m.dst))
    if !sourcesOverlapDests ms then some (.NoScratch ms)
    else
      match outer ms (mustComeBefore ms) (ms.length + 1) (List.replicate ms.length .ToDo) [] false with
      | none => none
      | some (ret, used) => some (if used then .Scratch ret else .NoScratch ret)

/-- Substitution of the scratch location for `Allocation::none()`,
`/repo/src/moves.rs:253-258`. -/
def fillScratch (s : Allocation) (m : Move T) : Move T :=
  { m with
    src := if m.src.isNone then s else m.src
    dst := if m.dst.isNone then s else m.dst }

/-- `/repo/src/moves.rs:240-263` `with_scratch`. -/
def withScratch (s : Allocation) : MoveVecWithScratch T → List (Move T)
  | .NoScratch ms => ms
  | .Scratch ms => ms.map (fillScratch s)

/-- `/repo/src/moves.rs:266-271` `without_scratch`. -/
def withoutScratch : MoveVecWithScratch T → Option (List (Move T))
  | .NoScratch ms => some ms
  | .Scratch _ => none

/-- `/repo/src/moves.rs:274-279` `needs_scratch`. -/
def needsScratch : MoveVecWithScratch T → Bool
  | .NoScratch _ => false
  | .Scratch _ => true

/-! ### `MoveAndScratchResolver`, moves.rs:304-455 -/

/-- The resolver's environment. The two `FnMut` callbacks are modelled by the
sequence of answers they give: `findReg i` / `getSlot i` is the answer to the
`i`-th call (`/repo/src/moves.rs:304-323`). -/
structure ScratchEnv where
  findReg : Nat → Option Allocation
  getSlot : Nat → Allocation
  isStack : Allocation → Bool
  borrowed : PReg

/-- `/repo/src/moves.rs:452-454`. -/
def ScratchEnv.isS2S (e : ScratchEnv) (m : Move T) : Bool := e.isStack m.src && e.isStack m.dst

/-- The loop over the moves, `/repo/src/moves.rs:382-437`; returns the
moves pushed from here on. `none` is the `expect` panic at line 424. -/
def expand [Inhabited T] (e : ScratchEnv) (scratchReg : Allocation) (saveSlot : Option Allocation) :
    List (Move T) → (scratchDirty saveDirty : Bool) → Option (List (Move T))
  | [], scratchDirty, _ =>
    -- lines 439-446
    match saveSlot with
    | some s => if scratchDirty then some [⟨s, scratchReg, default⟩] else some []
    | none => some []
  | m :: ms, scratchDirty, saveDirty =>
    if e.isS2S m then
      let pre : List (Move T) × Bool :=
        match saveSlot with
        | some s => if saveDirty then ([⟨scratchReg, s, default⟩], false) else ([], saveDirty)
        | none => ([], saveDirty)
      match expand e scratchReg saveSlot ms true pre.2 with
      | none => none
      | some r => some (pre.1 ++ ⟨m.src, scratchReg, m.t⟩ :: ⟨scratchReg, m.dst, m.t⟩ :: r)
    else
      let restore : Option (List (Move T) × Bool) :=
        if m.src = scratchReg ∧ scratchDirty = true then
          match saveSlot with
          | none => none
          | some s => some ([⟨s, scratchReg, default⟩], false)
        else some ([], scratchDirty)
      match restore with
      | none => none
      | some (pre, scratchDirty) =>
        let (scratchDirty, saveDirty) :=
          if m.dst = scratchReg then (false, true) else (scratchDirty, saveDirty)
        match expand e scratchReg saveSlot ms scratchDirty saveDirty with
        | none => none
        | some r => some (pre ++ m :: r)

/-- `/repo/src/moves.rs:330-450` `compute`. `fc`/`sc` count the calls made so
far to the two callbacks. -/
def compute? [Inhabited T] (e : ScratchEnv) (mv : MoveVecWithScratch T) : Option (List (Move T)) :=
  let (moves, fc, sc) :=
    if needsScratch mv then
      match e.findReg 0 with
      | some r => (withScratch r mv, 1, 0)
      | none => (withScratch (e.getSlot 0) mv, 1, 1)
    else (withScratch Allocation.none mv, 0, 0)
  if !(moves.any e.isS2S) then some moves
  else
    match e.findReg fc with
    | some r => expand e r none moves false true
    | none => expand e (Allocation.reg e.borrowed) (some (e.getSlot sc)) moves false true

end Moves

end Regalloc
