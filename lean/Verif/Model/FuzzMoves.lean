import Verif.Model.FuzzFunc
import Verif.Model.Moves

/-
Model of `/repo/src/fuzzing/moves.rs`: the fuzz target for parallel moves.
-/
namespace Regalloc.FuzzMoves

open Regalloc.FuzzGen (G flip intIn)

/-- `/repo/src/fuzzing/moves.rs:9-16` `is_stack_alloc`. -/
def isStackAlloc (a : Allocation) : Bool :=
  match a.asReg with
  | some r => decide (r.index > 20)
  | none => a.isStack

/-- `/repo/src/fuzzing/moves.rs:20-23` `TestCase`. -/
structure Case where
  moves : List (Allocation × Allocation)
  avail : List Allocation
  deriving DecidableEq, Repr

/-- `/repo/src/fuzzing/moves.rs:35-41` and `:42-48`. -/
def anyLoc : G Allocation := do
  let r ← flip
  if r then do
    let e ← intIn 0 29
    pure (Allocation.reg (PReg.new e .Int))
  else do
    let s ← intIn 0 31
    pure (Allocation.stack (SpillSlot.new s))

/-- `/repo/src/fuzzing/moves.rs:34-58`: the loop. `written` holds just the destinations of the moves
so far. -/
def genMoves : Nat → List (Allocation × Allocation) → G (List (Allocation × Allocation))
  | 0, _ => .fail .panic
  | fuel + 1, ms => do
    let more ← flip
    if more then do
      let src ← anyLoc
      let dst ← anyLoc
      if dst ∈ ms.map Prod.snd then pure ms else genMoves fuel (ms ++ [(src, dst)])
    else pure ms

/-- `/repo/src/fuzzing/moves.rs:25-68` `arbitrary`. Each round of the loop takes a choice, and it ends
when there are none left. -/
def genCase : G Case := fun s => (do
  let ms ← genMoves (s.length + 1) []
  let k ← intIn 0 2
  pure ⟨ms, (List.range k).map (fun i => Allocation.reg (PReg.new (30 + i) .Int))⟩ : G Case) s

/-- `/repo/src/fuzzing/moves.rs:81-96`: the callbacks. `avail.pop()` yields the last register first. -/
def scratchEnv (t : Case) : Moves.ScratchEnv where
  findReg := fun i => t.avail.reverse[i]?
  getSlot := fun i => Allocation.stack (SpillSlot.new (32 + i))
  isStack := isStackAlloc
  borrowed := PReg.new 0 .Int

/-- A hash map as a list of its entries, in any order. -/
abbrev Map := List (Allocation × Allocation)

def Map.get (m : Map) (k : Allocation) : Option Allocation := (m.find? (fun e => decide (e.1 = k))).map Prod.snd

def Map.put (m : Map) (k v : Allocation) : Map := (k, v) :: m.filter (fun e => decide (e.1 ≠ k))

/-- `/repo/src/fuzzing/moves.rs:102-105` `final_src_per_dest`. -/
def expected (t : Case) : Map := t.moves.foldl (fun m p => m.put p.2 p.1) []

/-- `/repo/src/fuzzing/moves.rs:109-113` `locations`. -/
def simulate (ms : List (Move Unit)) : Map := ms.foldl (fun m p => m.put p.dst ((m.get p.src).getD p.src)) []

/-- `reg.as_stack().unwrap().index() >= 32`; `none` is not met, as the allocation is a slot. -/
def highSlot : Option SpillSlot → Bool
  | some s => decide (s.index ≥ 32)
  | none => false

/-- `/repo/src/fuzzing/moves.rs:117-131`: the assertion about one location. -/
def assertion (t : Case) (reg data : Allocation) : Bool :=
  match (expected t).get reg with
  | some e => decide (e = data)
  | none =>
    if data ≠ reg then
      decide (reg ∈ t.avail) || (reg.isStack && highSlot reg.asStack)
    else true

/-- How the target fails: `resolve` or `compute` panics, or an assertion does not hold. -/
inductive Fail
  | panic | assertion
  deriving DecidableEq, Repr

/-- `/repo/src/fuzzing/moves.rs:109-131`: the moves pass the assertions. -/
def passes (t : Case) (out : List (Move Unit)) : Bool := (simulate out).all (fun e => assertion t e.1 e.2)

/-- `/repo/src/fuzzing/moves.rs:70-132` `check`. -/
def check (t : Case) : Except Fail Unit :=
  match Moves.resolve? (t.moves.map (fun p => (⟨p.1, p.2, ()⟩ : Move Unit))) with
  | none => .error .panic
  | some r =>
    match Moves.compute? (scratchEnv t) r with
    | none => .error .panic
    | some out => if passes t out then .ok () else .error .assertion

end Regalloc.FuzzMoves
