/-
Specification for C01-C03: what moves do to a store.
-/
import Verif.Model.Moves

namespace Regalloc.Moves

/-- A store gives every location a value. -/
abbrev Store (V : Type u) := Allocation → V

/-- Executing one move: the destination gets the source's value. -/
def step {T : Type} {V : Type u} (σ : Store V) (m : Move T) : Store V :=
  fun l => if l = m.dst then σ m.src else σ l

/-- Executing a sequence of moves, first to last. -/
def exec {T : Type} {V : Type u} (σ : Store V) (ms : List (Move T)) : Store V := ms.foldl step σ

/-- The documented precondition of `ParallelMoves`: each destination has one
writer (an exact duplicate of a move is harmless). -/
def UniqueWriters {T : Type} (ms : List (Move T)) : Prop :=
  ∀ m ∈ ms, ∀ m' ∈ ms, m.dst = m'.dst → m = m'

/-- All locations in the moves are real ones (not `Allocation::none()`). -/
def RealLocs {T : Type} (ms : List (Move T)) : Prop :=
  ∀ m ∈ ms, m.src.isNone = false ∧ m.dst.isNone = false

/-- `l` takes part in the moves. -/
def Mentions {T : Type} (ms : List (Move T)) (l : Allocation) : Prop :=
  ∃ m ∈ ms, m.src = l ∨ m.dst = l

/-- `Feeds ms b a`: some non-trivial move copies `a` into `b`. -/
def Feeds {T : Type} (ms : List (Move T)) (b a : Allocation) : Prop :=
  ∃ m ∈ ms, m.src = a ∧ m.dst = b ∧ a ≠ b

/-- The moves contain a cycle of locations. -/
def HasCycle {T : Type} (ms : List (Move T)) : Prop :=
  ∃ a, Relation.TransGen (Feeds ms) a a

/-- What a client promises about the scratch resolver's callbacks, for given
moves: registers offered are free real registers, slots offered are fresh stack
slots, no answer repeats, and the borrowed register is not itself a stack
location. The borrowed register *may* take part in the moves. The promise is
needed for the first two answers of each callback only. -/
structure ScratchEnv.Ok {T : Type} (e : ScratchEnv) (ms : List (Move T)) : Prop where
  reg_free : ∀ i < 2, ∀ r, e.findReg i = some r →
    e.isStack r = false ∧ r.isNone = false ∧ ¬ Mentions ms r
  reg_distinct : ∀ r, ¬ (e.findReg 0 = some r ∧ e.findReg 1 = some r)
  slot_free : ∀ i < 2,
    e.isStack (e.getSlot i) = true ∧ (e.getSlot i).isNone = false ∧ ¬ Mentions ms (e.getSlot i)
  slot_distinct : e.getSlot 0 ≠ e.getSlot 1
  borrowed_reg : e.isStack (Allocation.reg e.borrowed) = false

/-- `l` is one of the first two answers of a callback. -/
def ScratchEnv.Offered (e : ScratchEnv) (l : Allocation) : Prop :=
  ∃ i < 2, e.findReg i = some l ∨ e.getSlot i = l

end Regalloc.Moves
