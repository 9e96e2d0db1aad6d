import Verif.Model.InsertedMoves
import Verif.Spec.Moves
import Verif.Spec.RedundantMoves
import Verif.Spec.SpillSlots

/-
Specification for C27 and C37: the order of edits, and what the moves inserted at one
program point with one priority have to achieve together.
-/
namespace Regalloc

/-- Earlier point, or the same point and a lower priority number. -/
def PosWithPrio.Before (a b : PosWithPrio) : Prop :=
  a.pos.bits.toNat < b.pos.bits.toNat ∨ (a.pos = b.pos ∧ a.prio.toNat < b.prio.toNat)

/-- Lexicographic order on lists of numbers of the same length. -/
def LexLt : List Nat → List Nat → Prop
  | a :: as, b :: bs => a < b ∨ (a = b ∧ LexLt as bs)
  | _, _ => False

namespace ResolveMoves

open Moves (Store exec)

/-- `p` is an allocatable register of class `c`. -/
def Allocatable (e : MoveEnv) (c : RegClass) (p : PReg) : Prop :=
  (e.machine.preferred c).contains p = true ∨ (e.machine.nonPreferred c).contains p = true

/-- What the client and the earlier phases promise about registers and slot sizes. -/
structure MachineOk (e : MoveEnv) : Prop where
  /-- No register is listed both as preferred and as non-preferred. -/
  disjoint : ∀ c p, ¬ ((e.machine.preferred c).contains p = true ∧ (e.machine.nonPreferred c).contains p = true)
  /-- Allocatable registers have their class and are not stack slots in disguise. -/
  alloc_ok : ∀ c p, Allocatable e c p → p.class? = some c ∧ e.isStackReg p = false
  /-- Dedicated scratch registers likewise, and they are not allocatable. -/
  scratch_ok : ∀ c p, e.machine.scratch c = some p → p.class? = some c ∧ e.isStackReg p = false ∧ ¬ Allocatable e c p
  /-- So is the register borrowed for a class. -/
  victim_ok : ∀ c, e.isStackReg (e.victim c) = false
  /-- Recorded ranges of a register are disjoint and sorted (C25). -/
  maps_ok : ∀ p, RangesSorted (e.maps p)
  /-- Slot sizes are powers of two. -/
  size_ok : ∀ c, Spill.Pow2 (e.size c).toNat

/-- The location is a spill slot or a register. -/
def Real (a : Allocation) : Prop := a.isStack = true ∨ ∃ p, a = Allocation.reg p

/-- `a` is read or written by one of the moves. -/
def Touches (ms : List InsertedMove) (a : Allocation) : Prop := ∃ m ∈ ms, m.src = a ∨ m.dst = a

/-- What is promised about the moves of one point and priority, when slots below `num`
are in use: every destination has one writer, locations are real, registers fit the
class of the register moved, the dedicated scratch registers take no part, and moves of
different classes do not interact. -/
structure GroupOk (e : MoveEnv) (num : Nat) (ms : List InsertedMove) : Prop where
  writers : ∀ m ∈ ms, ∀ m' ∈ ms, m.dst = m'.dst → m.src = m'.src ∧ m.vreg = m'.vreg
  real : ∀ a, Touches ms a → Real a
  cls : ∀ m ∈ ms, m.vreg.class? ≠ none ∧ ∀ p, (m.src = Allocation.reg p ∨ m.dst = Allocation.reg p) → p.class? = m.vreg.class?
  scratch : ∀ c p, e.machine.scratch c = some p → ¬ Touches ms (Allocation.reg p)
  slots : ∀ a s, Touches ms a → a.asStack = some s → s.index < num
  apart : ∀ m ∈ ms, ∀ m' ∈ ms, m.vreg.class? ≠ m'.vreg.class? → m.src ≠ m'.dst ∧ m.dst ≠ m'.dst

/-- A location nobody needs at point `pos`: a dedicated scratch register, an allocatable
register with no range recorded at the point and no part in the moves, or a stack slot
beyond those assigned to values. -/
def Spare (e : MoveEnv) (num pos : Nat) (ms : List InsertedMove) (l : Allocation) : Prop :=
  (∃ c p, e.machine.scratch c = some p ∧ l = Allocation.reg p) ∨
  (∃ c p, Allocatable e c p ∧ l = Allocation.reg p ∧ (∀ r ∈ e.maps p, ¬ r.1.Covers pos) ∧ ¬ Touches ms l) ∨
  (∃ s, l.asStack = some s ∧ num ≤ s.index)

/-- The location is in memory: a spill slot, or a register that stands for a fixed stack
slot. -/
def InMemory (e : MoveEnv) (a : Allocation) : Prop :=
  a.isStack = true ∨ ∃ p, a = Allocation.reg p ∧ e.isStackReg p = true

/-- The sequence `out` does what the moves `ms` ask for, all at once: every destination
gets the value its source had before, and nothing else changes except spare locations.
It has no move from stack to stack, and no slot beyond the final number `num'`. -/
structure Performs (e : MoveEnv) (num num' pos : Nat) (ms : List InsertedMove) (out : List (Move (Option VReg))) : Prop where
  moved : ∀ {V : Type} (σ : Store V), ∀ m ∈ ms, exec σ out m.dst = σ m.src
  kept : ∀ {V : Type} (σ : Store V) l, (∀ m ∈ ms, m.dst ≠ l) → ¬ Spare e num pos ms l → exec σ out l = σ l
  noStackToStack : ∀ m ∈ out, ¬ (InMemory e m.src ∧ InMemory e m.dst)
  real : ∀ m ∈ out, ∀ a, (a = m.src ∨ a = m.dst) → Real a ∧ ∀ s, a.asStack = some s → s.index < num'

/-- A resolved move as a move at a point. -/
def RMove.toP (m : RMove) : RedundantMoves.PMove := ⟨m.pp.pos.bits.toNat, m.src, m.dst, m.vreg⟩

/-- Register locations have the class of the virtual register. -/
def ClassFits (v : VReg) (a : Allocation) : Prop := ∀ p, a.asReg = some p → p.class? = v.class?

/-- Room for two extra slots of each class below the placeholders. -/
def Room (e : MoveEnv) (num0 : Nat) : Prop :=
  num0 + 4 * ((e.size .Int).toNat + (e.size .Float).toNat + (e.size .Vector).toNat) + 2 ≤ 2 ^ 24

/-- The result of one group: position and priority, and its resolved moves. -/
abbrev GroupOut := PosWithPrio × List (Move (Option VReg))

/-- The resolved moves of the groups in order. -/
def flat (gs : List GroupOut) : List RMove := gs.flatMap fun g => g.2.map fun x => ⟨g.1, x.src, x.dst, x.t⟩

/-- Nothing allocated yet beyond the slots of values. -/
def Slots.start (num : UInt32) : Slots := ⟨num, fun _ => []⟩

end ResolveMoves
end Regalloc
