import Verif.Model.SpillSlots
import Verif.Spec.RangeMap

/-
Specification for C22 and C23: which stack words a spill slot of a given size takes.
-/
namespace Regalloc.Spill

/-- First word of a slot named `slot` that takes `size` words. A slot is named by its
first word, or by its last one if the client asks for that
(`multi_spillslot_named_by_last_slot`, `/repo/src/lib.rs:1330-1341`). -/
def firstWord (byLast : Bool) (slot size : Nat) : Nat := if byLast then slot + 1 - size else slot

/-- Stack word `w` belongs to the slot. -/
def Occupies (byLast : Bool) (slot size w : Nat) : Prop :=
  firstWord byLast slot size ≤ w ∧ w < firstWord byLast slot size + size

/-- `n` is a power of two. -/
def Pow2 (n : Nat) : Prop := ∃ k, n = 2 ^ k

end Regalloc.Spill
