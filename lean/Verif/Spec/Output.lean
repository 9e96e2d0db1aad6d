import Verif.Model.Output

/-
Specification of the output accessors.
-/
namespace Regalloc

/-- What iterating over instructions `lo .. hi` must yield: before each
instruction `i` the edits attached just before `i` or just after `i - 1` (for the
first instruction only those just before it), in list order, then `i`. -/
def blockItems (edits : List (Nat × Edit)) (lo hi : Nat) : List InstOrEdit :=
  (List.range' lo (hi - lo)).flatMap fun i =>
    (edits.filter fun pe => ptBefore lo ≤ pe.1 ∧ ptBefore i ≤ pe.1 + 1 ∧ pe.1 ≤ ptBefore i).map
      (fun pe => InstOrEdit.edit pe.2) ++ [.inst i]

/-- The edits of an iteration. -/
def InstOrEdit.edit? : InstOrEdit → Option Edit
  | .edit e => some e
  | .inst _ => none

/-- The instructions of an iteration. -/
def InstOrEdit.inst? : InstOrEdit → Option Nat
  | .edit _ => none
  | .inst i => some i

/-- Edits are sorted by program point. -/
def SortedEdits (edits : List (Nat × Edit)) : Prop := edits.Pairwise (fun a b => a.1 ≤ b.1)

/-- A write history of operand slots: `(instruction, slot, allocation)`. -/
abbrev SlotWrites := List (Nat × Nat × Allocation)

/-- The last value written to a slot. -/
def SlotWrites.last (ws : SlotWrites) (i slot : Nat) : Allocation :=
  ws.foldl (fun acc w => if w.1 = i ∧ w.2.1 = slot then w.2.2 else acc) Allocation.none

/-- Replaying a history on a table. -/
def replayWrites : SlotWrites → List Allocation × List Nat → Option (List Allocation × List Nat)
  | [], t => some t
  | w :: ws, t =>
    match setAlloc t w.1 w.2.1 w.2.2 with
    | none => none
    | some t' => replayWrites ws t'

/-- Every write addresses an operand that exists. -/
def SlotWrites.Valid (lens : List Nat) (ws : SlotWrites) : Prop :=
  ∀ w ∈ ws, ∃ n, lens[w.1]? = some n ∧ w.2.1 < n

end Regalloc
