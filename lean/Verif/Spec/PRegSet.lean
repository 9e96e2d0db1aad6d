/-
Specification for C06: histories of set operations, interpreted over
mathematical sets (predicates) of registers and over `PRegSet`.
-/
import Verif.Model.PRegSet

namespace Regalloc

/-- A history of `PRegSet` operations; binary operations take another history. -/
inductive SetHist
  | empty
  | add (h : SetHist) (r : PReg)
  | with_ (h : SetHist) (r : PReg)
  | remove (h : SetHist) (r : PReg)
  | union (h g : SetHist)
  | inter (h g : SetHist)
  | invert (h : SetHist)
  | ofList (l : List PReg)

/-- Set-theoretic meaning of a history. -/
def SetHist.mem : SetHist → PReg → Prop
  | .empty, _ => False
  | .add h r, p => p = r ∨ h.mem p
  | .with_ h r, p => p = r ∨ h.mem p
  | .remove h r, p => p ≠ r ∧ h.mem p
  | .union h g, p => h.mem p ∨ g.mem p
  | .inter h g, p => h.mem p ∧ g.mem p
  | .invert h, p => ¬ h.mem p
  | .ofList l, p => p ∈ l

/-- Running a history on the modelled implementation. -/
def SetHist.run : SetHist → PRegSet
  | .empty => PRegSet.empty
  | .add h r => h.run.add r
  | .with_ h r => h.run.with_ r
  | .remove h r => h.run.remove r
  | .union h g => h.run.unionFrom g.run
  | .inter h g => h.run.intersectFrom g.run
  | .invert h => h.run.invert
  | .ofList l => PRegSet.ofList l

end Regalloc
