import Verif.Model.RangeMap

/-
Specification for C25 and C26: ranges as sets of program points.
-/
namespace Regalloc

/-- Program point `p` lies in the range. -/
def RKey.Covers (k : RKey) (p : Nat) : Prop := k.fr ≤ p ∧ p < k.to

/-- The range is not empty. -/
def RKey.Nonempty (k : RKey) : Prop := ∃ p, k.Covers p

/-- Two ranges share a program point. -/
def RKey.Meets (a b : RKey) : Prop := ∃ p, a.Covers p ∧ b.Covers p

/-- All points of `a` are before all points of `b`. -/
def RKey.Before (a b : RKey) : Prop := ∀ p q, a.Covers p → b.Covers q → p < q

/-- Nonempty ranges in ascending order, no two sharing a point. -/
def RangesSorted {α : Type} (m : List (RKey × α)) : Prop :=
  (∀ e ∈ m, e.1.Nonempty) ∧ m.Pairwise (fun a b => a.1.Before b.1)

end Regalloc

namespace Regalloc.PregMap

/-- Bundles are well formed: the ranges of each are sorted and disjoint, and each
range names its bundle. -/
def Pool.Bundles (s : Pool) : Prop :=
  ∀ b, RangesSorted (s.ranges b) ∧ ∀ r ∈ s.ranges b, s.bundleOf r.2 = b

/-- Histories of the register maps. `fixed p` lists the ranges reserved on register `p`. -/
inductive Reachable : (Nat → List RKey) → Pool → Prop
  /-- Nothing is recorded; any well-formed bundles. -/
  | init (s : Pool) : s.Bundles → (∀ p, s.maps p = []) → (∀ b, s.alloc b = none) → Reachable (fun _ => []) s
  /-- A range of a register is reserved (clobber or fixed operand). -/
  | reserve {fixed s m} (p : Nat) (k : RKey) : Reachable fixed s → k.Nonempty → PregMap.reserve (s.maps p) k = some m →
      Reachable (fun q => if q = p then k :: fixed q else fixed q) { s with maps := fun q => if q = p then m else s.maps q }
  /-- An attempt to give an unallocated bundle a register, whatever the answer. -/
  | attempt {fixed s r s'} (weight : Nat → Nat) (maxCost : Option Nat) (b p : Nat) : Reachable fixed s →
      s.alloc b = none → s.ranges b ≠ [] → s.tryAlloc weight maxCost b p = some (r, s') → Reachable fixed s'
  /-- A bundle is evicted. -/
  | evict {fixed s} (b : Nat) : Reachable fixed s → Reachable fixed (s.evict b)
  /-- Bundles without a register are split, merged or created. -/
  | reshape {fixed s s'} : Reachable fixed s → s'.Bundles → s'.maps = s.maps → s'.alloc = s.alloc →
      (∀ b, s.alloc b ≠ none → s'.ranges b = s.ranges b) → Reachable fixed s'

/-- Bundle `b` shares a program point with range `k`. -/
def Pool.BundleMeets (s : Pool) (b : Nat) (k : RKey) : Prop := ∃ r ∈ s.ranges b, r.1.Meets k

/-- Bundles `b` and `c` share a program point. -/
def Pool.Interfere (s : Pool) (b c : Nat) : Prop := ∃ r ∈ s.ranges c, s.BundleMeets b r.1

end Regalloc.PregMap
