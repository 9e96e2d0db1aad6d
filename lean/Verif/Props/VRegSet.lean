import Verif.Proofs.VRegSet

/-
C16: the live register set of fastalloc.
-/
namespace Regalloc
namespace VRegSet

/-- C16. After any valid history, no operation panicked and iteration yields
exactly the registers inserted and not removed since, most recent first;
`is_empty` agrees. -/
theorem C16_history (n : Nat) (ops : List SetOp) (h : ValidHist n [] ops) :
    ∃ s, run? (withCapacity n) ops = some s ∧ s.toList? = some (absRun [] ops) ∧
      s.isEmpty? = some (absRun [] ops).isEmpty := by
  obtain ⟨s, e, I⟩ := run_ok ops (new_inv n) h
  exact ⟨s, e, toList_ok I, isEmpty_ok I⟩

/-- C16. Contents never hold two registers with the same number. -/
theorem C16_no_duplicates (n : Nat) (ops : List SetOp) (h : ValidHist n [] ops) :
    ((absRun [] ops).map VReg.vreg).Nodup := by
  obtain ⟨s, e, I⟩ := run_ok ops (new_inv n) h
  exact (List.nodup_cons.mp I.ring.1).2

/-- C16, limit of validity. Removing a register twice damages the list: here the
second removal of register 0 drops register 1, still present, from the iteration. -/
theorem C16_double_remove_corrupts :
    let v0 := VReg.new 0 .Int
    let v1 := VReg.new 1 .Int
    (run? (withCapacity 3) [.insert v0, .remove 0, .insert v1]).bind toList? = some [v1] ∧
    (run? (withCapacity 3) [.insert v0, .remove 0, .insert v1, .remove 0]).bind toList? = some [] := by
  refine ⟨by decide +kernel, by decide +kernel⟩

/-- Concrete: the history of the unit test shape, with a removal in the middle. -/
example :
    let ops : List SetOp := [.insert (VReg.new 1 .Int), .insert (VReg.new 4 .Float), .insert (VReg.new 2 .Int),
      .remove 4, .insert (VReg.new 3 .Int)]
    ValidHist 5 [] ops ∧ absRun [] ops = [VReg.new 3 .Int, VReg.new 2 .Int, VReg.new 1 .Int] := by
  refine ⟨?_, by decide +kernel⟩
  simp only [ValidHist, SetOp.Valid, SetOp.abs]
  decide +kernel

end VRegSet
end Regalloc
