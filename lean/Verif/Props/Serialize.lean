import Verif.Model.Serialize

/-
C30: a serializable copy answers every query like the function it was made from.
-/
namespace Regalloc
open Serialize

/-- C30. For every function without empty blocks the copy exists; every query about a
valid block or instruction succeeds and gives the original answer. `is_branch` agrees on
instructions that are not also returns, and branch arguments agree for the block's last
instruction, the only one the interface allows to be asked about. -/
theorem C30_queries_agree (f : Client) (env : MachineEnv) (hne : ∀ b < f.numBlocks, (f.insns b).1 < (f.insns b).2) :
    ∃ c, Copy.new? f env = some c ∧
      c.machineEnv = env ∧ c.entryBlock = f.entry ∧ c.numInsts = f.numInsts ∧ c.numBlocks = f.numBlocks ∧
      c.numVregs = f.numVregs ∧ c.debugValueLabels = f.debugLabels ∧ c.multiNamedByLast = f.multiNamedByLast ∧
      c.allowMultipleDefs = f.allowMultipleDefs ∧
      (∀ r, c.slotSize r = some (f.spillslotSize r)) ∧
      (∀ b < f.numBlocks, c.blockInsns b = some (f.insns b) ∧ c.succs b = some (f.succs b) ∧
        c.preds b = some (f.preds b) ∧ c.params b = some (f.params b) ∧
        ∀ k < (f.succs b).length, c.args b (f.lastInst b) k = some (f.args b (f.lastInst b) k)) ∧
      (∀ i < f.numInsts, c.operands i = some (f.operands i) ∧ c.clobbers i = some (f.clobbers i) ∧
        c.isRet i = some (f.isRet i) ∧ (¬ (f.isRet i = true ∧ f.isBranch i = true) → c.isBranch i = some (f.isBranch i))) := by
  have hc : (List.range f.numBlocks).all (fun b => (f.insns b).1 < (f.insns b).2) = true := by
    simpa using hne
  refine ⟨_, by unfold Copy.new?; rw [if_pos hc], rfl, rfl, ?_, ?_, rfl, rfl, rfl, rfl, ?_, ?_, ?_⟩
  · simp [Copy.numInsts]
  · simp [Copy.numBlocks]
  · intro r; cases r <;> rfl
  · intro b hb
    simp only [Copy.blockInsns, Copy.succs, Copy.preds, Copy.params, Copy.args, List.getElem?_map,
      List.getElem?_range hb, Option.map_some, true_and]
    intro k hk
    simp [hk]
  · intro i hi
    simp only [Copy.operands, Copy.clobbers, Copy.isRet, Copy.isBranch, List.getElem?_map,
      List.getElem?_range hi, Option.map_some, true_and, opcode]
    cases f.isRet i <;> cases f.isBranch i <;> simp

/-- C30, limits of the claim: an instruction that is both a return and a branch is only a
return in the copy; a function with an empty block cannot be copied. -/
theorem C30_limits (f : Client) (env : MachineEnv) (c : Copy) :
    (Copy.new? f env = some c → ∀ i < f.numInsts, f.isRet i = true → f.isBranch i = true → c.isBranch i = some false) ∧
    (∀ b < f.numBlocks, (f.insns b).2 ≤ (f.insns b).1 → Copy.new? f env = none) := by
  constructor
  · intro h i hi hr hb
    unfold Copy.new? at h
    split at h
    · simp only [Option.some.injEq] at h
      subst h
      simp [Copy.isBranch, hi, opcode, hr]
    · simp at h
  · intro b hb he
    unfold Copy.new?
    rw [if_neg]
    simp only [List.all_eq_true, List.mem_range, decide_eq_true_eq]
    intro h
    have := h b hb
    omega

/-! ### A concrete case -/

private def client : Client where
  numInsts := 3
  numBlocks := 2
  entry := 0
  insns := fun b => if b = 0 then (0, 2) else (2, 3)
  succs := fun b => if b = 0 then [1, 1] else []
  preds := fun b => if b = 1 then [0, 0] else []
  params := fun b => if b = 1 then [.new 1 .Int] else []
  isRet := fun i => i = 2
  isBranch := fun i => i = 1
  args := fun b i k => if b = 0 ∧ i = 1 then [.new k .Int] else []
  operands := fun i => if i = 0 then [⟨.new 0 .Int, .Any, .Def, .Late⟩] else []
  clobbers := fun _ => []
  numVregs := 2
  debugLabels := []
  spillslotSize := fun r => match r with | .Int => 1 | .Float => 1 | .Vector => 2
  multiNamedByLast := false
  allowMultipleDefs := false

example : ∀ b, b < client.numBlocks → (client.insns b).1 < (client.insns b).2 := by
  intro b _
  by_cases h : b = 0
  · subst h; decide
  · simp [client, h]

example : (Copy.new? client ⟨fun _ => .empty, fun _ => .empty, fun _ => none, []⟩).map (fun c => (c.args 0 1 1, c.args 0 1 2)) =
    some (some [.new 1 .Int], none) := by decide +kernel
example : (Copy.new? client ⟨fun _ => .empty, fun _ => .empty, fun _ => none, []⟩).map (fun c => (c.isBranch 1, c.isRet 2)) =
    some (some true, some true) := by decide +kernel

end Regalloc
