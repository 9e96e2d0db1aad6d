import Verif.Spec.Ctx

/-
C36: what ran before does not matter to a run on a reused context.
-/
namespace Regalloc
open Reuse

private theorem used_inv {α : Type} {c : Ctx α} (h : Used c) :
    (c.pregs.length = 0 ∨ c.pregs.length = 256) ∧ c.scratchWorkqueue = [] ∧ c.scratchRemovedLrsVregs = [] ∧
    ∀ s ∈ c.scratchSpillsetPool, s = [] := by
  induction h with
  | fresh => simp [Ctx.default]
  | early info _ ih => exact ih
  | @run c0 c1 f env info an vs _ hl ih =>
    obtain ⟨h1, h2, h3, h4⟩ := ih
    refine ⟨.inr ?_, hl.workqueue, hl.removed, ?_⟩
    · rw [hl.pregs]
      have : ∀ (l : List PReg) (ps : List (PRegData α)),
          (l.foldl (fun ps p => ps.modify p.index (fun d => { d with isStack := true })) ps).length = ps.length := by
        intro l
        induction l with
        | nil => intro ps; rfl
        | cons p l ih => intro ps; rw [List.foldl_cons, ih, List.length_modify]
      simp only [Ctx.begin, Ctx.takeScratch, Ctx.create]
      rw [this]
      simp only [Ctx.reset, Ctx.analyse, resize, List.length_append, List.length_take, List.length_map, List.length_replicate]
      omega
    · intro s hs
      obtain ⟨rest, hr⟩ := hl.pool
      have hm : s ∈ (Ctx.begin c0 f env info an vs).scratchSpillsetPool := by rw [hr]; simp [hs]
      simp only [Ctx.begin, Ctx.takeScratch, Ctx.create, Ctx.reset, Ctx.analyse, List.mem_append, List.mem_map] at hm
      rcases hm with hm | ⟨_, _, rfl⟩
      · exact h4 s hm
      · rfl

/-- C36. After any history of runs on one context, successful or failed, a run begins in
the same state as on a new context, field by field. The one exception is the pool of
recycled range sets: it may not be empty, but all that is ever taken from it is an empty
set, just as when the pool is empty. -/
theorem C36_reuse {α : Type} (c : Ctx α) (h : Used c) (f : Func) (env : MachineEnv) (info : List (List α)) (annotations : Bool)
    (victims : List PReg) :
    let a := c.begin f env info annotations victims
    let b := (Ctx.default α).begin f env info annotations victims
    { a with scratchSpillsetPool := b.scratchSpillsetPool } = b ∧
    b.scratchSpillsetPool = [] ∧ ∀ s ∈ a.scratchSpillsetPool, s = [] := by
  obtain ⟨h1, h2, h3, h4⟩ := used_inv h
  intro a b
  refine ⟨?_, rfl, ?_⟩
  · have hp : resize (c.pregs.map (fun _ => (⟨false, []⟩ : PRegData α))) 256 ⟨false, []⟩ =
        resize ([] : List (PRegData α)) 256 ⟨false, []⟩ := by
      unfold resize
      rw [List.map_const']
      rcases h1 with h1 | h1
      · rw [h1]; rfl
      · rw [h1, List.length_replicate, List.take_of_length_le (by rw [List.length_replicate]; omega), Nat.sub_self, List.replicate_zero,
          List.append_nil, List.take_nil, List.nil_append, List.length_nil, Nat.sub_zero]
    simp only [a, b, Ctx.begin, Ctx.takeScratch, Ctx.create, Ctx.reset, Ctx.analyse, hp, h2, h3]
    rfl
  · intro s hs
    simp only [a, Ctx.begin, Ctx.takeScratch, Ctx.create, Ctx.reset, Ctx.analyse, List.mem_append, List.mem_map] at hs
    rcases hs with hs | ⟨_, _, rfl⟩
    · exact h4 s hs
    · rfl

/-- C36. So every range set taken from the pool during a run is empty, as with a new
context, and the pool stays one of empty sets. -/
theorem C36_pool {α : Type} (pool : List (List α)) (h : ∀ s ∈ pool, s = []) :
    (popPool pool).1 = (popPool ([] : List (List α))).1 ∧ ∀ s ∈ (popPool pool).2, s = [] := by
  unfold popPool
  refine ⟨?_, fun s hs => h s (List.dropLast_subset pool hs)⟩
  cases hl : pool.getLast? with
  | none => rfl
  | some s => simp [h s (List.mem_of_getLast? hl)]

/-- A context that went through a run with leftovers in nearly every field. -/
example (f : Func) (env : MachineEnv) :
    Used { (Ctx.default Nat).begin f env [[1]] true [] with
      liveins := [3], spillslots := [[4, 5], [6]], ranges := [1, 2], conflictSet := [7], scratchBundle := [8] } :=
  .run f env [[1]] true [] .fresh ⟨rfl, rfl, rfl, [], by simp⟩

end Regalloc
