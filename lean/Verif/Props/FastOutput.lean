import Verif.Proofs.FastSorted
import Verif.Proofs.FastRun
import Verif.Props.FastTotal
import Verif.Props.Checker

/-
C46: what the single-pass allocator returns is well formed, whatever the constraints on definitions
are: its edits are in order, every operand has a location, and the checker gives an answer.
-/
namespace Regalloc
namespace Fast

/-- The instructions are those of the blocks, and no block is empty. -/
structure BlocksFilled (f : Func) : Prop where
  nonempty : ∀ b, b < f.numBlocks → (f.insns b).1 < (f.insns b).2
  within : ∀ b, b < f.numBlocks → (f.insns b).2 ≤ f.numInsts

section
variable (cx : Cx) (C : Nat → VReg) (hf : Workable cx C) (hn : BlocksFilled cx.f) (out : Output) (h : run cx = .ok out)
include hf hn h

/-- C46. The edits are in the order of their points. -/
theorem C46_edits_sorted : SortedEdits out.edits := by
  unfold run at h
  split at h
  · cases h
  · next t ht =>
    cases h
    exact runEnv_srt hf.layout hn.nonempty ht

/-- C46. Each instruction has as many locations as it has operands. -/
theorem C46_all_operands {b i : Nat} (hb : b < cx.f.numBlocks) (hi : i ∈ cx.f.blockInsts b) :
    ∃ as, out.instAllocs i = some as ∧ as.length = (cx.f.operands i).length := by
  unfold run at h
  split at h
  · cases h
  · next t ht =>
    cases h
    have h1 := hn.within b hb
    have h2 := (mem_blockInsts.mp hi).2
    exact ⟨_, instAllocs_outputOf cx t (by omega), by simp⟩

/-- C46. The checker gives an answer on the output: it does not panic. -/
theorem C46_checker_answers : ∃ es, Checker.run? cx.f cx.env out = some es := by
  refine Checker.C14_checker_returns cx.f cx.env out ⟨hf.succs, C46_edits_sorted cx C hf hn out h,
    fun _ hb _ hi => C46_all_operands cx C hf hn out h hb hi, ?_, ?_⟩
  · intro b hb i hi hbr k s hs
    rw [hf.branch_last b hb i hi hbr]
    exact hf.lengths b hb k s hs
  · intro b hb i hi o ho k hk
    obtain ⟨-, oj, hj, -⟩ := (hf.operands b hb i hi).reuse o ho k hk
    exact (List.getElem?_eq_some_iff.mp hj).1
end

/-- The hypotheses are met by the example of C28: a loop with parameters, spills and clobbers. -/
example : BlocksFilled Ex.cx.f ∧ ∃ out, run Ex.cx = .ok out ∧ out.edits ≠ [] := by
  obtain ⟨out, h, h1, _⟩ := Ex.succeeds
  refine ⟨⟨Ex.funcOk.nonempty, ?_⟩, out, h, h1⟩
  have : ∀ b ∈ List.range Ex.cx.f.numBlocks, (Ex.cx.f.insns b).2 ≤ Ex.cx.f.numInsts := by decide +kernel
  exact fun b hb => this b (List.mem_range.mpr hb)

end Fast
end Regalloc
