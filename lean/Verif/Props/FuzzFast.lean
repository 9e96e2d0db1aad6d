import Verif.Proofs.FuzzFast
import Verif.Props.FuzzIon
import Verif.Props.FastFit
import Verif.Props.FastOutput

/-
C54: on every generated function, the single-pass allocator succeeds, and the checker gives an
answer.
-/
namespace Regalloc.FuzzGen

open Pipeline (Input)

/-- What was proved about the single-pass allocator (C46, C47) applies to generated functions. -/
theorem fast_applies {opts : Options} (ho : OptionsOk opts) (hm : FastModerate opts) {s s' : List Nat} {x : Fn} (h : generate opts s = .ok (x, s'))
    {i : Input} (hi : InputOf x i) : Fast.EnvOk (Api.fastCx i) ∧ Fast.Workable (Api.fastCx i) i.vreg ∧ Fast.SlotsFit (Api.fastCx i) ∧
      Fast.Roomy (Api.fastCx i) i.vreg := by
  have hS := generate_size opts s x s' h
  obtain ⟨⟨g, n, es, plans, nv, xs, hB, -⟩, -⟩ := built ho h
  have h1 : VReg.MAX = 1073741823 := by decide
  have h2 : SpillSlot.MAX = 16777215 := by decide
  have hV : x.numVregs ≤ VReg.MAX := by
    have := hS.vregs
    have := hm.slots
    omega
  have hz : ∀ c, (Api.fastCx i).size c = (slotSize c).toNat := fun c => by
    show (i.size c).toNat = _
    rw [hi.size]
  exact ⟨Built.fastEnv hi.env hz, hB.workable hV hi.func hi.env hi.vreg, hB.slotsFit hS hm hi.func hz, hB.roomy hS hm hi.func hi.env⟩

/-- C54. The single-pass allocator succeeds on every generated function: it neither panics nor
reports that there are too few registers, whether or not it validates the function first. -/
theorem C54_allocates {opts : Options} (ho : OptionsOk opts) (hm : FastModerate opts) {s s' : List Nat} {x : Fn} (h : generate opts s = .ok (x, s'))
    {i : Input} (hi : InputOf x i) : ∃ out, ∀ checkSsa, Api.run i ⟨checkSsa, .fastalloc⟩ = .ok out := by
  obtain ⟨h1, h2, h3, h4⟩ := fast_applies ho hm h hi
  obtain ⟨out, hr⟩ := Fast.C47_enough_registers_partial _ _ h1 h2 h3 h4
  have hv : Api.validate i.f = .ok () := by rw [hi.func]; exact C51_valid ho h
  have hf : Api.fastRun i = .ok out := by
    unfold Api.fastRun
    rw [hr]
  refine ⟨out, fun checkSsa => ?_⟩
  unfold Api.run
  dsimp only
  cases checkSsa with
  | false => exact hf
  | true =>
    rw [if_pos rfl, hv]
    exact hf

/-- C54. The checker gives an answer on what the allocator has done: it does not panic. -/
theorem C54_checker_answers {opts : Options} (ho : OptionsOk opts) (hm : FastModerate opts) {s s' : List Nat} {x : Fn} (h : generate opts s = .ok (x, s'))
    {i : Input} (hi : InputOf x i) {checkSsa : Bool} {out : Output} (hr : Api.run i ⟨checkSsa, .fastalloc⟩ = .ok out) :
    ∃ es, Checker.run? x.func machineEnv out = some es := by
  obtain ⟨h1, h2, h3, h4⟩ := fast_applies ho hm h hi
  obtain ⟨⟨g, n, es, plans, nv, xs, hB, -⟩, -⟩ := built ho h
  obtain ⟨out', hr'⟩ := Fast.C47_enough_registers_partial _ _ h1 h2 h3 h4
  have e : out' = out := by
    obtain ⟨out2, h5⟩ := C54_allocates ho hm h hi
    have h6 := h5 false
    rw [h5 checkSsa] at hr
    unfold Api.run at h6
    dsimp only at h6
    change Api.fastRun i = .ok out2 at h6
    unfold Api.fastRun at h6
    rw [hr'] at h6
    cases h6
    cases hr
    rfl
  subst e
  have hc := Fast.C46_checker_answers _ _ h2 ?_ _ hr'
  · change ∃ es, Checker.run? i.f i.env out' = some es at hc
    rw [hi.func, hi.env] at hc
    exact hc
  · show Fast.BlocksFilled i.f
    rw [hi.func]
    refine ⟨fun b hb => ?_, fun b hb => ?_⟩
    · rw [hB.numBlocks] at hb
      rw [(hB.insns hb).1]
      exact (hB.insns hb).2
    · rw [hB.numBlocks] at hb
      rw [(hB.insns hb).1, ← hB.off_end]
      exact Built.off_mono _ _ hb

/-- C54. So the fuzz target succeeds, or reports the errors the checker has found. (Missing: that
there are none. The correctness of the single-pass allocator, C28, is proved for functions without
definitions that may be anywhere, which generated functions have.) -/
theorem C54_target_partial {opts : Options} (ho : OptionsOk opts) (hm : FastModerate opts) {s s' : List Nat} {x : Fn} (h : generate opts s = .ok (x, s'))
    {i : Input} (hi : InputOf x i) : ∃ out es, (∀ checkSsa, Api.run i ⟨checkSsa, .fastalloc⟩ = .ok out) ∧
      Checker.run? x.func machineEnv out = some es ∧
      ∀ checkSsa, fastTarget i checkSsa = if es = [] then .ok () else .error (.checker es) := by
  obtain ⟨out, hr⟩ := C54_allocates ho hm h hi
  obtain ⟨es, he⟩ := C54_checker_answers ho hm h hi (hr true)
  refine ⟨out, es, hr, he, fun checkSsa => ?_⟩
  unfold fastTarget
  rw [hr checkSsa, hi.func, hi.env]
  dsimp only
  rw [he]
  cases es <;> simp

/-- The options of the target. -/
theorem fastOptions_ok : OptionsOk fastOptions ∧ FastModerate fastOptions :=
  ⟨⟨by decide, by decide, by decide, by decide, by decide, by decide⟩, ⟨by decide, by decide⟩⟩

/-- C54. So `fuzz/fuzz_targets/fastalloc.rs` fails only by an error the checker has found: nothing
panics, neither in the allocator nor in the checker. -/
theorem C54_fast_target {s s' : List Nat} {x : Fn} (h : generate fastOptions s = .ok (x, s')) {i : Input} (hi : InputOf x i) (checkSsa : Bool) :
    ∀ e, fastTarget i checkSsa = .error e → ∃ es, es ≠ [] ∧ e = .checker es := by
  obtain ⟨out, es, -, -, ht⟩ := C54_target_partial fastOptions_ok.1 fastOptions_ok.2 h hi
  intro e he
  rw [ht] at he
  split at he
  · cases he
  · cases he
    exact ⟨es, by assumption, rfl⟩

section Example

example : ∃ x s', generate fastOptions (demoChoices 1500 110) = .ok (x, s') ∧ features x = [6, 43, 137, 1, 8, 5, 3, 10, 4, 109] ∧
    InputOf x (inputOf x 0) := by
  have h : (match generate fastOptions (demoChoices 1500 110) with | .ok (x, _) => some (features x) | .error _ => none) =
      some [6, 43, 137, 1, 8, 5, 3, 10, 4, 109] := by decide +kernel
  cases hg : generate fastOptions (demoChoices 1500 110) with
  | error e => rw [hg] at h; cases h
  | ok r =>
    rw [hg] at h
    exact ⟨r.1, r.2, rfl, Option.some.inj h, inputOf_ok fastOptions_ok.1 hg 0⟩

end Example

end Regalloc.FuzzGen
