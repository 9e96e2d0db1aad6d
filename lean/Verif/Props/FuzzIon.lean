import Verif.Spec.FuzzIon
import Verif.Proofs.FuzzMachine
import Verif.Props.FuzzFunc
import Verif.Props.Pipeline
import Verif.Props.Accepts
import Verif.Props.Run

/-
C52: the fuzz target for the backtracking allocator never fails.
-/
namespace Regalloc.FuzzGen

open Pipeline (Input)

/-- What was proved about the allocator applies to generated functions. -/
theorem ion_applies {opts : Options} (ho : OptionsOk opts) (hm : Moderate opts) {s s' : List Nat} {x : Fn} (h : generate opts s = .ok (x, s'))
    {i : Input} (hi : InputOf x i) : Pipeline.ProgramOk i ∧ Pipeline.RegsOk i ∧ Pipeline.Serviceable i ∧ ¬ Pipeline.Overcommitted i ∧
      (∀ v, v < 2 ^ 30 → ¬ Liveness.MayRead i.f i.f.entry v) ∧ (∀ j, (i.f.operands j).length ≤ 2 ^ 16) ∧
      Pipeline.BranchLast i.f ∧ Pipeline.InOrder i.f ∧ Pipeline.PlainReuse i.f := by
  have hS := generate_size opts s x s' h
  have hv := C51_valid ho h
  have hord := (C51_ssa ho h).2.2.2.1
  obtain ⟨⟨g, n, es, plans, nv, xs, hB, -⟩, -⟩ := built ho h
  have hmax : VReg.MAX = 1073741823 := by decide
  have hV : x.numVregs ≤ VReg.MAX := Nat.le_trans hS.vregs (Nat.le_trans hm.vregs (by omega))
  have hI : x.insts.length ≤ 2 ^ 30 := Nat.le_trans hS.insts hm.insts
  refine ⟨Api.programOk_of_valid (by rw [hi.func]; exact hv) (hB.ionShape hV hI hi.func hi.vreg), hB.regsOk hV hi.func hi.env hi.size,
    hB.serviceable (Nat.le_trans hS.vregs (Nat.le_trans hm.vregs (by omega))) hi.func hi.env hi.size, hB.not_overcommitted hS hm.regs hi.func hi.env, ?_, ?_, ?_, ?_, ?_⟩
  · intro v _
    rw [hi.func]
    exact hB.not_mayRead_entry hV v
  · intro j
    rw [hi.func]
    obtain ⟨cl, hz, -⟩ := Built.each hS j
    exact Nat.le_trans hz.ops hm.ops
  · rw [hi.func]; exact hB.branchLast
  · rw [hi.func]; exact hord
  · rw [hi.func]; exact hB.plainReuse

/-- C52. The backtracking allocator terminates on every generated function with an allocation that
the checker accepts, and that behaves like the function. -/
theorem C52_allocates {opts : Options} (ho : OptionsOk opts) (hm : Moderate opts) {s s' : List Nat} {x : Fn} (h : generate opts s = .ok (x, s'))
    {i : Input} (hi : InputOf x i) : ∃ N out, (∀ m, N ≤ m → Pipeline.run { i with fuel := m } = .ok out) ∧
      Checker.run? x.func machineEnv out = some [] ∧ ∀ ks, Exec.SameOn x.func out ks := by
  obtain ⟨hp, hr, hs, h1, h2, h3, h4, h5, h6⟩ := ion_applies ho hm h hi
  obtain ⟨N, out, hN, hfit, -⟩ := Pipeline.C42_total_partial (Val := Unit) hp hr hs hi.total h1 h2 h3
  have hfit' : Pipeline.Fits { i with fuel := N } out := hfit
  refine ⟨N, out, hN, ?_, ?_⟩
  · have := Pipeline.C44_checker_accepts_partial (hp.fuel N) (hr.fuel N) (hN N (Nat.le_refl _)) hfit' h4 h5 h6
    rw [← hi.func, ← hi.env]
    exact this
  · intro ks Val sem junk V A
    have := Pipeline.C41_same_behaviour_partial (hp.fuel N) (hr.fuel N) (hN N (Nat.le_refl _)) hfit' sem junk ks A V
    rw [← hi.func]
    exact this

/-- C52. The fuzz target does not fail, whatever the input, whether or not it validates the
function: neither does the allocator report an error or panic, nor does the checker. -/
theorem C52_target {opts : Options} (ho : OptionsOk opts) (hm : Moderate opts) {s s' : List Nat} {x : Fn} (h : generate opts s = .ok (x, s'))
    {i : Input} (hi : InputOf x i) (checkSsa : Bool) : ∃ N, ∀ m, N ≤ m → ionTarget { i with fuel := m } checkSsa = .ok () := by
  obtain ⟨N, out, hN, hc, -⟩ := C52_allocates ho hm h hi
  refine ⟨N, fun m hle => ?_⟩
  have hv := C51_valid ho h
  rw [← hi.func] at hv
  rw [← hi.func, ← hi.env] at hc
  obtain ⟨info, e1, e2⟩ := (Api.validate_iff i.f).mp hv
  have hrun : Api.ionRun { i with fuel := m } checkSsa = .ok out := by
    unfold Api.ionRun
    dsimp only
    rw [e1]
    dsimp only
    cases checkSsa with
    | false => exact hN m hle
    | true =>
      rw [if_pos rfl, e2]
      exact hN m hle
  unfold ionTarget
  rw [hrun]
  dsimp only
  rw [hc]

/-- The options of the target. -/
theorem ionOptions_ok : OptionsOk ionOptions ∧ Moderate ionOptions :=
  ⟨⟨by decide, by decide, by decide, by decide, by decide, by decide⟩, ⟨by decide, by decide, by decide, by decide⟩⟩

/-- C52. So `fuzz/fuzz_targets/ion.rs` does not fail. -/
theorem C52_ion_target {s s' : List Nat} {x : Fn} (h : generate ionOptions s = .ok (x, s')) {i : Input} (hi : InputOf x i) (checkSsa : Bool) :
    ∃ N, ∀ m, N ≤ m → ionTarget { i with fuel := m } checkSsa = .ok () :=
  C52_target ionOptions_ok.1 ionOptions_ok.2 h hi checkSsa

section Example

/-- What the allocator is given for `x`, with one way to order hash maps and sort. -/
def inputOf (x : Fn) (fuel : Nat) : Input where
  f := x.func
  vreg := fun v => ((allWrites x.func).find? (fun w => w.vreg == v)).getD (VReg.new v .Int)
  multi := false
  env := machineEnv
  size := slotSize
  byLast := false
  ord := ⟨id, fun l => .refl l⟩
  tie := ⟨fun _ l => l, fun _ l => .refl l⟩
  total := fun _ _ => 0
  fuel := fuel

/-- A write is found by its number when no two share it. -/
theorem find_write {l : List VReg} (h : (l.map VReg.vreg).Nodup) {w : VReg} (hw : w ∈ l) : l.find? (fun u => u.vreg == w.vreg) = some w := by
  induction l with
  | nil => cases hw
  | cons a t ih =>
    rw [List.map_cons, List.nodup_cons] at h
    rw [List.find?_cons]
    rcases List.mem_cons.mp hw with rfl | hw
    · rw [beq_self_eq_true]
    · have : (a.vreg == w.vreg) = false := by
        rw [beq_eq_false_iff_ne]
        intro e
        exact h.1 (e ▸ List.mem_map_of_mem hw)
      rw [this]
      exact ih h.2 hw

/-- There is such an input for every generated function. -/
theorem inputOf_ok {opts : Options} (ho : OptionsOk opts) {s s' : List Nat} {x : Fn} (h : generate opts s = .ok (x, s')) (fuel : Nat) :
    InputOf x (inputOf x fuel) := by
  refine ⟨rfl, rfl, rfl, ?_, fun _ _ _ _ _ => rfl⟩
  intro w hw
  have hn : ((allWrites x.func).map VReg.vreg).Nodup := (C51_ssa ho h).2.2.2.2.1.nodup_iff.mpr List.nodup_range
  show ((allWrites x.func).find? (fun u => u.vreg == w.vreg)).getD (VReg.new w.vreg .Int) = w
  rw [find_write hn hw]
  rfl

example : ∃ x s', generate ionOptions (demoChoices 1500 24) = .ok (x, s') ∧ features x = [4, 43, 112, 0, 4, 6, 3, 13, 1, 110] ∧
    InputOf x (inputOf x 0) := by
  have h : (match generate ionOptions (demoChoices 1500 24) with | .ok (x, _) => some (features x) | .error _ => none) =
      some [4, 43, 112, 0, 4, 6, 3, 13, 1, 110] := by decide +kernel
  cases hg : generate ionOptions (demoChoices 1500 24) with
  | error e => rw [hg] at h; cases h
  | ok r =>
    rw [hg] at h
    exact ⟨r.1, r.2, rfl, Option.some.inj h, inputOf_ok ionOptions_ok.1 hg 0⟩

end Example

end Regalloc.FuzzGen
