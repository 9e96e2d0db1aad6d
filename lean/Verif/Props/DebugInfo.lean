import Verif.Proofs.DebugPipe
import Verif.Spec.DebugInfo
import Verif.Props.Pipeline

/-
C48: the locations the backtracking allocator reports for debugging. Where a location is
reported for a label, the value of the labelled register is there; a location is reported just
where the register is live and labelled; the report is sorted. It is wrong after a branch to a
block with several predecessors, and two entries of one label may overlap.
-/
namespace Regalloc.Debug

open Exec Pipeline
open Apply (Data FuncB FuncB')

/-- C48. Every reported entry comes from a label and lies within its extent. At all points of the
entry, once the instruction or the moves there have been executed, the location holds the value
of the register: on every path, whatever instructions compute and whatever registers hold
initially.

Partial: the branch at the end of a block is left out if it leads to a block with several
predecessors (see `C48_edge_violation`). At the point before an instruction, the instruction
must not define the register, and if one of its outputs reuses an input of another register, the
entry must continue behind it. For `ProgramOk` see C41. -/
theorem C48_locations_hold_partial {i : Input} (hp : ProgramOk i) (hr : RegsOk i) {out : Output} (h : run i = .ok out) (hfit : Fits i out)
    {labels : List Label} (hl : ∀ L ∈ labels, L.vreg = i.vreg L.vreg.vreg) {locs : List Loc} (hd : debugLocations i labels = .ok locs)
    {l s t : Nat} {a : Allocation} (hm : (l, s, t, a) ∈ locs) :
    ∃ L ∈ labels, L.label = l ∧ ptBefore L.fr ≤ s ∧ t ≤ ptBefore L.to ∧
      ∀ b j, b < i.f.numBlocks → j ∈ i.f.blockInsts b → ¬ IntoJoin i.f b j →
        (s ≤ ptAfter j → ptAfter j < t → Locates i.f out L.vreg a b (ptAfter j)) ∧
        (s ≤ ptBefore j → ptBefore j < t → ¬ DefinesIn i.f j L.vreg.vreg → (ReusesOther i.f j L.vreg.vreg → ptAfter j < t) →
          Locates i.f out L.vreg a b (ptBefore j)) := by
  obtain ⟨fr, q, ss, slots, num, ms, allocs, edits, s', H, hdl⟩ := ran_debug hp hr h labels
  rw [hdl] at hd
  cases hd
  obtain ⟨v, -, r, hrv, L, hL, h1, h2, rfl, rfl, rfl, rfl⟩ := mem_locations.mp hm
  obtain ⟨hL', rfl⟩ := mem_labelsOf hL
  refine ⟨L, hL', rfl, Nat.le_max_left _ _, Nat.min_le_left _ _, ?_⟩
  intro b j hb hj hn
  have key := range_locates hp hr H hfit hrv hb hj hn
  rw [← hl L hL'] at key
  constructor
  · intro g1 g2
    exact key.1 ⟨by omega, by omega⟩
  · intro g1 g2 g3 g4
    refine key.2 ⟨by omega, by omega⟩ g3 ?_
    intro k o m o' k1 k2 k3 k4
    have := g4 ⟨k, o, m, o', k1, k2, k3, k4⟩
    exact ⟨by unfold ptAfter ptBefore at *; omega, by omega⟩

/-- C48. A location is reported for a label at a point just if some register has this label there
and is live there: its value may be read later, on some path, or it has just been defined. -/
theorem C48_covers {i : Input} (hp : ProgramOk i) (hr : RegsOk i) {out : Output} (h : run i = .ok out)
    {labels : List Label} (hs : labels.Pairwise (fun a b => a.vreg.vreg ≤ b.vreg.vreg)) {locs : List Loc}
    (hd : debugLocations i labels = .ok locs) {b p l : Nat} (hb : b < i.f.numBlocks) (hin : Build.InBlock i.f b p) :
    (∃ s t a, (l, s, t, a) ∈ locs ∧ s ≤ p ∧ p < t) ↔
      ∃ L ∈ labels, L.label = l ∧ ptBefore L.fr ≤ p ∧ p < ptBefore L.to ∧ L.vreg.vreg < i.f.numVregs ∧
        Build.LiveAt i.f (Liveness.MayReadAfter i.f b L.vreg.vreg ∨ Build.PassedOn i.f b L.vreg.vreg) b L.vreg.vreg p := by
  obtain ⟨fr, q, ss, slots, num, ms, allocs, edits, s', H, hdl⟩ := ran_debug hp hr h labels
  rw [hdl] at hd
  cases hd
  constructor
  · rintro ⟨s, t, a, hm, g1, g2⟩
    obtain ⟨v, hv, r, hrv, L, hL, h1, h2, rfl, rfl, rfl, rfl⟩ := mem_locations.mp hm
    obtain ⟨hL', rfl⟩ := mem_labelsOf hL
    exact ⟨L, hL', rfl, by omega, by omega, hv, (ranges_live hp H hv hb hin).mp ⟨r, hrv, by omega, by omega⟩⟩
  · rintro ⟨L, hL, rfl, g1, g2, hv, hlive⟩
    obtain ⟨r, hrv, g3, g4⟩ := (ranges_live hp H hv hb hin).mpr hlive
    exact ⟨_, _, _, mem_locations.mpr ⟨L.vreg.vreg, hv, r, hrv, L, labelsOf_all hs hL, by omega, by omega, rfl, rfl, rfl, rfl⟩, by omega, by omega⟩

/-- C48. The entries are sorted by label, then by their first points. -/
theorem C48_sorted {i : Input} {labels : List Label} {locs : List Loc} (hd : debugLocations i labels = .ok locs) :
    locs.Pairwise (fun x y => x.1 < y.1 ∨ x.1 = y.1 ∧ x.2.1 ≤ y.2.1) := by
  have key : ∀ x : Apply.Env, (locations x labels).Pairwise (fun x y => x.1 < y.1 ∨ x.1 = y.1 ∧ x.2.1 ≤ y.2.1) := by
    intro x
    refine (pairwise_isort (le := locLe) (fun a b c h1 h2 => lexLe_trans _ _ _ h1 h2) (fun a b => lexLe_total _ _) _).imp ?_
    intro a b h
    unfold locLe lexLe lexLe at h
    grind
  unfold debugLocations at hd
  split at hd
  · cases hd
  split at hd
  · cases hd
  · cases hd
  · cases hd
  split at hd
  · cases hd
  cases hd
  exact key _

/-- C48. Locations are reported whenever there is an allocation. -/
theorem C48_total {i : Input} (hp : ProgramOk i) (hr : RegsOk i) {out : Output} (h : run i = .ok out) (labels : List Label) :
    ∃ locs, debugLocations i labels = .ok locs := by
  obtain ⟨fr, q, ss, slots, num, ms, allocs, edits, s', H, hdl⟩ := ran_debug hp hr h labels
  exact ⟨_, hdl⟩

/-! ### Non-vacuity, and where the claims fail -/

private def P (n : Nat) : PReg := .new n .Int
private def V (n : Nat) : VReg := .new n .Int
private def use (n : Nat) (c : OperandConstraint := .Any) : Op := ⟨V n, c, .Use, .Early⟩
private def define (n : Nat) (c : OperandConstraint := .Any) : Op := ⟨V n, c, .Def, .Late⟩

/-- Each register has its number as label, everywhere. -/
def numbered (n : Nat) : List Label := (List.range n).map (fun v => ⟨V v, 0, 6, v⟩)

/-- What is reported, if anything. -/
def reported (i : Input) (labels : List Label) : Option (List Loc) :=
  match debugLocations i labels with | .ok locs => some locs | .error _ => none

example : reported (demo demoData 3) (numbered 4) = some
    [(0, 1, 4, .reg (P 1)), (1, 1, 8, .reg (P 2)), (1, 10, 12, .reg (P 2)), (2, 4, 5, .reg (P 1)), (3, 5, 9, .reg (P 1)),
      (3, 10, 12, .reg (P 1))] := by decide +kernel
example : ∀ L ∈ numbered 4, L.vreg = (demo demoData 3).vreg L.vreg.vreg := by decide +kernel
example : (numbered 4).Pairwise (fun a b => a.vreg.vreg ≤ b.vreg.vreg) := by decide +kernel
example : ∀ out, demoOut 3 = some out → Fits (demo demoData 3) out := by
  intro out h
  have h1 : (demoOut 3).map Output.numSpillslots = some 0 := by decide +kernel
  rw [h] at h1
  have h1 : out.numSpillslots = 0 := Option.some.inj h1
  unfold Fits
  rw [h1]
  decide

/-- A loop that swaps two values each time round. -/
def swapData : Data where
  blocks := [
    { insns := (0, 2), succs := [1], args := [[V 0, V 1]] },
    { insns := (2, 3), succs := [2, 3], preds := [0, 2], params := [V 2, V 3], args := [[], []] },
    { insns := (3, 4), succs := [1], preds := [1], args := [[V 3, V 2]] },
    { insns := (4, 5), preds := [1] }]
  insts := [
    { ops := [define 0, define 1] },
    { branch := true },
    { branch := true },
    { branch := true },
    { ops := [use 2 .Reg, use 3 .Reg], ret := true }]
  vregs := [(V 0, []), (V 1, []), (V 2, []), (V 3, [])]

theorem swapFuncB : FuncB swapData := by constructor <;> decide +kernel
theorem swapFuncB' : FuncB' swapData := by constructor <;> decide +kernel

/-- The definitions write the numbers of the operands. -/
private def count : Sem Nat := fun _ => { early := fun _ _ k => k, late := fun _ _ _ k => k }

/-- After one pass through the loop header, the point after the branch back: label 2 is reported
in a register that holds something else. -/
private def swapCheck (f : Func) (out : Output) (locs : List Loc) : Bool :=
  decide (out.numSpillslots = 0) && decide ((2, 4, 9, Allocation.reg (P 2)) ∈ locs) &&
    match allocReach f out count (fun _ _ => 9) [0, 0] f.entry (fun _ => 7) [], origReach f count [0, 0] f.entry (fun _ => 8) [] with
    | some (b, A', trA), some (b', V', trV) => decide (b = 2) && decide (b' = 2) &&
      decide ((allocItems f out count (fun _ _ => 9) (upTo out (f.insns 2).1 7) A' trA).1 (Allocation.reg (P 2)) ≠
        (origInsts f count (List.range' (f.insns 2).1 ((7 + 1) / 2 - (f.insns 2).1)) V' trV).1 (V 2))
    | _, _ => false

/-- C48 fails: the moves for the parameters of a block with several predecessors are made before
the branch of the predecessor, but locations are reported as if they were made behind it. So
after that branch the reported location may hold the value of another register. -/
theorem C48_edge_violation : ∃ i out labels locs, ProgramOk i ∧ RegsOk i ∧ run i = .ok out ∧ Fits i out ∧
    (∀ L ∈ labels, L.vreg = i.vreg L.vreg.vreg) ∧ labels.Pairwise (fun a b => a.vreg.vreg ≤ b.vreg.vreg) ∧
    (labels.map Label.label).Nodup ∧ debugLocations i labels = .ok locs ∧
    ∃ L s t a b j, L ∈ labels ∧ (L.label, s, t, a) ∈ locs ∧ b < i.f.numBlocks ∧ j ∈ i.f.blockInsts b ∧ s ≤ ptAfter j ∧ ptAfter j < t ∧
      ¬ Locates i.f out L.vreg a b (ptAfter j) := by
  have hrun : (match run (demo swapData 3), debugLocations (demo swapData 3) (numbered 4) with
    | .ok out, .ok locs => swapCheck (demo swapData 3).f out locs | _, _ => false) = true := by decide +kernel
  cases h : run (demo swapData 3) with
  | error e => rw [h] at hrun; cases hrun
  | ok out =>
    cases hd : debugLocations (demo swapData 3) (numbered 4) with
    | error e => rw [h, hd] at hrun; cases hrun
    | ok locs =>
      rw [h, hd] at hrun
      dsimp only at hrun
      unfold swapCheck at hrun
      simp only [Bool.and_eq_true, decide_eq_true_eq] at hrun
      obtain ⟨⟨h1, h2⟩, h3⟩ := hrun
      refine ⟨demo swapData 3, out, numbered 4, locs, ?_, ?_, h, ?_, by decide +kernel, by decide +kernel, by decide +kernel, hd, ⟨V 2, 0, 6, 2⟩, 4, 9,
        .reg (P 2), 2, 3, by decide +kernel, h2, by decide +kernel, by decide +kernel, by decide, by decide, ?_⟩
      · exact programOk_of (d := swapData) (place := fun _ => .reg (P 1)) rfl rfl swapFuncB swapFuncB' (by constructor <;> decide +kernel)
      · exact regsOk_of (d := swapData) rfl swapFuncB (by constructor <;> decide +kernel)
      · unfold Fits
        rw [h1]
        decide
      · intro hloc
        split at h3
        · rename_i b A' trA b' V' trV ha hb
          simp only [Bool.and_eq_true, decide_eq_true_eq] at h3
          obtain ⟨⟨rfl, rfl⟩, h3⟩ := h3
          exact h3 (hloc Nat count (fun _ _ => 9) [0, 0] (fun _ => 8) V' (fun _ => 7) A' trA trV ha hb)
        · cases h3

/-- A value that is read from a register while all registers are clobbered. -/
def spilledData : Data where
  blocks := [{ insns := (0, 5) }]
  insts := [
    { ops := [define 0] },
    { ops := [use 0 .Reg, use 0] },
    { ops := [use 0 .Reg], clobbers := [P 0, P 1, P 2] },
    { ops := [use 0], clobbers := [P 0, P 1, P 2] },
    { ops := [use 0 .Reg], ret := true }]
  vregs := [(V 0, [])]

theorem spilledFuncB : FuncB spilledData := by constructor <;> decide +kernel
theorem spilledFuncB' : FuncB' spilledData := by constructor <;> decide +kernel

/-- C48 fails: a label on a single register has two entries for one point, although the ranges of
a label are said to be disjoint. -/
theorem C48_disjoint_violation : ∃ i out L locs, ProgramOk i ∧ RegsOk i ∧ run i = .ok out ∧ Fits i out ∧ L.vreg = i.vreg L.vreg.vreg ∧
    debugLocations i [L] = .ok locs ∧
    ∃ s t a s' t' a' p, (L.label, s, t, a) ∈ locs ∧ (L.label, s', t', a') ∈ locs ∧ a ≠ a' ∧ s ≤ p ∧ p < t ∧ s' ≤ p ∧ p < t' := by
  have hrun : (match run (demo spilledData 3), debugLocations (demo spilledData 3) [⟨V 0, 0, 6, 0⟩] with
    | .ok out, .ok locs => decide (out.numSpillslots = 1 ∧ (0, 4, 5, Allocation.reg (P 0)) ∈ locs ∧
      (0, 4, 6, Allocation.stack (SpillSlot.new 0)) ∈ locs) | _, _ => false) = true := by decide +kernel
  cases h : run (demo spilledData 3) with
  | error e => rw [h] at hrun; cases hrun
  | ok out =>
    cases hd : debugLocations (demo spilledData 3) [⟨V 0, 0, 6, 0⟩] with
    | error e => rw [h, hd] at hrun; cases hrun
    | ok locs =>
      rw [h, hd] at hrun
      dsimp only at hrun
      obtain ⟨h1, h2, h3⟩ := of_decide_eq_true hrun
      refine ⟨demo spilledData 3, out, ⟨V 0, 0, 6, 0⟩, locs, ?_, ?_, h, ?_, by decide +kernel, hd, _, _, _, _, _, _, 4, h2, h3, by decide +kernel,
        by decide, by decide, by decide, by decide⟩
      · exact programOk_of (d := spilledData) (place := fun _ => .reg (P 1)) rfl rfl spilledFuncB spilledFuncB' (by constructor <;> decide +kernel)
      · exact regsOk_of (d := spilledData) rfl spilledFuncB (by constructor <;> decide +kernel)
      · unfold Fits
        rw [h1]
        decide

end Regalloc.Debug
