import Verif.Proofs.ApplyFinite
import Verif.Proofs.ApplyTotal

/-
C38: giving operands their locations and inserting moves implements an assignment of
locations to live ranges. Given any valid assignment (`Valid`: where each value is to be found
at each point, without a word about moves), the inserted moves, resolved into a sequence (C37),
make the function with allocated operands behave like the original, on every path.
-/
namespace Regalloc.Apply

open ResolveMoves Exec

variable {Val : Type}

/-- C38. Whenever the pass succeeds on a valid assignment, its moves can be resolved, in
whatever order they are sorted among equals, and executing the result reads the same values as
the original function in every instruction, on every path, whatever the machine did to
clobbered registers and whatever registers and slots hold initially.

Partial: the full statement has `Accepted x` instead of `FuncOk x`, that is, functions with
clobbers on a branch to a join, and instructions with two outputs that reuse inputs. It is
false: `C38_branch_clobber_violation`, `C38_two_reuses_violation`. -/
theorem C38_moves_implement_assignment_partial {x : Env} {e : MoveEnv} {num : UInt32} {ms sorted : List InsertedMove}
    {allocs : Nat → Nat → Allocation} (hf : FuncOk x) (hv : Valid x e num.toNat) (M : MachineOk e) (hroom : Room e num.toNat)
    (ha : apply x = some (ms, allocs)) (hef : e.f = x.f) (hea : e.getAlloc = allocs) (heb : e.insnBlock = x.insnBlock)
    (hperm : sorted.Perm ms) (hsorted : sorted.Pairwise (fun a b => a.pp.key ≤ b.pp.key)) :
    ∃ edits s', resolveSorted e sorted (Slots.start num) = some (edits, s') ∧
      ∀ (sem : Sem Val) (junk : Nat → Allocation → Val) (ks : List Nat) (A : Allocation → Val) (V : VReg → Val),
        allocRun x.f (outputOf x.f s'.num.toNat edits allocs) sem junk ks x.f.entry A [] = origRun x.f sem ks x.f.entry V [] :=
  run_agrees hf hv M hroom ha hef hea heb hperm hsorted

/-- C38. The pass does not panic: if values arrive where they are needed, every move it wants to
insert has a source and a destination, and every operand gets a location. -/
theorem C38_no_panic {x : Env} {e : MoveEnv} {num : Nat} (hf : FuncOk x) (hv : Valid x e num) (ha : Arrives x) :
    apply x ≠ none := by
  obtain ⟨ma, h⟩ := apply_total hf hv ha
  rw [h]
  exact Option.some_ne_none ma

/-- C38. The locations of operands. An output that reuses an input shares its location. An
operand that a fixup copies to a fixed register, and that is not reused, is in that register.
Any other operand that is not reused is where the live range that records it is. -/
theorem C38_operand_locations {x : Env} {e : MoveEnv} {num : Nat} {ms : List InsertedMove} {allocs : Nat → Nat → Allocation}
    (hf : FuncOk x) (hv : Valid x e num) (ha : apply x = some (ms, allocs)) {i k : Nat} {o : Op} (ho : OpAt x.f i k o) :
    (∀ j, o.constraint = .Reuse j → allocs i j = allocs i k) ∧
    ((¬ ∃ k' o', OpAt x.f i k' o' ∧ o'.constraint = .Reuse k) →
      (∀ fx ∈ x.fixups, fx.pos = ptBefore i → fx.toSlot = k → allocs i k = Allocation.reg fx.preg) ∧
      ((¬ ∃ fx ∈ x.fixups, fx.pos = ptBefore i ∧ fx.toSlot = k) →
        ∃ r ∈ x.ranges o.vreg.vreg, ∃ u ∈ r.uses, u.slot = k ∧ u.pos = Build.recordPoint x.f i o ∧
          r.Has (Build.recordPoint x.f i o) ∧ allocs i k = r.alloc)) := by
  obtain ⟨srcs, psrcs, pdests, al1, al2, D⟩ := apply_done hf hv ha
  constructor
  · intro j hc
    have hno : ¬ ∃ k' o', OpAt x.f i k' o' ∧ o'.constraint = .Reuse k := by
      rintro ⟨k', o', h1, h2⟩
      obtain ⟨_, _, o'', h3, h4, _⟩ := hf.reuse i k' k o' h1 h2
      have := (hf.reuse i k j o ho hc).1
      rw [ho.eq h3, h4] at this
      cases this
    rcases D.alloc3 i j with ⟨k', o', h1, h2, h3⟩ | ⟨h1, _⟩
    · have := hf.reuse_one i k k' j j o o' ho h1 hc h2
      subst this
      rcases D.alloc3 i k with h4 | ⟨_, h4⟩
      · obtain ⟨k2, o2, h5, h6, _⟩ := h4
        exact absurd ⟨k2, o2, h5, h6⟩ hno
      · rw [h3, h4]
    · exact absurd ⟨k, o, ho, hc⟩ h1
  · intro hno
    rcases D.alloc3 i k with ⟨k', o', h1, h2, _⟩ | ⟨_, h1⟩
    · exact absurd ⟨k', o', h1, h2⟩ hno
    · rw [h1]
      constructor
      · intro fx hfx h2 h3
        rcases D.alloc2 i k with ⟨fy, h4, h5, h6, h7⟩ | ⟨h4, _⟩
        · have : fy = fx := by
            by_cases hne : fy = fx
            · exact hne
            · exact absurd (h6.trans h3.symm) (pairwise_of_ne hv.fixups_slots (fun a b h g => (h g.symm).symm) h4 hfx hne (h5.trans h2.symm))
          rw [h7, this]
        · exact absurd ⟨fx, hfx, h2, h3⟩ h4
      · intro hnf
        rcases al2_op hf hv D ho with ⟨fx, h2, h3, h4, _⟩ | h2
        · exact absurd ⟨fx, h2, h3, h4⟩ hnf
        · exact h2


/-! ### Concrete cases -/

section Example

private def P (i : Nat) : PReg := PReg.new i .Int
private def R (i : Nat) : Allocation := Allocation.reg (P i)
private def S (i : Nat) : Allocation := Allocation.stack (SpillSlot.new i)
private def V (i : Nat) : VReg := VReg.new i .Int
private def use (v : Nat) (c : OperandConstraint := .Any) (p : OperandPos := .Early) : Op := ⟨V v, c, .Use, p⟩
private def df (v : Nat) (c : OperandConstraint := .Any) (p : OperandPos := .Late) : Op := ⟨V v, c, .Def, p⟩

/-- A loop whose body permutes its parameters. Register 0 is split before the first branch, and
copied to a register that is clobbered; one input is reused while it is still needed; register 4
is in another place after the loop. -/
def loopData : Data where
  blocks := [
    { insns := (0, 3), succs := [1], args := [[V 0, V 1]] },
    { insns := (3, 5), succs := [2, 3], preds := [0, 2], params := [V 2, V 3], args := [[], []] },
    { insns := (5, 6), succs := [1], preds := [1], args := [[V 3, V 4]], live := [3, 4] },
    { insns := (6, 7), preds := [1], live := [4] }]
  insts := [
    { ops := [df 0] },
    { ops := [use 0 (.FixedReg (P 1)), use 0, df 1 (.Reuse 1)], clobbers := [P 1] },
    { branch := true },
    { ops := [use 2, use 3, df 4] },
    { branch := true },
    { branch := true },
    { ops := [use 4 .Any .Late], ret := true }]
  vregs := [
    (V 0, [⟨⟨1, 4⟩, true, [⟨df 0, 1, 0⟩, ⟨use 0, 2, 0⟩, ⟨use 0, 2, 1⟩], R 0⟩, ⟨⟨4, 6⟩, false, [], S 0⟩]),
    (V 1, [⟨⟨3, 6⟩, true, [⟨df 1 (.Reuse 1), 3, 2⟩], R 2⟩]),
    (V 2, [⟨⟨6, 7⟩, false, [⟨use 2, 6, 0⟩], R 0⟩]),
    (V 3, [⟨⟨6, 12⟩, false, [⟨use 3, 6, 1⟩], R 1⟩]),
    (V 4, [⟨⟨7, 12⟩, true, [⟨df 4, 7, 2⟩], R 2⟩, ⟨⟨12, 14⟩, false, [⟨use 4 .Any .Late, 13, 0⟩], R 3⟩])]
  ins := [⟨0, 1, 2⟩, ⟨2, 1, 2⟩, ⟨0, 1, 3⟩, ⟨2, 1, 3⟩]
  outs := [⟨0, 0, 1, 2⟩, ⟨1, 0, 1, 3⟩, ⟨3, 2, 1, 2⟩, ⟨4, 2, 1, 3⟩]
  fixups := [⟨2, 0, 0, P 1, 0, .Initial⟩]

def loopBusy : List (List (Nat × Nat)) := [[(1, 4), (6, 7)], [(2, 4), (6, 12)], [(3, 6), (7, 12)], [(12, 14)]]

theorem loopFuncB : FuncB loopData := by constructor <;> decide +kernel
theorem loopFuncB' : FuncB' loopData := by constructor <;> decide +kernel

example : FuncOk loopData.env := funcOk_of loopFuncB loopFuncB'
example : Valid loopData.env (loopData.machine loopBusy) 1 :=
  valid_of loopFuncB (by
    constructor
    case fixups => 
      intro fx hfx
      have : fx = ⟨2, 0, 0, P 1, 0, .Initial⟩ := by simpa [loopData] using hfx
      subst this
      constructor <;> decide +kernel
    all_goals decide +kernel)
theorem loopArrives : Arrives loopData.env where
  live := by
    have h : ∀ b ∈ List.range 4, ∀ v ∈ List.range 5, loopData.env.liveIn b v = true →
      ∀ p ∈ loopData.func.preds b, ∃ r ∈ loopData.env.ranges v, r.Has (exitPt loopData.func p) := by unfold FRange.Has; decide +kernel
    exact fun b v hb hv => h b (List.mem_range.mpr hb) v (List.mem_range.mpr hv)
  passed := by unfold FRange.Has; decide +kernel
  sorted := by unfold OutsSorted; decide +kernel
example : MachineOk (loopData.machine loopBusy) := Data.machineOk _ (by unfold SortedM; decide +kernel)
example : Room (loopData.machine loopBusy) 1 := by unfold Room; decide +kernel
example : apply loopData.env = some (loopData.moves, loopData.allocs) := Data.apply_eq (by decide +kernel)
example : loopData.sorted.Pairwise (fun a b => a.pp.key ≤ b.pp.key) := by decide +kernel
/-- The edits: position, source and destination. -/
example : (resolveSorted (loopData.machine loopBusy) loopData.sorted (Slots.start 1)).map
    (fun r => (r.1.map fun m => (m.pp.pos.bits.toNat, m.src, m.dst), r.2.num)) =
    some ([(2, R 0, R 1), (2, R 0, R 2), (4, R 0, S 0), (4, R 2, R 1), (10, R 1, R 0), (10, R 2, R 1), (12, R 2, R 3)], 1) := by decide +kernel

/-! ### Functions the interface accepts on which the inserted moves are wrong -/

/-- Everything required holds, except that the function is only known to be accepted, and the
result reads a different value on some path. -/
def Wrong (x : Env) (e : MoveEnv) (num : UInt32) : Prop :=
  Accepted x ∧ Valid x e num.toNat ∧ MachineOk e ∧ Room e num.toNat ∧
  ∃ ms allocs sorted edits s', apply x = some (ms, allocs) ∧ e.f = x.f ∧ e.getAlloc = allocs ∧ e.insnBlock = x.insnBlock ∧
    sorted.Perm ms ∧ sorted.Pairwise (fun a b => a.pp.key ≤ b.pp.key) ∧ resolveSorted e sorted (Slots.start num) = some (edits, s') ∧
    ∃ (sem : Sem Nat) (junk : Nat → Allocation → Nat) (ks : List Nat) (A : Allocation → Nat) (V : VReg → Nat),
      allocRun x.f (outputOf x.f s'.num.toNat edits allocs) sem junk ks x.f.entry A [] ≠ origRun x.f sem ks x.f.entry V []

/-- Each definition yields a number of its own; clobbers leave 0. -/
private def sem0 : Sem Nat := fun _ => ⟨fun i _ k => 100 + 10 * i + k, fun i _ _ k => 100 + 10 * i + k⟩

/-- Comparison of both executions along a path. -/
private def differs (d : Data) (busy : List (List (Nat × Nat))) (num : UInt32) (ks : List Nat) : Bool :=
  match resolveSorted (d.machine busy) d.sorted (Slots.start num) with
  | none => false
  | some (edits, s') =>
    allocRun d.func (outputOf d.func s'.num.toNat edits d.allocs) sem0 (fun _ _ => 0) ks 0 (fun _ => 0) [] !=
      origRun d.func sem0 ks 0 (fun _ => 0) []

private theorem wrong_of {d : Data} {busy : List (List (Nat × Nat))} {num : UInt32} {ks : List Nat} (hB : FuncB d)
    (hW : ValidB d (d.machine busy) num.toNat)
    (hm : ∀ l ∈ busy, SortedM (l.map (fun q => ((⟨q.1, q.2⟩ : RKey), (none : Option Nat)))))
    (hr : Room (d.machine busy) num.toNat) (ha : (apply d.env).isSome = true)
    (hs : d.sorted.Pairwise (fun a b => a.pp.key ≤ b.pp.key)) (hd : differs d busy num ks = true) :
    Wrong d.env (d.machine busy) num := by
  refine ⟨accepted_of hB, valid_of hB hW, d.machineOk hm, hr, ?_⟩
  unfold differs at hd
  cases hres : resolveSorted (d.machine busy) d.sorted (Slots.start num) with
  | none => rw [hres] at hd; cases hd
  | some p =>
    obtain ⟨edits, s'⟩ := p
    rw [hres] at hd
    refine ⟨d.moves, d.allocs, d.sorted, edits, s', Data.apply_eq ha, rfl, rfl, rfl, perm_isort _ _, hs, hres,
      sem0, fun _ _ => 0, ks, fun _ => 0, fun _ => 0, ?_⟩
    exact bne_iff_ne.mp hd

/-- A branch that clobbers a register and leads to the head of a loop. -/
def clobberData : Data where
  blocks := [
    { insns := (0, 2), succs := [1], args := [[V 0]] },
    { insns := (2, 4), succs := [2, 3], preds := [0, 2], params := [V 1], args := [[], []] },
    { insns := (4, 5), succs := [1], preds := [1], args := [[V 1]], live := [1] },
    { insns := (5, 6), preds := [1] }]
  insts := [
    { ops := [df 0] },
    { branch := true, clobbers := [P 1] },
    { ops := [use 1] },
    { branch := true },
    { branch := true },
    { ret := true }]
  vregs := [
    (V 0, [⟨⟨1, 4⟩, true, [⟨df 0, 1, 0⟩], R 0⟩]),
    (V 1, [⟨⟨4, 10⟩, false, [⟨use 1, 4, 0⟩], R 1⟩])]
  ins := [⟨0, 1, 1⟩, ⟨2, 1, 1⟩]
  outs := [⟨0, 0, 1, 1⟩, ⟨1, 2, 1, 1⟩]

/-- C38 fails: a branch clobbers a register and its only successor has several predecessors.
The move of an argument to its parameter is placed before the branch, which destroys it. -/
theorem C38_branch_clobber_violation : Wrong clobberData.env (clobberData.machine [[(1, 4)], [(4, 10)], [], []]) 0 :=
  wrong_of (ks := [0]) (by constructor <;> decide +kernel)
      (by constructor; case fixups => intro fx hfx; cases hfx
          all_goals decide +kernel)
      (by unfold SortedM; decide +kernel) (by unfold Room; decide +kernel) (by decide +kernel) (by decide +kernel) (by decide +kernel)

/-- An instruction with two outputs that reuse inputs; the input reused first is used once more. -/
def reusesData : Data where
  blocks := [{ insns := (0, 4) }]
  insts := [
    { ops := [df 0] },
    { ops := [df 1] },
    { ops := [use 0, use 1, use 0, df 2 (.Reuse 0), df 3 (.Reuse 1)] },
    { ops := [use 2, use 3], ret := true }]
  vregs := [
    (V 0, [⟨⟨1, 5⟩, true, [⟨df 0, 1, 0⟩, ⟨use 0, 4, 0⟩, ⟨use 0, 4, 2⟩], R 0⟩]),
    (V 1, [⟨⟨3, 6⟩, true, [⟨df 1, 3, 0⟩, ⟨use 1, 5, 1⟩], R 1⟩]),
    (V 2, [⟨⟨5, 7⟩, true, [⟨df 2 (.Reuse 0), 5, 3⟩, ⟨use 2, 6, 0⟩], R 2⟩]),
    (V 3, [⟨⟨5, 7⟩, true, [⟨df 3 (.Reuse 1), 5, 4⟩, ⟨use 3, 6, 1⟩], R 0⟩])]

/-- C38 fails: an instruction has two outputs that reuse inputs. Only inputs other than the one
reused first are kept apart from the outputs, so the second output may get the register of the
input reused first; the move into it destroys that input before another operand reads it. -/
theorem C38_two_reuses_violation : Wrong reusesData.env (reusesData.machine [[(1, 5), (5, 7)], [(3, 6)], [(5, 7)], []]) 0 :=
  wrong_of (ks := []) (by constructor <;> decide +kernel)
      (by constructor; case fixups => intro fx hfx; cases hfx
          all_goals decide +kernel)
      (by unfold SortedM; decide +kernel) (by unfold Room; decide +kernel) (by decide +kernel) (by decide +kernel) (by decide +kernel)

end Example

end Regalloc.Apply
