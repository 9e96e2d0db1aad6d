import Verif.Proofs.RedundantMoves

/-
C19: eliding redundant moves does not change the machine state.
-/
namespace Regalloc
namespace RedundantMoves

open Moves (Store)

variable {V : Type}

theorem elided_eq (es : List (Event V)) : ∀ (s : RedundantMoves) (σ : Store V), Inv s σ →
    runElided s σ es = runAll σ es := by
  induction es with
  | nil => intros; rfl
  | cons ev es ih =>
    intro s σ I
    cases ev with
    | move src dst v =>
      simp only [runElided, runAll]
      rw [process_state I]
      exact ih _ _ (process_ok I src dst v).2
    | clobber a g =>
      simp only [runElided, runAll]
      exact ih _ _ (inv_clear I (fun l hl => by simp [hl])).1
    | reset g =>
      simp only [runElided, runAll]
      exact ih _ _ (inv_empty _)

/-- C19. For every sequence of moves, clobbers (with any new value) and resets (with
any new state), from any state, skipping the moves that are elided gives the same
final state; applied to every prefix, the same state at every step. -/
theorem C19_elision_preserves_state (es : List (Event V)) (σ : Store V) : runElided empty σ es = runAll σ es :=
  elided_eq es empty σ (inv_empty σ)

/-- C19, at the level of the emitted code. Let `ms` be all resolved moves in position
order and let instructions change only their definitions, clobbers and the scratch
registers. Executing any block `[lo, hi)` from any state with only the moves that the
driver keeps gives the same state as with all of them, at the end and at every program
point inside. -/
theorem C19_block_execution_unchanged (e : RMEnv) (ms : List PMove) (hs : ms.Pairwise (fun a b => a.pos ≤ b.pos))
    (eff : Nat → Store V → Store V) (he : EffOk e eff) (b lo hi : Nat)
    (hblk : ∀ i, e.insnBlock i = b ↔ lo ≤ i ∧ i < hi) (n : Nat) (hn : 2 * lo + n ≤ 2 * hi) (σ : Store V) :
    runPoints eff (drive e empty 0 ms) (2 * lo) n σ = runPoints eff ms (2 * lo) n σ := by
  by_cases h0 : lo = 0
  · subst h0
    exact drive_main e eff he ms empty 0 _ σ (inv_empty σ) hs (fun _ _ => Nat.zero_le _)
  · exact drive_before e eff he b lo hi (fun i h => ((hblk i).mp h).1) (fun i h1 h2 => (hblk i).mpr ⟨h1, h2⟩) n hn ms
      empty 0 σ (by omega) hs

/-- C19. The same at every program point inside the block. -/
theorem C19_block_prefix_unchanged (e : RMEnv) (ms : List PMove) (hs : ms.Pairwise (fun a b => a.pos ≤ b.pos))
    (eff : Nat → Store V → Store V) (he : EffOk e eff) (n : Nat) (σ : Store V) (q : Nat) (hq : ∀ m ∈ ms, q ≤ m.pos) :
    runPoints eff (drive e empty q ms) q n σ = runPoints eff ms q n σ :=
  drive_main e eff he ms empty q n σ (inv_empty σ) hs hq

/-- C19. Only moves are removed: what is kept is a subsequence of the input. -/
theorem C19_kept_is_subsequence (e : RMEnv) (s : RedundantMoves) (last : Nat) (ms : List PMove) :
    (drive e s last ms).Sublist ms := by
  induction ms generalizing s last with
  | nil => exact List.Sublist.refl _
  | cons m ms ih =>
    simp only [drive]
    split
    · exact (ih _ _).cons m
    · exact (ih _ _).cons_cons m

/-- C19, the eliminator does something: directly after a move between a register and
any location, both the same move and its reverse are elided. -/
theorem C19_repeat_is_elided (s : RedundantMoves) (a b : Allocation) (v w : Option VReg) (hr : (a.isReg || b.isReg) = true)
    (hab : a ≠ b) : ((s.processMove a b v).2.processMove a b w).1 = true ∧
      ((s.processMove a b v).2.processMove b a w).1 = true := by
  have hd : decide (a = b) = false := by simpa using hab
  have hd' : decide (b = a) = false := by simpa using fun e => hab e.symm
  have h1 : ∃ u, ((s.processMove a b v).2).allocs b = .Copy a u := by
    refine ⟨v.or (vregOf (s.allocs a)), ?_⟩
    unfold processMove
    simp only [hd, hr, if_true]
    cases v <;> simp [set]
  obtain ⟨u, h1⟩ := h1
  generalize (s.processMove a b v).2 = s1 at h1
  have hr' : (b.isReg || a.isReg) = true := by rw [Bool.or_comm]; exact hr
  constructor
  · unfold processMove
    simp only [hd, hr, if_true]
    cases w <;> simp [elides, h1]
  · unfold processMove
    simp only [hd', hr', if_true]
    cases w <;> simp [elides, h1]

/-- Concrete: spill, then reload with no change in between (elided), then a clobber of
the register and a reload (kept). -/
example :
    let r := Allocation.reg (PReg.new 1 .Int)
    let s := Allocation.stack (SpillSlot.new 0)
    let s1 := (empty.processMove r s none).2
    (s1.processMove s r none).1 = true ∧ ((s1.clearAlloc r).processMove s r none).1 = false := by
  decide +kernel

/-- Concrete instance of the block theorem's hypotheses: two instructions in block 0, the
first defines `r1`; a spill, a reload that is elided, and a reload after the definition. -/
example :
    let r := Allocation.reg (PReg.new 1 .Int)
    let s := Allocation.stack (SpillSlot.new 0)
    let f : Func := ⟨2, 1, 0, fun _ => (0, 2), fun _ => [], fun _ => [], fun _ => [], fun i => i = 1, fun _ => false,
      fun _ _ _ => [], fun i => if i = 0 then [⟨VReg.new 1 .Int, .Reg, .Def, .Late⟩] else [], fun _ => [], 2⟩
    let e : RMEnv := ⟨f, fun _ _ => r, fun i => if i < 2 then 0 else 1, []⟩
    (drive e empty 0 [⟨0, r, s, none⟩, ⟨0, s, r, none⟩, ⟨1, s, r, none⟩]).map PMove.pos = [0, 1] := by
  decide +kernel

end RedundantMoves
end Regalloc
