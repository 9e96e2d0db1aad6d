import Verif.Proofs.InsertedMoves
import Verif.Props.RedundantMoves

/-
C27: the order of edits. C37: resolving all inserted moves, end to end.
-/
namespace Regalloc

open Moves (Store exec)

theorem u128Key_toNat (d c b a : UInt32) :
    (u128Key d c b a).toNat = d.toNat * 2 ^ 96 + c.toNat * 2 ^ 64 + b.toNat * 2 ^ 32 + a.toNat := by
  have ha := a.toNat_lt
  have hb := b.toNat_lt
  have hc := c.toNat_lt
  have hd := d.toNat_lt
  unfold u128Key
  simp only [BitVec.toNat_or, BitVec.toNat_shiftLeft, BitVec.toNat_setWidth, UInt32.toNat_toBitVec]
  rw [Nat.mod_eq_of_lt (a := a.toNat) (by omega), Nat.mod_eq_of_lt (a := b.toNat) (by omega),
    Nat.mod_eq_of_lt (a := c.toNat) (by omega), Nat.mod_eq_of_lt (a := d.toNat) (by omega)]
  simp only [Nat.shiftLeft_eq]
  rw [Nat.mod_eq_of_lt (a := b.toNat * 2 ^ 32) (by omega), Nat.mod_eq_of_lt (a := c.toNat * 2 ^ 64) (by omega),
    Nat.mod_eq_of_lt (a := d.toNat * 2 ^ 96) (by omega)]
  rw [Bits.or_mul (a := b.toNat) (b := a.toNat) (i := 32) (by omega), Bits.or_mul (a := c.toNat) (i := 64) (by omega),
    Bits.or_mul (a := d.toNat) (i := 96) (by omega)]
  omega

/-- C27. Comparing packed 64-bit keys is comparing the pairs they encode. -/
theorem C27_u64_key_order (b a b' a' : UInt32) :
    (u64Key b a < u64Key b' a' ↔ LexLt [b.toNat, a.toNat] [b'.toNat, a'.toNat]) ∧
    (u64Key b a = u64Key b' a' ↔ b = b' ∧ a = a') := by
  have h1 := a.toNat_lt
  have h2 := a'.toNat_lt
  constructor
  · rw [UInt64.lt_iff_toNat_lt, u64Key_toNat, u64Key_toNat]
    simp only [LexLt, and_false, or_false]
    omega
  · rw [← UInt64.toNat_inj, u64Key_toNat, u64Key_toNat, ← UInt32.toNat_inj, ← UInt32.toNat_inj]
    omega

/-- C27. Comparing packed 128-bit keys is comparing the 4-tuples they encode. -/
theorem C27_u128_key_order (d c b a d' c' b' a' : UInt32) :
    (u128Key d c b a < u128Key d' c' b' a' ↔
      LexLt [d.toNat, c.toNat, b.toNat, a.toNat] [d'.toNat, c'.toNat, b'.toNat, a'.toNat]) ∧
    (u128Key d c b a = u128Key d' c' b' a' ↔ d = d' ∧ c = c' ∧ b = b' ∧ a = a') := by
  have h1 := a.toNat_lt
  have h2 := a'.toNat_lt
  have h3 := b.toNat_lt
  have h4 := b'.toNat_lt
  have h5 := c.toNat_lt
  have h6 := c'.toNat_lt
  constructor
  · rw [BitVec.lt_def, u128Key_toNat, u128Key_toNat]
    simp only [LexLt, and_false, or_false]
    omega
  · rw [← BitVec.toNat_inj, u128Key_toNat, u128Key_toNat, ← UInt32.toNat_inj, ← UInt32.toNat_inj, ← UInt32.toNat_inj,
      ← UInt32.toNat_inj]
    omega

/-- C27. Outgoing block parameters sort by source register, source block, target block
and target register; incoming ones by target register, target block, source block. -/
theorem C27_blockparam_order (x y : BlockparamOut) (u v : BlockparamIn) :
    (x.key < y.key ↔ LexLt [x.fromVreg.toNat, x.fromBlock.toNat, x.toBlock.toNat, x.toVreg.toNat]
      [y.fromVreg.toNat, y.fromBlock.toNat, y.toBlock.toNat, y.toVreg.toNat]) ∧ (x.key = y.key ↔ x = y) ∧
    (u.key < v.key ↔ LexLt [u.toVreg.toNat, u.toBlock.toNat, u.fromBlock.toNat] [v.toVreg.toNat, v.toBlock.toNat, v.fromBlock.toNat]) ∧
    (u.key = v.key ↔ u = v) := by
  refine ⟨(C27_u128_key_order _ _ _ _ _ _ _ _).1, ?_, ?_, ?_⟩
  · rw [BlockparamOut.key, BlockparamOut.key, (C27_u128_key_order _ _ _ _ _ _ _ _).2]
    obtain ⟨a, b, c, d⟩ := x
    obtain ⟨a', b', c', d'⟩ := y
    simp only [BlockparamOut.mk.injEq]
    grind
  · rw [BlockparamIn.key, BlockparamIn.key, (C27_u128_key_order _ _ _ _ _ _ _ _).1]
    simp [LexLt]
  · rw [BlockparamIn.key, BlockparamIn.key, (C27_u128_key_order _ _ _ _ _ _ _ _).2]
    obtain ⟨a, b, c⟩ := u
    obtain ⟨a', b', c'⟩ := v
    simp only [BlockparamIn.mk.injEq]
    grind

/-- C27. Positions with priority sort by program point, then priority; the priorities are
distinct and ordered: moves into a block from its edges, ordinary moves, the two kinds
for several fixed registers, reused inputs, moves out of a block. -/
theorem C27_position_order (p q : PosWithPrio) :
    (p.key < q.key ↔ p.Before q) ∧ (p.key = q.key ↔ p = q) ∧
    InsertMovePrio.InEdgeMoves.toU32 < InsertMovePrio.Regular.toU32 ∧
    InsertMovePrio.Regular.toU32 < InsertMovePrio.MultiFixedRegInitial.toU32 ∧
    InsertMovePrio.MultiFixedRegInitial.toU32 < InsertMovePrio.MultiFixedRegSecondary.toU32 ∧
    InsertMovePrio.MultiFixedRegSecondary.toU32 < InsertMovePrio.ReusedInput.toU32 ∧
    InsertMovePrio.ReusedInput.toU32 < InsertMovePrio.OutEdgeMoves.toU32 :=
  ⟨ResolveMoves.before_iff.symm, ⟨ResolveMoves.key_inj, fun h => by rw [h]⟩, by decide, by decide, by decide, by decide, by decide⟩

namespace ResolveMoves

/-- C27. Sorting edits: nothing is lost or added, the result is in order of point and
priority, and edits with the same point and priority keep their order. -/
theorem C27_edits_sorted (es : List RMove) :
    (sortEdits es).Perm es ∧ (sortEdits es).Pairwise (fun a b => ¬ b.pp.Before a.pp) ∧
    (∀ pp, (sortEdits es).filter (fun m => decide (m.pp = pp)) = es.filter (fun m => decide (m.pp = pp))) := by
  refine ⟨perm_isort _ _, ?_, ?_⟩
  · have := pairwise_isort (le := fun (a b : RMove) => decide (a.pp.key ≤ b.pp.key))
      (fun a b c h1 h2 => by
        simp only [decide_eq_true_eq, UInt64.le_iff_toNat_le] at *; omega)
      (fun a b => by
        simp only [decide_eq_true_eq, UInt64.le_iff_toNat_le]; omega) es
    refine this.imp ?_
    intro a b h
    rw [before_iff]
    simp only [decide_eq_true_eq, UInt64.le_iff_toNat_le] at h
    rw [UInt64.lt_iff_toNat_lt]
    omega
  · intro pp
    apply isort_stable
    intro a b ha hb
    simp only [decide_eq_true_eq] at *
    rw [ha, hb]
    simp

theorem start_inv (e : MoveEnv) (num : UInt32) : SlotInv e num.toNat (Slots.start num) :=
  ⟨by simp [Slots.start], by simp [Slots.start], by simp [Slots.start, extraWords], by simp [Slots.start], by simp [Slots.start]⟩

/-- C37. Recording a move: nothing happens if both ends are the same place; otherwise the
move is added with its priority, and registers have the class of the register moved
(this is what the resolver relies on). A move between classes is refused. -/
theorem C37_push (ms : List InsertedMove) (pos : ProgPoint) (prio : InsertMovePrio) (src dst : Allocation) (v : VReg) :
    (src = dst → InsertedMoves.push ms pos prio src dst v = some ms) ∧
    (src ≠ dst → ClassFits v src → ClassFits v dst →
      InsertedMoves.push ms pos prio src dst v = some (ms ++ [⟨⟨prio.toU32, pos⟩, src, dst, v⟩])) ∧
    (src ≠ dst → ¬ (ClassFits v src ∧ ClassFits v dst) → InsertedMoves.push ms pos prio src dst v = none) := by
  have hc : ∀ a : Allocation, (match a.asReg with | some p => decide (p.class? = v.class?) | none => true) = true ↔ ClassFits v a := by
    intro a
    unfold ClassFits
    cases a.asReg <;> simp
  unfold InsertedMoves.push
  refine ⟨fun h => by rw [if_pos h], fun h h1 h2 => ?_, fun h h1 => ?_⟩
  · rw [if_neg h]
    simp only
    rw [if_pos]
    rw [Bool.and_eq_true]
    exact ⟨(hc src).mpr h1, (hc dst).mpr h2⟩
  · rw [if_neg h]
    simp only
    rw [if_neg]
    rw [Bool.and_eq_true]
    exact fun h2 => h1 ⟨(hc src).mp h2.1, (hc dst).mp h2.2⟩

/-- C37. Resolving all inserted moves, for any order that the (unstable) sort may leave.
It never fails. The resolved moves consist of one sequence per point and priority, in
that order, and each sequence performs its moves all at once, without stack-to-stack
moves, without placeholders and touching only spare locations. Executing any block with
the edits finally emitted gives, at every program point, the same state as executing it with
these sequences. -/
theorem C37_resolve_inserted_moves (e : MoveEnv) (M : MachineOk e) (num : UInt32) (hroom : Room e num.toNat)
    (ms sorted : List InsertedMove) (hperm : sorted.Perm ms) (hsorted : sorted.Pairwise (fun a b => a.pp.key ≤ b.pp.key))
    (hG : ∀ pp, GroupOk e num.toNat (ms.filter fun m => decide (m.pp = pp))) :
    ∃ gs edits s', resolveSorted e sorted (Slots.start num) = some (edits, s') ∧
      gs.Pairwise (fun (a b : GroupOut) => a.1.Before b.1) ∧
      (∀ pp, (∃ m ∈ ms, m.pp = pp) ↔ ∃ g ∈ gs, g.1 = pp) ∧
      (∀ g ∈ gs, Performs e num.toNat s'.num.toNat g.1.pos.bits.toNat (ms.filter fun m => decide (m.pp = g.1)) g.2) ∧
      edits.Sublist (flat gs) ∧
      edits.Pairwise (fun a b => ¬ b.pp.Before a.pp) ∧
      (∀ m ∈ edits, m.src ≠ m.dst) ∧
      ∀ {V : Type} (eff : Nat → Store V → Store V), RedundantMoves.EffOk e.rm eff → ∀ (b lo hi : Nat),
        (∀ i, e.insnBlock i = b ↔ lo ≤ i ∧ i < hi) → ∀ n, 2 * lo + n ≤ 2 * hi → ∀ σ,
        RedundantMoves.runPoints eff (edits.map RMove.toP) (2 * lo) n σ =
          RedundantMoves.runPoints eff ((flat gs).map RMove.toP) (2 * lo) n σ := by
  have hmem : ∀ pp m, m ∈ ms.filter (fun m => decide (m.pp = pp)) ↔ m ∈ sorted.filter (fun m => decide (m.pp = pp)) := by
    intro pp m
    simp only [List.mem_filter, hperm.mem_iff]
  obtain ⟨gs, s', a1, a2, a3, a4, a5, a6⟩ := resolveAll_spec M hroom sorted.length sorted (Nat.le_refl _) hsorted
    (fun pp => (hG pp).congr (hmem pp)) (start_inv e num)
  have hsub := eliminate_sublist e (flat gs) RedundantMoves.empty 0
  have hfs := flat_sorted a4
  have hsort : sortEdits (eliminate e RedundantMoves.empty 0 (flat gs)) = eliminate e RedundantMoves.empty 0 (flat gs) := by
    apply isort_sorted
    exact (hfs.sublist hsub).imp (fun h => by simpa using h)
  refine ⟨gs, eliminate e RedundantMoves.empty 0 (flat gs), s', ?_, a4, ?_, ?_, hsub, ?_, ?_, ?_⟩
  · simp only [resolveSorted, a1, hsort]
  · intro pp
    rw [← a5 pp]
    simp only [hperm.mem_iff]
  · intro g hg
    exact (a6 g hg).congr (fun m => (hmem g.1 m).symm)
  · rw [← hsort]
    exact (C27_edits_sorted _).2.1
  · intro m hm
    have hm' : m.toP ∈ (eliminate e RedundantMoves.empty 0 (flat gs)).map RMove.toP := List.mem_map.mpr ⟨m, hm, rfl⟩
    rw [eliminate_drive, List.mem_filter] at hm'
    have := of_decide_eq_true hm'.2
    exact this
  · intro V eff he b lo hi hblk n hn σ
    rw [eliminate_drive, runPoints_filter]
    refine RedundantMoves.C19_block_execution_unchanged e.rm ((flat gs).map RMove.toP) ?_ eff he b lo hi hblk n hn σ
    rw [List.pairwise_map]
    refine hfs.imp ?_
    intro a b h
    rw [UInt64.le_iff_toNat_le, PosWithPrio.key_toNat, PosWithPrio.key_toNat] at h
    have := a.pp.prio.toNat_lt
    have := b.pp.prio.toNat_lt
    simp only [RMove.toP]
    omega

/-- C37. The extra slots taken while resolving: at most two per class, beyond the slots of
values and below the final count, and no two share a word. -/
theorem C37_extra_slots (e : MoveEnv) (M : MachineOk e) (num : UInt32) (hroom : Room e num.toNat) (sorted : List InsertedMove)
    (hsorted : sorted.Pairwise (fun a b => a.pp.key ≤ b.pp.key))
    (hG : ∀ pp, GroupOk e num.toNat (sorted.filter fun m => decide (m.pp = pp)))
    (edits : List RMove) (s' : Slots) (h : resolveSorted e sorted (Slots.start num) = some (edits, s')) :
    (∀ c, (s'.extra c).length ≤ 2) ∧
    (∀ c a, a ∈ s'.extra c → ∃ sl, a.asStack = some sl ∧
      ∀ w, Spill.Occupies e.byLast sl.index (e.size c).toNat w → num.toNat ≤ w ∧ w < s'.num.toNat) ∧
    (∀ c d (i j : Nat) a b sl tl, ¬ (c = d ∧ i = j) → (s'.extra c)[i]? = some a → (s'.extra d)[j]? = some b →
      a.asStack = some sl → b.asStack = some tl →
      ∀ w, ¬ (Spill.Occupies e.byLast sl.index (e.size c).toNat w ∧ Spill.Occupies e.byLast tl.index (e.size d).toNat w)) := by
  obtain ⟨gs, s2, a1, a2, _⟩ := resolveAll_spec M hroom sorted.length sorted (Nat.le_refl _) hsorted hG (start_inv e num)
  have hs : s2 = s' := by
    unfold resolveSorted at h
    rw [a1] at h
    simp only [Option.some.injEq, Prod.mk.injEq] at h
    exact h.2
  subst hs
  have pick : ∀ c a, a ∈ s2.extra c → ∃ sl, a.asStack = some sl ∧ a = Allocation.stack sl ∧ sl = SpillSlot.new sl.index ∧
      sl.index ≤ SpillSlot.MAX ∧ num.toNat ≤ Spill.firstWord e.byLast sl.index (e.size c).toNat ∧
      Spill.firstWord e.byLast sl.index (e.size c).toNat + (e.size c).toNat ≤ s2.num.toNat := by
    intro c a ha
    obtain ⟨sl, g1, g2, g3, g4, g5, g6⟩ := a2.word c a ha
    refine ⟨sl, ?_, g1, g2, g3, g4, g5⟩
    rw [g1, g2]
    have := (C05_alloc_stack sl.index g3).2.1
    rw [← g2] at this
    rw [← g2]
    exact this
  refine ⟨a2.len, ?_, ?_⟩
  · intro c a ha
    obtain ⟨sl, h1, _, _, _, h4, h5⟩ := pick c a ha
    refine ⟨sl, h1, ?_⟩
    intro w hw
    unfold Spill.Occupies at hw
    omega
  · intro c d i j a b sl tl hne hi hj hsl htl
    obtain ⟨sl', h1, h2, h3, h4, _⟩ := pick c a (List.mem_of_getElem? hi)
    obtain ⟨tl', k1, k2, k3, k4, _⟩ := pick d b (List.mem_of_getElem? hj)
    rw [hsl] at h1
    rw [htl] at k1
    cases h1
    cases k1
    rw [h2] at hi
    rw [k2] at hj
    exact a2.apart c d i j sl tl hne hi h3 h4 hj k3 k4

/-! ### A concrete case: a swap of two registers and a copy between slots, no spare register -/

section Example

private def R (i : Nat) : Allocation := Allocation.reg (PReg.new i .Int)
private def S (i : Nat) : Allocation := Allocation.stack (SpillSlot.new i)

private def exEnv : MoveEnv where
  f := ⟨2, 1, 0, fun _ => (0, 2), fun _ => [], fun _ => [], fun _ => [], fun i => i = 1, fun _ => false,
    fun _ _ _ => [], fun _ => [], fun _ => [], 2⟩
  getAlloc _ _ := R 0
  insnBlock i := if i < 2 then 0 else 1
  machine := ⟨fun c => if c = .Int then (PRegSet.empty.add (PReg.new 0 .Int)).add (PReg.new 1 .Int) else PRegSet.empty,
    fun _ => PRegSet.empty, fun _ => none, []⟩
  maps p := if p = PReg.new 0 .Int ∨ p = PReg.new 1 .Int then [(⟨0, 4⟩, none)] else []
  isStackReg _ := false
  victim _ := PReg.new 0 .Int
  size _ := 1
  byLast := false

private def exMoves : List InsertedMove :=
  [⟨⟨1, ⟨2⟩⟩, R 0, R 1, VReg.new 5 .Int⟩, ⟨⟨1, ⟨2⟩⟩, R 1, R 0, VReg.new 6 .Int⟩, ⟨⟨1, ⟨2⟩⟩, S 0, S 1, VReg.new 7 .Int⟩]

example : (resolveSorted exEnv exMoves (Slots.start 2)).map (fun r => (r.1.map fun m => (m.src, m.dst), r.2.num)) =
    some ([(R 0, S 3), (S 0, R 0), (R 0, S 1), (S 3, R 0), (R 0, S 2), (R 1, R 0), (S 2, R 1)], 4) := by decide +kernel

/-- A statement about all registers can be checked on the 256 encodings. -/
private theorem forall_preg {P : PReg → Prop} (h : ∀ n : Fin 256, P ⟨UInt8.ofNat n.val⟩) (p : PReg) : P p := by
  have := h ⟨p.bits.toNat, p.bits.toNat_lt⟩
  simpa using this

private instance (c : RegClass) (p : PReg) : Decidable (Allocatable exEnv c p) :=
  inferInstanceAs (Decidable (_ ∨ _))

example : MachineOk exEnv := by
  refine ⟨?_, ?_, ?_, ?_, ?_, ?_⟩
  · intro c; cases c <;> exact forall_preg (by decide +kernel)
  · intro c; cases c <;> exact forall_preg (by decide +kernel)
  · intro c p h; simp [exEnv] at h
  · intro c; rfl
  · intro p
    rw [rangesSorted_iff]
    simp only [exEnv]
    split <;> simp [SortedM]
  · intro c; exact ⟨0, rfl⟩

example : GroupOk exEnv 2 exMoves := by
  refine ⟨by decide +kernel, ?_, ?_, ?_, ?_, by decide +kernel⟩
  · rintro a ⟨m, hm, h⟩
    simp only [exMoves, List.mem_cons, List.not_mem_nil, or_false] at hm
    rcases hm with rfl | rfl | rfl <;> rcases h with rfl | rfl <;>
      first | exact .inr ⟨_, rfl⟩ | exact .inl (by decide +kernel)
  · intro m hm
    refine ⟨?_, ?_⟩
    · simp only [exMoves, List.mem_cons, List.not_mem_nil, or_false] at hm
      rcases hm with rfl | rfl | rfl <;> decide +kernel
    · simp only [exMoves, List.mem_cons, List.not_mem_nil, or_false] at hm
      rcases hm with rfl | rfl | rfl <;> exact forall_preg (by decide +kernel)
  · intro c p h; simp [exEnv] at h
  · rintro a s ⟨m, hm, h⟩ hs
    have : a ∈ [R 0, R 1, S 0, S 1] := by
      simp only [exMoves, List.mem_cons, List.not_mem_nil, or_false] at hm
      rcases hm with rfl | rfl | rfl <;> rcases h with rfl | rfl <;> simp
    have key : ∀ a ∈ [R 0, R 1, S 0, S 1], (a.asStack.all fun s => s.index < 2) = true := by decide +kernel
    have := key a this
    rw [hs] at this
    simpa using this

example : Room exEnv 2 := by unfold Room; decide

end Example

end ResolveMoves
end Regalloc
