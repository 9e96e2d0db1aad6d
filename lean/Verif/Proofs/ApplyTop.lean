import Verif.Proofs.ApplyFlow

/-
The whole pass: apply allocations, insert moves, resolve them.
-/
namespace Regalloc.Apply

open Exec ResolveMoves RedundantMoves

theorem instAllocs_outputOf (f : Func) (num : Nat) (edits : List RMove) (allocs : Nat → Nat → Allocation) {i : Nat} (h : i < f.numInsts) :
    (outputOf f num edits allocs).instAllocs i = some ((List.range (f.operands i).length).map (allocs i)) := by
  have hlen : ∀ j, ((List.range (f.operands j).length).map (allocs j)).length = (f.operands j).length := by simp
  have I : TableInv ((List.range f.numInsts).map (fun i => (f.operands i).length))
      ((outputOf f num edits allocs).allocs, (outputOf f num edits allocs).offsets) := by
    constructor
    · show ((List.range f.numInsts).flatMap _).length = _
      rw [List.length_flatMap]
      simp only [hlen]
    · show (List.range f.numInsts).map _ = _
      rw [List.length_map, List.length_range]
      apply List.map_congr_left
      intro j hj
      unfold tableOff
      rw [← List.map_take, List.take_range, Nat.min_eq_left (by have := List.mem_range.mp hj; omega)]
  have h1 := (instAllocs_spec I (outputOf f num edits allocs) rfl rfl (i := i) (n := (f.operands i).length) (by simp [h])).1
  rw [h1]
  congr 1
  have := Fast.flatMap_slice (fun i => (List.range (f.operands i).length).map (allocs i)) h
  simp only [hlen] at this
  unfold tableOff
  rw [← List.map_take, List.take_range, Nat.min_eq_left (by omega)]
  exact this

section
variable {x : Env} {e : ResolveMoves.MoveEnv} {num : Nat} (hf : FuncOk x) (hv : Valid x e num)
  {ms : List InsertedMove} {allocs al1 al2 : Nat → Nat → Allocation} {srcs psrcs : Nat → Nat → Option Allocation}
  {pdests : List PDest} (D : Done x ms allocs srcs psrcs pdests al1 al2)
include hf hv D

/-- All moves are before instructions. -/
theorem moves_even {m : InsertedMove} (hm : m ∈ ms) : m.pp.pos.bits.toNat % 2 = 0 := by
  rcases move_kinds hf hv D hm with ⟨a, c, w, r, E⟩ | ⟨v, r, hr, q, _, _, _, _, h5, _, rfl⟩ | ⟨fx, hfx, s, _, _, rfl⟩ |
      ⟨i, k, j, o, o', ho, _, _, _, rfl⟩
  · obtain ⟨p, t, h1, h2⟩ := E.place
    rw [h2]
    show (pnt p).bits.toNat % 2 = 0
    rw [pnt_toNat (edge_small hf E.to_lt E.pred h1)]
    rcases edge_point h1 with ⟨_, h3, _⟩ | ⟨_, h3, _⟩
    · rw [h3]; show 2 * _ % 2 = 0; omega
    · rw [h3]; show 2 * _ % 2 = 0; omega
  · show (pnt r.range.fr).bits.toNat % 2 = 0
    rw [pnt_toNat (regMove_point hf hv hr)]
    exact h5
  · obtain ⟨i, o, _, g1, g2, _⟩ := (hv.fixups fx hfx).op
    have hsm := inst_small hf g2.1
    show (pnt fx.pos).bits.toNat % 2 = 0
    rw [g1, pnt_toNat (show 2 * i < 2 ^ 32 by omega)]
    show 2 * i % 2 = 0
    omega
  · have hsm := inst_small hf ho.1
    show (pnt (ptBefore i)).bits.toNat % 2 = 0
    rw [pnt_toNat (show 2 * i < 2 ^ 32 by omega)]
    show 2 * i % 2 = 0
    omega
end

/-- An instruction changes only its results and clobbers. -/
theorem stepA_other {Val : Type} {f : Func} {al : Nat → Nat → Allocation} (sem : InstSem Val) (junk : Nat → Allocation → Val) (i n : Nat)
    (σ : Allocation → Val) (l : Allocation)
    (h1 : ∀ (k : Nat) (o : Op), (f.operands i)[k]? = some o → o.kind = .Def → l ≠ al i k)
    (h2 : ∀ p ∈ f.clobbers i, l ≠ Allocation.reg p) : (stepA f al sem junk i n σ).2 l = σ l := by
  show (if l ∈ (f.clobbers i).map Allocation.reg then junk n l else (stepInst sem i (opLocs f al i) σ).2 l) = _
  rw [if_neg (by
    intro hm
    obtain ⟨p, hp, hpe⟩ := List.mem_map.mp hm
    exact h2 p hp hpe.symm)]
  apply step_other
  intro q hq hd
  obtain ⟨k, h3, h4⟩ := opLocs_mem _ _ _ _ hq
  rw [h4]
  exact (h1 k q.1 h3 hd).symm

/-- What the moves do at each point, and that the emitted code does the same. -/
theorem run_parts {x : Env} {e : MoveEnv} {num : UInt32} (hf : FuncOk x) (hv : Valid x e num.toNat) (M : MachineOk e)
    (hroom : Room e num.toNat) {ms sorted : List InsertedMove} {allocs : Nat → Nat → Allocation} (ha : apply x = some (ms, allocs))
    (hef : e.f = x.f) (hea : e.getAlloc = allocs) (heb : e.insnBlock = x.insnBlock)
    (hperm : sorted.Perm ms) (hsorted : sorted.Pairwise (fun a b => a.pp.key ≤ b.pp.key)) :
    ∃ srcs psrcs pdests al1 al2 gs edits s', Done x ms allocs srcs psrcs pdests al1 al2 ∧
      resolveSorted e sorted (Slots.start num) = some (edits, s') ∧
      SortedEdits (outputOf x.f s'.num.toNat edits allocs).edits ∧
      (∀ Val : Type, ∀ q, q < 2 ^ 32 → ∀ σ : Allocation → Val, ∃ σ0 σ1 σ2 σ3 σ4, Stage e num.toNat ms .InEdgeMoves q σ σ0 ∧
        Stage e num.toNat ms .Regular q σ0 σ1 ∧ Stage e num.toNat ms .MultiFixedRegInitial q σ1 σ2 ∧
        Stage e num.toNat ms .MultiFixedRegSecondary q σ2 σ3 ∧ Stage e num.toNat ms .ReusedInput q σ3 σ4 ∧
        Stage e num.toNat ms .OutEdgeMoves q σ4 (movesAt ((flat gs).map RMove.toP) q σ)) ∧
      ∀ (Val : Type) (sem : Sem Val) (junk : Nat → Allocation → Val) b, b < x.f.numBlocks → ∀ A tr,
        allocItems x.f (outputOf x.f s'.num.toNat edits allocs) sem junk ((outputOf x.f s'.num.toNat edits allocs).blockInstsAndEdits x.f b) A tr =
          runT x.f allocs sem junk ((flat gs).map RMove.toP) (x.f.blockInsts b) A tr := by
  obtain ⟨srcs, psrcs, pdests, al1, al2, D⟩ := apply_done hf hv ha
  obtain ⟨gs, edits, s', h1, h2, h3, h4, h5, h6, _, h8⟩ := C37_resolve_inserted_moves e M num hroom ms sorted hperm hsorted
    (moves_groupOk hf hv D)
  have hevenF : ∀ m ∈ flat gs, m.pp.pos.bits.toNat % 2 = 0 := by
    intro m hm
    unfold flat at hm
    obtain ⟨g, hg, hm⟩ := List.mem_flatMap.mp hm
    obtain ⟨y, _, rfl⟩ := List.mem_map.mp hm
    obtain ⟨m', hm', he⟩ := (h3 g.1).mpr ⟨g, hg, rfl⟩
    show g.1.pos.bits.toNat % 2 = 0
    rw [← he]
    exact moves_even hf hv D hm'
  have hevenE : ∀ m ∈ edits, m.pp.pos.bits.toNat % 2 = 0 := fun m hm => hevenF m (h5.subset hm)
  have hsortE : SortedEdits (outputOf x.f s'.num.toNat edits allocs).edits := by
    show (edits.map _).Pairwise _
    rw [List.pairwise_map]
    refine h6.imp ?_
    intro a b hab
    unfold PosWithPrio.Before at hab
    show a.pp.pos.bits.toNat ≤ b.pp.pos.bits.toNat
    omega
  refine ⟨srcs, psrcs, pdests, al1, al2, gs, edits, s', D, h1, hsortE,
    fun Val q hq σ => stages h2 h3 h4 (fun m hm => prio_lt hf hv D hm) hq σ, ?_⟩
  intro Val sem junk b hb A' tr
  rw [C20_block_items _ _ _ hsortE]
  have hit := allocItems_runT (f := x.f) (out := outputOf x.f s'.num.toNat edits allocs) (sem := sem) (junk := junk) (al := allocs) rfl hevenE
    (x.f.insns b).1 ((x.f.insns b).2 - (x.f.insns b).1) 0 A' tr (by
      intro j h9 h10
      apply instAllocs_outputOf
      have := hf.insts b hb
      omega)
  rw [Nat.add_zero] at hit
  have hit2 : allocItems x.f (outputOf x.f s'.num.toNat edits allocs) sem junk
      (blockItems (outputOf x.f s'.num.toNat edits allocs).edits (x.f.insns b).1 (x.f.insns b).2) A' tr = _ := hit
  rw [hit2]
  refine runT_eq (e := e.rm) ?_ ?_ ?_ ?_ A' tr
  · intro m hm
    obtain ⟨r, hr, rfl⟩ := List.mem_map.mp hm
    exact hevenE r hr
  · intro m hm
    obtain ⟨r, hr, rfl⟩ := List.mem_map.mp hm
    exact hevenF r hr
  · intro _ i n σ l g1 g2
    apply stepA_other
    · intro k o g3 g4
      rw [← hea]
      exact g1 k o (by show (e.f.operands i)[k]? = some o; rw [hef]; exact g3) g4
    · intro p hp
      exact g2 p (by show p ∈ e.f.clobbers i; rw [hef]; exact hp)
  · intro eff hok n hn σ
    refine h8 eff hok b (x.f.insns b).1 (x.f.insns b).2 ?_ n hn σ
    rw [heb]
    exact hv.blocks b hb

theorem run_agrees {Val : Type} {x : Env} {e : MoveEnv} {num : UInt32} (hf : FuncOk x) (hv : Valid x e num.toNat) (M : MachineOk e)
    (hroom : Room e num.toNat) {ms sorted : List InsertedMove} {allocs : Nat → Nat → Allocation} (ha : apply x = some (ms, allocs))
    (hef : e.f = x.f) (hea : e.getAlloc = allocs) (heb : e.insnBlock = x.insnBlock)
    (hperm : sorted.Perm ms) (hsorted : sorted.Pairwise (fun a b => a.pp.key ≤ b.pp.key)) :
    ∃ edits s', resolveSorted e sorted (Slots.start num) = some (edits, s') ∧
      ∀ (sem : Sem Val) (junk : Nat → Allocation → Val) (ks : List Nat) (A : Allocation → Val) (V : VReg → Val),
        allocRun x.f (outputOf x.f s'.num.toNat edits allocs) sem junk ks x.f.entry A [] = origRun x.f sem ks x.f.entry V [] := by
  obtain ⟨srcs, psrcs, pdests, al1, al2, gs, edits, s', D, h1, _, hst, hblock⟩ := run_parts hf hv M hroom ha hef hea heb hperm hsorted
  refine ⟨edits, s', h1, ?_⟩
  intro sem junk ks A V
  exact run_all hf hv D (hst Val) sem junk (hblock Val sem junk) ks x.f.entry A V [] hf.entry (Reaches.refl _ _)
    (fun σ' _ => arr_entry hf hv D σ' _)

end Regalloc.Apply
