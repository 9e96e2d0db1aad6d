import Verif.Proofs.DebugRun

/-
Values at the points of a block.
-/
namespace Regalloc.Debug

open Exec ResolveMoves RedundantMoves Apply

variable {Val : Type}

section
variable {x : Env} {e : ResolveMoves.MoveEnv} {num : Nat} (hf : FuncOk x) (hv : Valid x e num)
  {ms : List InsertedMove} {allocs al1 al2 : Nat → Nat → Allocation} {srcs psrcs : Nat → Nat → Option Allocation}
  {pdests : List PDest} (D : Done x ms allocs srcs psrcs pdests al1 al2)
include hf hv D

omit hv D in
theorem not_def {j v p : Nat} (hp : p / 2 = j) (h : ¬ DefinesIn x.f j v) : ¬ DefAt x.f v p := by
  rintro ⟨b', hb', i', hi', o', ho', g1, g2, g3, g4⟩
  have : i' = j := by rw [← hp, g4, defPoint_div]
  subst this
  obtain ⟨k, hk⟩ := List.mem_iff_getElem?.mp ho'
  exact h ⟨k, o', ⟨⟨b', hb', hi'⟩, hk, g1⟩, g2, g3⟩

theorem no_out {b j : Nat} (hb : b < x.f.numBlocks) (hj : j ∈ x.f.blockInsts b) (hn : ¬ IntoJoin x.f b j) :
    ∀ m ∈ ms, m.pp ≠ ⟨InsertMovePrio.OutEdgeMoves.toU32, pnt (2 * j)⟩ := by
  intro m hm hpp
  obtain ⟨h1, c, h2, h3, _⟩ := out_group hf hv D hb hj hm hpp
  exact hn ⟨h1, c, by rw [h2]; exact List.mem_singleton.mpr rfl, h3⟩

section
variable {gs : List GroupOut} (hst : ∀ q, q < 2 ^ 32 → ∀ σ : Allocation → Val, ∃ σ0 σ1 σ2 σ3 σ4, Stage e num ms .InEdgeMoves q σ σ0 ∧
  Stage e num ms .Regular q σ0 σ1 ∧ Stage e num ms .MultiFixedRegInitial q σ1 σ2 ∧ Stage e num ms .MultiFixedRegSecondary q σ2 σ3 ∧
  Stage e num ms .ReusedInput q σ3 σ4 ∧ Stage e num ms .OutEdgeMoves q σ4 (movesAt ((flat gs).map RMove.toP) q σ))
include hst

/-- One instruction and its moves. -/
theorem after_inst {b j : Nat} (hb : b < x.f.numBlocks) (hj : j ∈ x.f.blockInsts b) (hn : ¬ IntoJoin x.f b j) (sem : InstSem Val)
    (junk : Nat → Allocation → Val) (n : Nat) {σ : Allocation → Val} {V : VReg → Val} (h : Before x e num ms b j σ (Is x V)) :
    (stepA x.f allocs sem junk j n (movesAt ((flat gs).map RMove.toP) (2 * j) σ)).1 =
      (stepInst sem j ((x.f.operands j).map (fun o => (o, o.vreg))) V).1 ∧
    Post x j (stepA x.f allocs sem junk j n (movesAt ((flat gs).map RMove.toP) (2 * j) σ)).2
      (Is x (stepInst sem j ((x.f.operands j).map (fun o => (o, o.vreg))) V).2) := by
  have hsm := inst_small hf ⟨b, hb, hj⟩
  obtain ⟨σ0, σ1, σ2, σ3, σ4, S0, S1, S2, S3, S4, S5⟩ := hst (2 * j) (by omega) σ
  have P := before_pre hf hv D hb hj h S0 S1 S2 S3 S4
  rw [S5.none (no_out hf hv D hb hj hn)]
  exact inst_exec hf hv D hb hj sem junk n P

/-- What is known before each instruction of a block. -/
theorem insts_before {b : Nat} (hb : b < x.f.numBlocks) (sem : Sem Val) (junk : Nat → Allocation → Val) {σ : Allocation → Val} {V : VReg → Val}
    (tr : Trace Val) (h : Start x e num ms b σ (Is x V)) : ∀ n, (x.f.insns b).1 + n < (x.f.insns b).2 →
    (runT x.f allocs sem junk ((flat gs).map RMove.toP) (List.range' (x.f.insns b).1 n) σ tr).2 =
      (origInsts x.f sem (List.range' (x.f.insns b).1 n) V tr).2 ∧
    Before x e num ms b ((x.f.insns b).1 + n) (runT x.f allocs sem junk ((flat gs).map RMove.toP) (List.range' (x.f.insns b).1 n) σ tr).1
      (Is x (origInsts x.f sem (List.range' (x.f.insns b).1 n) V tr).1) := by
  intro n
  induction n with
  | zero => intro _; exact ⟨rfl, .inl ⟨rfl, h⟩⟩
  | succ n ih =>
    intro hn
    obtain ⟨h1, h2⟩ := ih (by omega)
    have hj : (x.f.insns b).1 + n ∈ x.f.blockInsts b := (blockInsts_mem hf).mpr (by omega)
    have hnj : ¬ IntoJoin x.f b ((x.f.insns b).1 + n) := by
      rintro ⟨h3, _⟩
      have := lastInst_eq hf hb
      omega
    rw [List.range'_1_concat, runT_append, origInsts_append, ← h1]
    simp only [runT, origInsts]
    obtain ⟨h3, h4⟩ := after_inst hf hv D hst hb hj hnj (sem (runT x.f allocs sem junk ((flat gs).map RMove.toP) (List.range' (x.f.insns b).1 n) σ tr).2)
      junk (runT x.f allocs sem junk ((flat gs).map RMove.toP) (List.range' (x.f.insns b).1 n) σ tr).2.length h2
    exact ⟨by rw [h3], .inr ⟨by omega, by rw [show (x.f.insns b).1 + (n + 1) - 1 = (x.f.insns b).1 + n by omega]; exact h4⟩⟩

/-- After an instruction, values are in the ranges. -/
theorem at_after {b j : Nat} (hb : b < x.f.numBlocks) (hj : j ∈ x.f.blockInsts b) (hn : ¬ IntoJoin x.f b j) (sem : Sem Val)
    (junk : Nat → Allocation → Val) {σ : Allocation → Val} {V : VReg → Val} (tr : Trace Val) (h : Start x e num ms b σ (Is x V))
    {v : Nat} {r : FRange} (hr : r ∈ x.ranges v) (hh : r.Has (ptAfter j)) :
    (runT x.f allocs sem junk ((flat gs).map RMove.toP) (List.range' (x.f.insns b).1 (j + 1 - (x.f.insns b).1)) σ tr).1 r.alloc =
      (origInsts x.f sem (List.range' (x.f.insns b).1 (j + 1 - (x.f.insns b).1)) V tr).1 (x.vreg v) := by
  have hm := (blockInsts_mem hf).mp hj
  obtain ⟨h1, h2⟩ := insts_before hf hv D hst hb sem junk tr h (j - (x.f.insns b).1) (by omega)
  rw [show (x.f.insns b).1 + (j - (x.f.insns b).1) = j by omega] at h2
  rw [show j + 1 - (x.f.insns b).1 = (j - (x.f.insns b).1) + 1 by omega, List.range'_1_concat, runT_append, origInsts_append, ← h1,
    show (x.f.insns b).1 + (j - (x.f.insns b).1) = j by omega]
  simp only [runT, origInsts]
  exact (after_inst hf hv D hst hb hj hn _ junk _ h2).2 v r hr hh

/-- Before an instruction, once the moves are done, values are in the ranges, unless the
location has been given to an output that reuses the input of another register. -/
theorem at_before {b j : Nat} (hb : b < x.f.numBlocks) (hj : j ∈ x.f.blockInsts b) (hn : ¬ IntoJoin x.f b j) (sem : Sem Val)
    (junk : Nat → Allocation → Val) {σ : Allocation → Val} {V : VReg → Val} (tr : Trace Val) (h : Start x e num ms b σ (Is x V))
    {v : Nat} {r : FRange} (hr : r ∈ x.ranges v) (hh : r.Has (ptBefore j)) (hd : ¬ DefinesIn x.f j v)
    (hre : ∀ k o m o', OpAt x.f j k o → o.constraint = .Reuse m → OpAt x.f j m o' → o'.vreg.vreg ≠ v → r.Has (ptAfter j)) :
    movesAt ((flat gs).map RMove.toP) (2 * j)
      (runT x.f allocs sem junk ((flat gs).map RMove.toP) (List.range' (x.f.insns b).1 (j - (x.f.insns b).1)) σ tr).1 r.alloc =
      (origInsts x.f sem (List.range' (x.f.insns b).1 (j - (x.f.insns b).1)) V tr).1 (x.vreg v) := by
  have hm := (blockInsts_mem hf).mp hj
  obtain ⟨_, h2⟩ := insts_before hf hv D hst hb sem junk tr h (j - (x.f.insns b).1) (by omega)
  rw [show (x.f.insns b).1 + (j - (x.f.insns b).1) = j by omega] at h2
  have hsm := inst_small hf ⟨b, hb, hj⟩
  have nb := not_def hf (p := ptBefore j) (show 2 * j / 2 = j by omega) hd
  have na := not_def hf (p := ptAfter j) (show (2 * j + 1) / 2 = j by omega) hd
  obtain ⟨σ0, σ1, σ2, σ3, σ4, S0, S1, S2, S3, S4, S5⟩ := hst (2 * j) (by omega)
    (runT x.f allocs sem junk ((flat gs).map RMove.toP) (List.range' (x.f.insns b).1 (j - (x.f.insns b).1)) σ tr).1
  rw [S5.none (no_out hf hv D hb hj hn)]
  by_cases hex : ∃ m ∈ ms, m.pp = ⟨InsertMovePrio.ReusedInput.toU32, pnt (2 * j)⟩ ∧ m.dst = r.alloc
  · obtain ⟨m, hm1, hpp, hdst⟩ := hex
    obtain ⟨k, n, o, o', g1, g2, g3, g4, rfl⟩ := reuse_at hf hv D hm1 hsm hpp
    by_cases hw : o'.vreg.vreg = v
    · obtain ⟨hH, hF⟩ := before_held hf hv D hb hj h2 S0 S1 S2 S3
      have hmv := S4.moved _ hm1 hpp
      rw [hdst] at hmv
      rw [hmv]
      obtain ⟨_, _, w, g5, g6, _⟩ := hf.reuse j k n o g1 g2
      have := g5.eq g3
      subst this
      have := al2_value hf hv D g5 g6 hH hF
      rw [hw] at this
      exact this
    · exact (before_pre hf hv D hb hj h2 S0 S1 S2 S3 S4).ranges v r hr (hre k o n o' g1 g2 g3 hw) nb na
  · obtain ⟨hH, _⟩ := before_held hf hv D hb hj h2 S0 S1 S2 S3
    rw [S4.kept _ (fun m hm1 hpp hdst => hex ⟨m, hm1, hpp, hdst⟩) (not_spare_range hv hr hh _)]
    exact hH v r hr hh nb

/-- The starts of blocks that are reached. -/
theorem reach_start {out : Output} (sem : Sem Val) (junk : Nat → Allocation → Val)
    (hblock : ∀ b, b < x.f.numBlocks → ∀ A tr, allocItems x.f out sem junk (out.blockInstsAndEdits x.f b) A tr =
      runT x.f allocs sem junk ((flat gs).map RMove.toP) (x.f.blockInsts b) A tr) :
    ∀ (ks : List Nat) (b : Nat) (σ : Allocation → Val) (V : VReg → Val) (tr : Trace Val), b < x.f.numBlocks →
      Reaches x.f.succs x.f.entry b → Start x e num ms b σ (Is x V) → ∀ c A' V' trA trV,
      allocReach x.f out sem junk ks b σ tr = some (c, A', trA) → origReach x.f sem ks b V tr = some (c, V', trV) →
      trA = trV ∧ c < x.f.numBlocks ∧ Start x e num ms c A' (Is x V') := by
  intro ks
  induction ks with
  | nil =>
    intro b σ V tr hb _ h c A' V' trA trV h1 h2
    simp only [allocReach, origReach, Option.some.injEq, Prod.mk.injEq] at h1 h2
    obtain ⟨rfl, rfl, rfl⟩ := h1
    obtain ⟨-, rfl, rfl⟩ := h2
    exact ⟨rfl, hb, h⟩
  | cons k ks ih =>
    intro b σ V tr hb hr h c A' V' trA trV h1 h2
    unfold allocReach at h1
    unfold origReach at h2
    dsimp only at h1 h2
    rw [hblock b hb] at h1
    obtain ⟨g1, σx, g2, g3⟩ := block_sim hf hv D hst hb sem junk tr h
    cases hs : (x.f.succs b)[k]? with
    | none => rw [hs] at h1; cases h1
    | some s =>
      rw [hs] at h1 h2
      dsimp only at h1 h2
      rw [g1] at h1
      have hmem := List.mem_of_getElem? hs
      have hreach := hr.step hmem
      exact ih s _ _ _ (hf.edges.succLt b s hb hmem) hreach
        (edge_start hf hv D hst hb hs hreach g2 (assign_par hf hb hs) (assign_live hf hv hb hs) g3) c A' V' trA trV h1 h2
end
end

end Regalloc.Debug
