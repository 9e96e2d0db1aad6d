import Verif.Proofs.AcceptItems
import Verif.Proofs.CheckerInv
import Verif.Proofs.ApplyTop

/-
Labels of values in the code before redundant moves are removed.
-/
namespace Regalloc.Apply

open Exec ResolveMoves RedundantMoves
open Checker (Tok tokStep tokSem tokJunk Lab labInst labInsts LabFrom NoJunk Good GoodReads opWrites_split labOf)

/-- The value is labelled with the register. -/
def Known (x : Env) (lab : Lab) (v : Nat) (t : Tok) : Prop := lab t (x.vreg v)

section
variable {x : Env} {e : ResolveMoves.MoveEnv} {num : Nat} (hf : FuncOk x) (hv : Valid x e num)
  {ms : List InsertedMove} {allocs al1 al2 : Nat → Nat → Allocation} {srcs psrcs : Nat → Nat → Option Allocation}
  {pdests : List PDest} (D : Done x ms allocs srcs psrcs pdests al1 al2)
include hf hv D

omit D in
theorem not_written {b i v : Nat} (hb : b < x.f.numBlocks) (hi : i ∈ x.f.blockInsts b) {r : FRange} (hr : r ∈ x.ranges v)
    (h : ∀ (k : Nat) o, (x.f.operands i)[k]? = some o → o.kind = .Def → ¬ (o.asFixedNonallocatable = none ∧ o.vreg.vreg = v)) :
    x.vreg v ∉ opWrites (x.f.operands i) := by
  intro hm
  unfold opWrites at hm
  obtain ⟨o, ho, he⟩ := List.mem_map.mp hm
  obtain ⟨ho, hd⟩ := List.mem_filter.mp ho
  obtain ⟨k, hk⟩ := List.mem_iff_getElem?.mp ho
  exact name_apart hf hv hb hi hk hr (h k o hk (by simpa using hd)) he

/-- A late use is not defined by the instruction. -/
theorem late_not_def {b i k : Nat} (hb : b < x.f.numBlocks) (hi : i ∈ x.f.blockInsts b) {o : Op} (ho : OpAt x.f i k o) (hk : o.kind = .Use) :
    ∀ (k' : Nat) o', (x.f.operands i)[k']? = some o' → o'.kind = .Def → ¬ (o'.asFixedNonallocatable = none ∧ o'.vreg.vreg = o.vreg.vreg) := by
  intro k' o' g1 g2 ⟨g3, g4⟩
  exact not_def_of_use hf hv ho hk (p := Build.defPoint i o') (defPoint_div i o')
    ⟨b, hb, i, hi, o', List.mem_of_getElem? g1, g3, g2, g4, rfl⟩

theorem inst_labels {b i : Nat} (hb : b < x.f.numBlocks) (hi : i ∈ x.f.blockInsts b) (n : Nat) {out : Output}
    (ho : out.instAllocs i = some ((List.range (x.f.operands i).length).map (allocs i)))
    {σ : Allocation → Tok} {lab : Lab} {done : List Nat} (hl : LabFrom lab done) (hd : i ∉ done) (P : Pre x allocs i σ (Known x lab)) :
    GoodReads x.f out i .Early lab (stepA x.f allocs tokStep tokJunk i n σ).1.2.1 ∧
    GoodReads x.f out i .Late (labInst x.f i lab) (stepA x.f allocs tokStep tokJunk i n σ).1.2.2 ∧
    Post x i (stepA x.f allocs tokStep tokJunk i n σ).2 (Known x (labInst x.f i lab)) := by
  have hin : ∃ b, b < x.f.numBlocks ∧ i ∈ x.f.blockInsts b := ⟨b, hb, hi⟩
  have hloc : Checker.locs x.f out i = opLocs x.f allocs i := by
    show (x.f.operands i).zip ((out.instAllocs i).getD []) = _
    rw [ho]; rfl
  have hold : ∀ {v t}, Known x lab v t → x.vreg v ∉ opWrites (x.f.operands i) → Known x (labInst x.f i lab) v t := by
    intro v t h1 h2
    refine .inr ⟨?_, h1, h2⟩
    rintro k rfl
    exact hd (hl i k _ h1)
  refine ⟨⟨σ, by rw [hloc]; rfl, ?_⟩, ⟨writesFrom .Early (fun k => Tok.res i k) 0 (opLocs x.f allocs i) σ, by rw [hloc]; rfl, ?_⟩, ?_⟩
  · intro q hq h1 h2 h3
    rw [hloc] at hq
    obtain ⟨k, h4, h5⟩ := opLocs_mem _ _ _ _ hq
    have := P.uses k q.1 ⟨hin, h4, h3⟩ h1
    unfold Known at this
    rw [← (hf.named i q.1 (List.mem_of_getElem? h4) h3).1] at this
    rw [h5]
    exact this
  · intro q hq h1 h2 h3
    rw [hloc] at hq
    obtain ⟨k, h4, h5⟩ := opLocs_mem _ _ _ _ hq
    have ho : OpAt x.f i k q.1 := ⟨hin, h4, h3⟩
    obtain ⟨r, hr, hhas, hal⟩ := late_use_range hf hv D ho h1 h2
    have hnd := late_not_def hf hv D hb hi ho h1
    rw [Checker.writesFrom_other _ _ _ _ _ _ (by
      intro q' hq' g1 _
      obtain ⟨k', g2, g3⟩ := opLocs_mem _ _ _ _ hq'
      rw [g3, h5, hal]
      exact def_apart hf hv D hb hi g2 g1 hr hhas (hnd k' q'.1 g2 g1))]
    have := hold (P.uses k q.1 ho h1) (not_written hf hv hb hi hr hnd)
    unfold Known at this
    rw [← (hf.named i q.1 (List.mem_of_getElem? h4) h3).1] at this
    rw [h5]
    exact this
  · intro v r hr hhas
    show Known x _ v (if r.alloc ∈ (x.f.clobbers i).map Allocation.reg then tokJunk n r.alloc else (stepInst tokStep i (opLocs x.f allocs i) σ).2 r.alloc)
    rw [if_neg (by
      intro hm
      obtain ⟨p, hp, hpe⟩ := List.mem_map.mp hm
      exact hv.clobbers b hb i hi p hp v r hr hhas hpe.symm)]
    rcases Checker.step_from i (opLocs x.f allocs i) σ r.alloc with ⟨h1, h2⟩ | ⟨k, q, h1, h2, h3, h4⟩
    · rw [h1]
      have hne : ∀ (k' : Nat) o', (x.f.operands i)[k']? = some o' → o'.kind = .Def →
          ¬ (o'.asFixedNonallocatable = none ∧ o'.vreg.vreg = v) := by
        intro k' o' g1 g2 ⟨g3, g4⟩
        have hoa : OpAt x.f i k' o' := ⟨hin, g1, g3⟩
        subst g4
        obtain ⟨hal, _⟩ := def_range hf hv D hb hi hoa g2 hr hhas
        exact h2 (o', allocs i k') (List.mem_of_getElem? ((opLocs_get _ _ _ _ _).mpr ⟨g1, rfl⟩)) g2 hal
      have hnd : ∀ p, p / 2 = i → ¬ DefAt x.f v p := by
        rintro p hp ⟨b', hb', i', hi', o', ho', g1, g2, g3, g4⟩
        have : i' = i := by rw [← hp, g4, defPoint_div]
        subst this
        obtain ⟨k', hk'⟩ := List.mem_iff_getElem?.mp ho'
        exact hne k' o' hk' g2 ⟨g1, g3⟩
      exact hold (P.ranges v r hr hhas (hnd _ (show 2 * i / 2 = i by omega)) (hnd _ (show (2 * i + 1) / 2 = i by omega)))
        (not_written hf hv hb hi hr hne)
    · obtain ⟨g1, g2⟩ := (opLocs_get _ _ _ _ _).mp h1
      rw [h4]
      by_cases hne : q.1.asFixedNonallocatable = none ∧ q.1.vreg.vreg = v
      · refine .inl ⟨k, q.1, rfl, g1, h2, hne.1, ?_⟩
        rw [(hf.named i q.1 (List.mem_of_getElem? g1) hne.1).1, hne.2]
      · exact absurd (g2.symm.trans h3) (def_apart hf hv D hb hi g1 h2 hr hhas hne)

section
variable {gs : List GroupOut} (hst : ∀ q, q < 2 ^ 32 → ∀ σ : Allocation → Tok, ∃ σ0 σ1 σ2 σ3 σ4, Stage e num ms .InEdgeMoves q σ σ0 ∧
  Stage e num ms .Regular q σ0 σ1 ∧ Stage e num ms .MultiFixedRegInitial q σ1 σ2 ∧ Stage e num ms .MultiFixedRegSecondary q σ2 σ3 ∧
  Stage e num ms .ReusedInput q σ3 σ4 ∧ Stage e num ms .OutEdgeMoves q σ4 (movesAt ((flat gs).map RMove.toP) q σ))
include hst

theorem insts_labels {b : Nat} (hb : b < x.f.numBlocks) {out : Output}
    (ho : ∀ i ∈ x.f.blockInsts b, out.instAllocs i = some ((List.range (x.f.operands i).length).map (allocs i))) :
    ∀ (n i : Nat) (σ : Allocation → Tok) (lab : Lab) (done : List Nat) (tr : Trace Tok), (x.f.insns b).1 ≤ i → i + n + 1 = (x.f.insns b).2 →
    Before x e num ms b i σ (Known x lab) → LabFrom lab done → (∀ j ∈ done, j < i) →
    ∃ ts, (runT x.f allocs tokSem tokJunk ((flat gs).map RMove.toP) (List.range' i (n + 1)) σ tr).2 = tr ++ ts ∧
      Good x.f out (List.range' i (n + 1)) lab ts ∧
      ∃ σx, Post x (x.f.lastInst b) σx (Known x (labInsts x.f (List.range' i (n + 1)) lab)) ∧
        Stage e num ms .OutEdgeMoves (2 * x.f.lastInst b) σx
          (runT x.f allocs tokSem tokJunk ((flat gs).map RMove.toP) (List.range' i (n + 1)) σ tr).1 := by
  intro n
  induction n with
  | zero =>
    intro i σ lab done tr hlo hhi hbef hl hd
    have hi : i ∈ x.f.blockInsts b := (blockInsts_mem hf).mpr ⟨hlo, by omega⟩
    have hlast : i = x.f.lastInst b := by have := lastInst_eq hf hb; omega
    have hsm := inst_small hf ⟨b, hb, hi⟩
    have hnd : i ∉ done := fun h => Nat.lt_irrefl _ (hd i h)
    obtain ⟨σ0, σ1, σ2, σ3, σ4, S0, S1, S2, S3, S4, S5⟩ := hst (2 * i) (by omega) σ
    have P := before_pre hf hv D hb hi hbef S0 S1 S2 S3 S4
    rw [← hlast]
    obtain ⟨g1, g2, g3⟩ := inst_labels hf hv D hb hi tr.length (ho i hi) hl hnd P
    by_cases hg : ∃ m ∈ ms, m.pp = ⟨InsertMovePrio.OutEdgeMoves.toU32, pnt (2 * i)⟩
    · obtain ⟨m, hm, hpp⟩ := hg
      obtain ⟨_, _, _, _, hop, hcl⟩ := out_group hf hv D hb hi hm hpp
      have h1 : ∀ A : Allocation → Tok, stepA x.f allocs tokStep tokJunk i tr.length A = ((i, [], []), A) := by
        intro A
        unfold stepA
        rw [hop, hcl]
        rfl
      rw [h1] at g1 g2 g3
      have hrun : runT x.f allocs tokSem tokJunk ((flat gs).map RMove.toP) (List.range' i (0 + 1)) σ tr =
          (movesAt ((flat gs).map RMove.toP) (2 * i) σ, tr ++ [(i, [], [])]) := by
        show runT x.f allocs tokSem tokJunk ((flat gs).map RMove.toP) [i] σ tr = _
        simp only [runT, tokSem]
        rw [h1]
      rw [hrun]
      exact ⟨[(i, [], [])], rfl, ⟨g1, g2, rfl⟩, σ4, g3, S5⟩
    · have hg : ∀ m ∈ ms, m.pp ≠ ⟨InsertMovePrio.OutEdgeMoves.toU32, pnt (2 * i)⟩ := fun m hm hpp => hg ⟨m, hm, hpp⟩
      have hrun : runT x.f allocs tokSem tokJunk ((flat gs).map RMove.toP) (List.range' i (0 + 1)) σ tr =
          ((stepA x.f allocs tokStep tokJunk i tr.length σ4).2, tr ++ [(stepA x.f allocs tokStep tokJunk i tr.length σ4).1]) := by
        show runT x.f allocs tokSem tokJunk ((flat gs).map RMove.toP) [i] σ tr = _
        simp only [runT, tokSem]
        rw [S5.none hg]
      rw [hrun]
      exact ⟨[(stepA x.f allocs tokStep tokJunk i tr.length σ4).1], rfl, ⟨g1, g2, rfl⟩, _, g3,
        fun m hm hpp => absurd hpp (hg m hm), fun _ _ _ => rfl, fun _ => rfl⟩
  | succ n ih =>
    intro i σ lab done tr hlo hhi hbef hl hd
    have hi : i ∈ x.f.blockInsts b := (blockInsts_mem hf).mpr ⟨hlo, by omega⟩
    have hsm := inst_small hf ⟨b, hb, hi⟩
    have hnd : i ∉ done := fun h => Nat.lt_irrefl _ (hd i h)
    obtain ⟨σ0, σ1, σ2, σ3, σ4, S0, S1, S2, S3, S4, S5⟩ := hst (2 * i) (by omega) σ
    have P := before_pre hf hv D hb hi hbef S0 S1 S2 S3 S4
    have hg : ∀ m ∈ ms, m.pp ≠ ⟨InsertMovePrio.OutEdgeMoves.toU32, pnt (2 * i)⟩ := by
      intro m hm hpp
      have := (out_group hf hv D hb hi hm hpp).1
      have := lastInst_eq hf hb
      omega
    obtain ⟨g1, g2, g3⟩ := inst_labels hf hv D hb hi tr.length (ho i hi) hl hnd P
    have hrun : runT x.f allocs tokSem tokJunk ((flat gs).map RMove.toP) (List.range' i (n + 1 + 1)) σ tr =
        runT x.f allocs tokSem tokJunk ((flat gs).map RMove.toP) (List.range' (i + 1) (n + 1)) (stepA x.f allocs tokStep tokJunk i tr.length σ4).2
          (tr ++ [(stepA x.f allocs tokStep tokJunk i tr.length σ4).1]) := by
      rw [List.range'_succ, runT, S5.none hg]; rfl
    obtain ⟨ts, h1, h2, h3⟩ := ih (i + 1) (stepA x.f allocs tokStep tokJunk i tr.length σ4).2 (labInst x.f i lab) (i :: done)
      (tr ++ [(stepA x.f allocs tokStep tokJunk i tr.length σ4).1]) (by omega) (by omega)
      (.inr ⟨by omega, by rw [Nat.add_sub_cancel]; exact g3⟩) hl.inst (by
        intro j hj
        rcases List.mem_cons.mp hj with rfl | hj
        · omega
        · have := hd j hj; omega)
    rw [hrun]
    refine ⟨(stepA x.f allocs tokStep tokJunk i tr.length σ4).1 :: ts, by rw [h1]; simp, ?_, ?_⟩
    · rw [List.range'_succ]
      exact ⟨g1, g2, h2⟩
    · rw [List.range'_succ]
      exact h3

theorem block_labels {b : Nat} (hb : b < x.f.numBlocks) {out : Output}
    (ho : ∀ i ∈ x.f.blockInsts b, out.instAllocs i = some ((List.range (x.f.operands i).length).map (allocs i)))
    {σ : Allocation → Tok} {lab : Lab} (h : Start x e num ms b σ (Known x lab)) (hl : LabFrom lab []) :
    ∃ ts, (runT x.f allocs tokSem tokJunk ((flat gs).map RMove.toP) (x.f.blockInsts b) σ []).2 = ts ∧
      Good x.f out (x.f.blockInsts b) lab ts ∧
      ∃ σx, Post x (x.f.lastInst b) σx (Known x (labInsts x.f (x.f.blockInsts b) lab)) ∧
        Stage e num ms .OutEdgeMoves (2 * x.f.lastInst b) σx
          (runT x.f allocs tokSem tokJunk ((flat gs).map RMove.toP) (x.f.blockInsts b) σ []).1 := by
  have hne := hf.ready.nonempty b hb
  have := insts_labels hf hv D hst hb ho ((x.f.insns b).2 - (x.f.insns b).1 - 1) (x.f.insns b).1 σ lab [] [] (Nat.le_refl _) (by omega)
    (.inl ⟨rfl, h⟩) hl (by simp)
  rw [show (x.f.insns b).2 - (x.f.insns b).1 - 1 + 1 = (x.f.insns b).2 - (x.f.insns b).1 by omega] at this
  exact this
end

/-- What the checker must know at the start of a block: for each value that is needed, its label,
at the location it is in before the moves at the start of the block. -/
def Inv (x : Env) (ms : List InsertedMove) (c : Nat) (S : Checker.CState) : Prop :=
  ∀ w, ∀ r ∈ x.ranges w, r.Has (entryPt x.f c) → ¬ DefAt x.f w (entryPt x.f c) →
    (r.range.fr < entryPt x.f c ∨ ¬ ∃ q ∈ x.ranges w, q.range.fr < entryPt x.f c ∧ entryPt x.f c < q.range.to) →
    (∀ m ∈ ms, m.pp = ⟨InsertMovePrio.InEdgeMoves.toU32, pnt (entryPt x.f c)⟩ → m.dst = r.alloc → Checker.Claims S m.src (x.vreg w)) ∧
    ((∀ m ∈ ms, m.pp = ⟨InsertMovePrio.InEdgeMoves.toU32, pnt (entryPt x.f c)⟩ → m.dst ≠ r.alloc) → Checker.Claims S r.alloc (x.vreg w))

omit hf hv D in
theorem Inv.meet {c : Nat} {S T : Checker.CState} (h : Inv x ms c S) (h' : Inv x ms c T) : Inv x ms c (S.meet T) := by
  intro w r hr h1 h2 h3
  obtain ⟨a1, a2⟩ := h w r hr h1 h2 h3
  obtain ⟨b1, b2⟩ := h' w r hr h1 h2 h3
  exact ⟨fun m hm g1 g2 => Checker.meet_claims_of (a1 m hm g1 g2) (b1 m hm g1 g2), fun g => Checker.meet_claims_of (a2 g) (b2 g)⟩

theorem inv_entry (S : Checker.CState) : Inv x ms x.f.entry S := by
  intro w r hr hhas hnd _
  rcases hv.entered w r hr _ hf.entry (Reaches.refl _ _) hhas with h | h | h
  · rw [hv.entry_live w (range_lt hv hr)] at h; cases h
  · rw [hf.entry_params] at h; cases h
  · exact absurd h hnd

omit hf D in
theorem inv_start {c : Nat} {S : Checker.CState} (h : Inv x ms c S) : Start x e num ms c Tok.init (Known x (labOf S)) := by
  intro σ' S0 w r hr h1 h2 h3
  obtain ⟨a1, a2⟩ := h w r hr h1 h2 h3
  by_cases hex : ∃ m ∈ ms, m.pp = ⟨InsertMovePrio.InEdgeMoves.toU32, pnt (entryPt x.f c)⟩ ∧ m.dst = r.alloc
  · obtain ⟨m, hm, hpp, hd⟩ := hex
    rw [← hd, S0.moved m hm hpp]
    exact a1 m hm hpp hd
  · have hno : ∀ m ∈ ms, m.pp = ⟨InsertMovePrio.InEdgeMoves.toU32, pnt (entryPt x.f c)⟩ → m.dst ≠ r.alloc :=
      fun m hm hpp hd => hex ⟨m, hm, hpp, hd⟩
    rw [S0.kept _ hno (not_spare_range hv hr h1 _)]
    exact a2 hno

omit hf D in
theorem start_inv {c : Nat} {S : Checker.CState} {σ σ' : Allocation → Tok} {lab : Lab} (h : Start x e num ms c σ (Known x lab))
    (S0 : Stage e num ms .InEdgeMoves (entryPt x.f c) σ σ') (hrel : Checker.Rel lab σ S) : Inv x ms c S := by
  intro w r hr h1 h2 h3
  have ha := h σ' S0 w r hr h1 h2 h3
  refine ⟨?_, ?_⟩
  · intro m hm hpp hd
    rw [← hd, S0.moved m hm hpp] at ha
    exact hrel _ _ ha
  · intro hno
    rw [S0.kept _ hno (not_spare_range hv hr h1 _)] at ha
    exact hrel _ _ ha

end

end Regalloc.Apply
