import Verif.Proofs.ApplySem

/-
Edges, blocks and whole executions.
-/
namespace Regalloc.Apply

open Exec ResolveMoves RedundantMoves

variable {Val : Type}

/-- Values have arrived at the start of a block. A range that starts there inside another one of
the register is supplied later. -/
def Arr (x : Env) (c : Nat) (σ : Allocation → Val) (Q : Nat → Val → Prop) : Prop :=
  ∀ w, ∀ r ∈ x.ranges w, r.Has (entryPt x.f c) → ¬ DefAt x.f w (entryPt x.f c) →
    (r.range.fr < entryPt x.f c ∨ ¬ ∃ q ∈ x.ranges w, q.range.fr < entryPt x.f c ∧ entryPt x.f c < q.range.to) →
    Q w (σ r.alloc)

/-- Values will have arrived once the moves at the start of the block are done. -/
def Start (x : Env) (e : MoveEnv) (num : Nat) (ms : List InsertedMove) (c : Nat) (σ : Allocation → Val) (Q : Nat → Val → Prop) : Prop :=
  ∀ σ', Stage e num ms .InEdgeMoves (entryPt x.f c) σ σ' → Arr x c σ' Q

section
variable {x : Env} {e : ResolveMoves.MoveEnv} {num : Nat} (hf : FuncOk x) (hv : Valid x e num)
  {ms : List InsertedMove} {allocs al1 al2 : Nat → Nat → Allocation} {srcs psrcs : Nat → Nat → Option Allocation}
  {pdests : List PDest} (D : Done x ms allocs srcs psrcs pdests al1 al2)
include hf hv D

omit hv D in
theorem param_lt {c w : Nat} (h : w ∈ (x.f.params c).map VReg.vreg) : w < x.numVregs := by
  obtain ⟨p, hp, rfl⟩ := List.mem_map.mp h
  exact (hf.named_params c p hp).2

omit hv D in
theorem edgeMoves_eq {b k c : Nat} (hk : (x.f.succs b)[k]? = some c) :
    edgeMoves x.f b k c = (x.f.params c).zip (x.f.args b (x.f.lastInst b) k) := by
  unfold edgeMoves
  rw [if_pos (hf.ready.branches b (fun h => by rw [h] at hk; cases hk))]

omit hv D in
/-- What an edge does to the values of parameters, and of other registers. -/
theorem assign_par {b k c : Nat} (hb : b < x.f.numBlocks) (hk : (x.f.succs b)[k]? = some c) {V : VReg → Val} :
    ∀ v w, w < x.numVregs → (x.vreg w, x.vreg v) ∈ (x.f.params c).zip (x.f.args b (x.f.lastInst b) k) → ∀ a, Is x V v a →
      Is x (assignParams (edgeMoves x.f b k c) V) w a := by
  intro v w _ h5 a ha
  have hfst : ((x.f.params c).zip (x.f.args b (x.f.lastInst b) k)).map Prod.fst = x.f.params c :=
    List.map_fst_zip (Nat.le_of_eq (hf.ready.arity b k c hk).symm)
  have hnd : (((x.f.params c).zip (x.f.args b (x.f.lastInst b) k)).map Prod.fst).Nodup := by
    rw [hfst]
    exact List.Nodup.of_map _ (hf.ready.params c)
  unfold Is at ha ⊢
  rw [edgeMoves_eq hf hk, Checker.assignParams_mem _ V hnd (x.vreg w, x.vreg v) h5]
  exact ha

omit D in
theorem assign_live {b k c : Nat} (hb : b < x.f.numBlocks) (hk : (x.f.succs b)[k]? = some c) {V : VReg → Val} :
    ∀ w, w < x.numVregs → x.liveIn c w = true → ∀ a, Is x V w a → Is x (assignParams (edgeMoves x.f b k c) V) w a := by
  intro w hw hl a ha
  have hc := hf.edges.succLt b c hb (List.mem_of_getElem? hk)
  unfold Is at ha ⊢
  rw [edgeMoves_eq hf hk, Checker.assignParams_other]
  · exact ha
  · rw [List.map_fst_zip (Nat.le_of_eq (hf.ready.arity b k c hk).symm)]
    intro hm
    exact hv.live_param c w hc hw hl (List.mem_map.mpr ⟨_, hm, hf.index w hw⟩)

theorem edge_arrive {b k c p : Nat} {t : Bool} (hb : b < x.f.numBlocks) (hk : (x.f.succs b)[k]? = some c)
    (hreach : Reaches x.f.succs x.f.entry c) {σ σ' : Allocation → Val} {Q Q' : Nat → Val → Prop} (hx : Post x (x.f.lastInst b) σ Q)
    (hpar : ∀ v w, w < x.numVregs → (x.vreg w, x.vreg v) ∈ (x.f.params c).zip (x.f.args b (x.f.lastInst b) k) → ∀ a, Q v a → Q' w a)
    (hliv : ∀ w, w < x.numVregs → x.liveIn c w = true → ∀ a, Q w a → Q' w a)
    (hloc : Cfg.chooseMoveLocation x.f b c = some (p, t))
    (S : Stage e num ms (if t then InsertMovePrio.OutEdgeMoves else .InEdgeMoves) p σ σ') :
    Arr x c σ' Q' := by
  have hmem := List.mem_of_getElem? hk
  have hc := hf.edges.succLt b c hb hmem
  have hpred := (hf.edges.iff b c hb hc).mpr hmem
  have hp := edge_small hf hc hpred hloc
  -- the values on the edge
  have hparam : ∀ w s, w ∈ (x.f.params c).map VReg.vreg → psrcs b w = some s →
      ∃ v, ∃ r ∈ x.ranges v, r.Has (exitPt x.f b) ∧ s = r.alloc ∧ Q' w (σ s) := by
    intro w s hw hs
    obtain ⟨v, r, h1, h2, h3, k', h4, h5⟩ := psrc_val hf hv D hc hpred hw hs
    have hkk : k' = k := by
      have hn := hf.succs_nodup b
      obtain ⟨l1, e1⟩ := List.getElem?_eq_some_iff.mp h4
      obtain ⟨l2, e2⟩ := List.getElem?_eq_some_iff.mp hk
      exact (List.Nodup.getElem_inj_iff hn).mp (e1.trans e2.symm)
    subst hkk
    refine ⟨v, r, h1, h2, h3, ?_⟩
    rw [h3]
    exact hpar v w (param_lt hf hw) h5 _ (hx v r h1 h2)
  have hlive : ∀ w r, r ∈ x.ranges w → x.liveIn c w = true → ∀ a, Q w a → Q' w a :=
    fun w r hr hl => hliv w (range_lt hv hr) hl
  intro w r hr hhas hndef hcond
  by_cases hex : ∃ m ∈ ms, m.pp = ⟨(if t then InsertMovePrio.OutEdgeMoves else .InEdgeMoves).toU32, pnt p⟩ ∧ m.dst = r.alloc
  · obtain ⟨m, hm, hpp, hd⟩ := hex
    rw [← hd, S.moved m hm hpp]
    obtain ⟨a, c', w', r', E, hloc'⟩ := edge_at hf hv D hm hpp hp
    obtain ⟨ha, hcc⟩ := edge_unique hf E.to_lt hc E.pred hpred hloc' hloc
    subst ha hcc
    have hww : w' = w := same_reg hv E.range hr E.has hhas (E.dst.symm.trans hd)
    subst hww
    rcases E.src with ⟨h1, h2⟩ | ⟨h1, h2⟩
    · obtain ⟨_, _, _, _, _, h3⟩ := hparam w' _ h1 h2
      exact h3
    · obtain ⟨rs, h3, _, h4, h5⟩ := D.srcOk w' a _ h2
      rw [h5]
      exact hlive w' r hr h1 _ (hx w' rs h3 h4)
  · -- nothing was written there
    have hkeep : ∀ v, ∀ rv ∈ x.ranges v, rv.Has (exitPt x.f b) → rv.alloc = r.alloc → σ' r.alloc = σ r.alloc := by
      intro v rv hrv h1 h2
      refine S.kept _ (fun m hm hpp hd => hex ⟨m, hm, hpp, hd⟩) ?_
      rcases edge_point hloc with ⟨_, h3, h4, _⟩ | ⟨_, h3, _⟩
      · rw [h3, ← h2]
        apply not_spare_range hv hrv
        apply has_before hf hv hrv h1
        rintro ⟨b', hb', i', hi', o', ho', _, _, _, g4⟩
        have : i' = x.f.lastInst b := by
          have g5 := defPoint_div i' o'
          rw [← g4] at g5
          have g5 : (2 * x.f.lastInst b + 1) / 2 = i' := g5
          omega
        subst this
        rw [hf.join_ops b c hmem h4] at ho'
        cases ho'
      · rw [h3]
        exact not_spare_range hv hr hhas _
    rcases hv.entered w r hr c hc hreach hhas with hl | hl | hl
    · apply hlive w r hr hl
      by_cases hex2 : r.Has (exitPt x.f b)
      · rw [hkeep w r hr hex2 rfl]
        exact hx w r hr hex2
      · have hd : IsDest x w r ⟨b, c, r.alloc⟩ := ⟨hc, hhas, hl, hpred, hex2, rfl⟩
        cases hs : srcs w b with
        | none => exact absurd hs (D.have_ w r hr _ hd)
        | some s =>
          have hse : s = r.alloc := by
            by_cases hne : s = r.alloc
            · exact hne
            · exfalso
              apply hex
              refine ⟨_, (D.moves _).mpr (.inr (.inl ⟨w, r, hr, ⟨b, c, r.alloc⟩, s, hd, hs, hne, p, t, hloc, rfl⟩)), rfl, rfl⟩
          obtain ⟨rs, h3, _, h4, h5⟩ := D.srcOk w b _ hs
          rw [hkeep w rs h3 h4 (h5.symm.trans hse), ← hse, h5]
          exact hx w rs h3 h4
    · have hin : (⟨b, c, w⟩ : In) ∈ x.ins := (hv.ins _).mpr ⟨c, hc, rfl, hpred, hl⟩
      rcases D.full w r hr _ hin rfl hhas with hd | ⟨q, h1, h2, h3, h4⟩
      · cases hs : psrcs b w with
        | none => exact absurd hs (D.phave _ hd)
        | some s =>
          have hse : s = r.alloc := by
            by_cases hne : s = r.alloc
            · exact hne
            · exfalso
              apply hex
              refine ⟨_, (D.moves _).mpr (.inr (.inr (.inl ⟨_, hd, s, hs, hne, p, t, hloc, rfl⟩))), rfl, rfl⟩
          obtain ⟨v, rs, h3, h4, h5, h6⟩ := hparam w s hl hs
          rw [hkeep v rs h3 h4 (h5.symm.trans hse), ← hse]
          exact h6
      · dsimp only at h3
        rcases hcond with h5 | h5
        · omega
        · exact absurd ⟨q, h1, by omega, by omega⟩ h5
    · exact absurd hl hndef

/-- Nothing is needed at the start of the function. -/
theorem arr_entry (σ : Allocation → Val) (Q : Nat → Val → Prop) : Arr x x.f.entry σ Q := by
  intro w r hr hhas hnd _
  rcases hv.entered w r hr _ hf.entry (Reaches.refl _ _) hhas with h | h | h
  · rw [hv.entry_live w (range_lt hv hr)] at h; cases h
  · rw [hf.entry_params] at h; cases h
  · exact absurd h hnd

omit hv D in
theorem blockInsts_mem {b i : Nat} : i ∈ x.f.blockInsts b ↔ (x.f.insns b).1 ≤ i ∧ i < (x.f.insns b).2 := by
  unfold Func.blockInsts
  rw [List.mem_range'_1]
  omega

/-- Moves at the end of a block that are not empty belong to it. -/
theorem out_group {b i : Nat} (hb : b < x.f.numBlocks) (hi : i ∈ x.f.blockInsts b) {m : InsertedMove} (hm : m ∈ ms)
    (hpp : m.pp = ⟨InsertMovePrio.OutEdgeMoves.toU32, pnt (2 * i)⟩) :
    i = x.f.lastInst b ∧ ∃ c, x.f.succs b = [c] ∧ 1 < Cfg.inEdges x.f c ∧ x.f.operands i = [] ∧ x.f.clobbers i = [] := by
  have hsm := inst_small hf ⟨b, hb, hi⟩
  obtain ⟨a, c, w, r, E, hloc⟩ := edge_at hf hv D (t := true) hm hpp (show 2 * i < 2 ^ 32 by omega)
  have ha := hf.edges.predLt a c E.to_lt E.pred
  have hs := (hf.edges.iff a c ha E.to_lt).mp E.pred
  rcases edge_point hloc with ⟨_, h1, h2, _⟩ | ⟨h1, _⟩
  · have h1 : 2 * i = 2 * x.f.lastInst a := h1
    have hil : i = x.f.lastInst a := by omega
    have hab : a = b := by
      have h3 := (hv.blocks b hb i).mpr ((blockInsts_mem hf).mp hi)
      have h4 := (hv.blocks a ha i).mpr (by have := lastInst_eq hf ha; omega)
      omega
    subst hab
    exact ⟨hil, c, (hf.critical a c hs h2).1, h2, by rw [hil]; exact hf.join_ops a c hs h2, by rw [hil]; exact hf.join_clobbers a c hs h2⟩
  · cases h1

/-- Moves at the start of a block. -/
theorem in_group {q : Nat} (hq : q < 2 ^ 32) {m : InsertedMove} (hm : m ∈ ms) (hpp : m.pp = ⟨InsertMovePrio.InEdgeMoves.toU32, pnt q⟩) :
    ∃ c, c < x.f.numBlocks ∧ q = entryPt x.f c ∧ Cfg.inEdges x.f c ≤ 1 := by
  obtain ⟨a, c, w, r, E, hloc⟩ := edge_at hf hv D (t := false) hm hpp hq
  rcases edge_point hloc with ⟨h1, _⟩ | ⟨_, h1, h2⟩
  · cases h1
  · exact ⟨c, E.to_lt, h1, h2⟩

/-- What is known before instruction `i` and its moves. -/
def Before (x : Env) (e : MoveEnv) (num : Nat) (ms : List InsertedMove) (b i : Nat) (σ : Allocation → Val) (Q : Nat → Val → Prop) : Prop :=
  (i = (x.f.insns b).1 ∧ Start x e num ms b σ Q) ∨ ((x.f.insns b).1 < i ∧ Post x (i - 1) σ Q)

theorem before_held {b i : Nat} (hb : b < x.f.numBlocks) (hi : i ∈ x.f.blockInsts b) {σ σ0 σ1 σ2 σ3 : Allocation → Val} {Q : Nat → Val → Prop}
    (h : Before x e num ms b i σ Q) (S0 : Stage e num ms .InEdgeMoves (2 * i) σ σ0)
    (S1 : Stage e num ms .Regular (2 * i) σ0 σ1) (S2 : Stage e num ms .MultiFixedRegInitial (2 * i) σ1 σ2)
    (S3 : Stage e num ms .MultiFixedRegSecondary (2 * i) σ2 σ3) :
    Held x (2 * i) σ3 Q ∧ ∀ l, Fixed x l (2 * i) σ3 Q := by
  have hsm := inst_small hf ⟨b, hb, hi⟩
  have hst := start_iff hf hv hb hi
  refine stages_held hf hv D hb hi ?_ ?_ S1 S2 S3
  · intro v r hr h1 h2 h3 h4
    rcases h with ⟨rfl, h⟩ | ⟨hlt, h⟩
    · rw [hst.mpr rfl] at h3
      have h3 : 2 * (x.f.insns b).1 < r.range.to := by
        rcases h3 with h3 | h3
        · exact h3
        · cases h3
      exact h σ0 S0 v r hr ⟨Nat.le_of_lt h1, h3⟩ h4 (.inl h1)
    · have hns : isStart x (2 * i) ≠ true := fun hs => by have := hst.mp hs; omega
      rw [S0.none]
      · exact h v r hr ⟨show _ ≤ 2 * (i - 1) + 1 by omega, show 2 * (i - 1) + 1 < _ by omega⟩
      · intro m hm hpp
        obtain ⟨c, hc, hqc, _⟩ := in_group hf hv D (by omega) hm hpp
        apply hns
        have hqc : 2 * i = 2 * (x.f.insns c).1 := hqc
        have hic : i = (x.f.insns c).1 := by omega
        have hmem : i ∈ x.f.blockInsts c := (blockInsts_mem hf).mpr (by have := hf.ready.nonempty c hc; omega)
        exact (start_iff hf hv hc hmem).mpr hic
  · intro v r hr h1 h2 h3 h4
    rcases h with ⟨rfl, h⟩ | ⟨hlt, h⟩
    · exact h σ0 S0 v r hr ⟨Nat.le_of_eq h1, by have := hv.nonempty v r hr; show 2 * _ < _; omega⟩ h3 (.inr h4)
    · have := hst.mp h2
      omega

theorem before_pre {b i : Nat} (hb : b < x.f.numBlocks) (hi : i ∈ x.f.blockInsts b) {σ σ0 σ1 σ2 σ3 σ4 : Allocation → Val} {Q : Nat → Val → Prop}
    (h : Before x e num ms b i σ Q) (S0 : Stage e num ms .InEdgeMoves (2 * i) σ σ0)
    (S1 : Stage e num ms .Regular (2 * i) σ0 σ1) (S2 : Stage e num ms .MultiFixedRegInitial (2 * i) σ1 σ2)
    (S3 : Stage e num ms .MultiFixedRegSecondary (2 * i) σ2 σ3) (S4 : Stage e num ms .ReusedInput (2 * i) σ3 σ4) :
    Pre x allocs i σ4 Q := by
  obtain ⟨h1, h2⟩ := before_held hf hv D hb hi h S0 S1 S2 S3
  exact stage_reuse hf hv D ⟨b, hb, hi⟩ h1 h2 S4

section
variable {gs : List GroupOut} (hst : ∀ q, q < 2 ^ 32 → ∀ σ : Allocation → Val, ∃ σ0 σ1 σ2 σ3 σ4, Stage e num ms .InEdgeMoves q σ σ0 ∧
  Stage e num ms .Regular q σ0 σ1 ∧ Stage e num ms .MultiFixedRegInitial q σ1 σ2 ∧ Stage e num ms .MultiFixedRegSecondary q σ2 σ3 ∧
  Stage e num ms .ReusedInput q σ3 σ4 ∧ Stage e num ms .OutEdgeMoves q σ4 (movesAt ((flat gs).map RMove.toP) q σ))
include hst

theorem insts_run {b : Nat} (hb : b < x.f.numBlocks) (sem : Sem Val) (junk : Nat → Allocation → Val) :
    ∀ (n i : Nat) (σ : Allocation → Val) (V : VReg → Val) (tr : Trace Val), (x.f.insns b).1 ≤ i → i + n + 1 = (x.f.insns b).2 →
    Before x e num ms b i σ (Is x V) →
    (runT x.f allocs sem junk ((flat gs).map RMove.toP) (List.range' i (n + 1)) σ tr).2 = (origInsts x.f sem (List.range' i (n + 1)) V tr).2 ∧
    ∃ σx, Post x (x.f.lastInst b) σx (Is x (origInsts x.f sem (List.range' i (n + 1)) V tr).1) ∧
      Stage e num ms .OutEdgeMoves (2 * x.f.lastInst b) σx
        (runT x.f allocs sem junk ((flat gs).map RMove.toP) (List.range' i (n + 1)) σ tr).1 := by
  intro n
  induction n with
  | zero =>
    intro i σ V tr hlo hhi hbef
    have hi : i ∈ x.f.blockInsts b := (blockInsts_mem hf).mpr ⟨hlo, by omega⟩
    have hlast : i = x.f.lastInst b := by have := lastInst_eq hf hb; omega
    have hsm := inst_small hf ⟨b, hb, hi⟩
    obtain ⟨σ0, σ1, σ2, σ3, σ4, S0, S1, S2, S3, S4, S5⟩ := hst (2 * i) (by omega) σ
    have P := before_pre hf hv D hb hi hbef S0 S1 S2 S3 S4
    show (runT x.f allocs sem junk ((flat gs).map RMove.toP) [i] σ tr).2 = (origInsts x.f sem [i] V tr).2 ∧ ∃ σx, Post x (x.f.lastInst b) σx
      (Is x (origInsts x.f sem [i] V tr).1) ∧ Stage e num ms .OutEdgeMoves (2 * x.f.lastInst b) σx
        (runT x.f allocs sem junk ((flat gs).map RMove.toP) [i] σ tr).1
    simp only [runT, origInsts]
    rw [← hlast]
    by_cases hg : ∃ m ∈ ms, m.pp = ⟨InsertMovePrio.OutEdgeMoves.toU32, pnt (2 * i)⟩
    · obtain ⟨m, hm, hpp⟩ := hg
      obtain ⟨_, _, _, _, hop, hcl⟩ := out_group hf hv D hb hi hm hpp
      have h1 : ∀ A : Allocation → Val, stepA x.f allocs (sem tr) junk i tr.length A = ((i, [], []), A) := by
        intro A
        unfold stepA
        rw [hop, hcl]
        rfl
      have h2 : stepInst (sem tr) i ((x.f.operands i).map (fun o => (o, o.vreg))) V = ((i, [], []), V) := by
        rw [hop]; rfl
      rw [h1, h2]
      refine ⟨rfl, σ4, ?_, S5⟩
      intro v r hr hhas
      have hnd : ∀ p, p / 2 = i → ¬ DefAt x.f v p := by
        rintro p hp ⟨b', hb', i', hi', o', ho', g1, g2, g3, g4⟩
        have : i' = i := by rw [← hp, g4, defPoint_div]
        subst this
        rw [hop] at ho'
        cases ho'
      exact P.ranges v r hr hhas (hnd _ (show 2 * i / 2 = i by omega)) (hnd _ (show (2 * i + 1) / 2 = i by omega))
    · have hg : ∀ m ∈ ms, m.pp ≠ ⟨InsertMovePrio.OutEdgeMoves.toU32, pnt (2 * i)⟩ := fun m hm hpp => hg ⟨m, hm, hpp⟩
      rw [S5.none hg]
      obtain ⟨h1, h2⟩ := inst_exec hf hv D hb hi (sem tr) junk tr.length P
      rw [h1]
      exact ⟨rfl, _, h2, fun m hm hpp => absurd hpp (hg m hm), fun _ _ _ => rfl, fun _ => rfl⟩
  | succ n ih =>
    intro i σ V tr hlo hhi hbef
    have hi : i ∈ x.f.blockInsts b := (blockInsts_mem hf).mpr ⟨hlo, by omega⟩
    have hsm := inst_small hf ⟨b, hb, hi⟩
    obtain ⟨σ0, σ1, σ2, σ3, σ4, S0, S1, S2, S3, S4, S5⟩ := hst (2 * i) (by omega) σ
    have P := before_pre hf hv D hb hi hbef S0 S1 S2 S3 S4
    rw [List.range'_succ]
    rw [runT, origInsts]
    have hg : ∀ m ∈ ms, m.pp ≠ ⟨InsertMovePrio.OutEdgeMoves.toU32, pnt (2 * i)⟩ := by
      intro m hm hpp
      have := (out_group hf hv D hb hi hm hpp).1
      have := lastInst_eq hf hb
      omega
    rw [S5.none hg]
    obtain ⟨h1, h2⟩ := inst_exec hf hv D hb hi (sem tr) junk tr.length P
    rw [h1]
    exact ih (i + 1) _ _ _ (by omega) (by omega) (.inr ⟨by omega, by rw [Nat.add_sub_cancel]; exact h2⟩)

theorem block_sim {b : Nat} (hb : b < x.f.numBlocks) (sem : Sem Val) (junk : Nat → Allocation → Val) {σ : Allocation → Val} {V : VReg → Val}
    (tr : Trace Val) (h : Start x e num ms b σ (Is x V)) :
    (runT x.f allocs sem junk ((flat gs).map RMove.toP) (x.f.blockInsts b) σ tr).2 = (origInsts x.f sem (x.f.blockInsts b) V tr).2 ∧
    ∃ σx, Post x (x.f.lastInst b) σx (Is x (origInsts x.f sem (x.f.blockInsts b) V tr).1) ∧
      Stage e num ms .OutEdgeMoves (2 * x.f.lastInst b) σx
        (runT x.f allocs sem junk ((flat gs).map RMove.toP) (x.f.blockInsts b) σ tr).1 := by
  have hne := hf.ready.nonempty b hb
  have := insts_run hf hv D hst hb sem junk ((x.f.insns b).2 - (x.f.insns b).1 - 1) (x.f.insns b).1 σ V tr (Nat.le_refl _) (by omega)
    (.inl ⟨rfl, h⟩)
  rw [show (x.f.insns b).2 - (x.f.insns b).1 - 1 + 1 = (x.f.insns b).2 - (x.f.insns b).1 by omega] at this
  exact this

/-- Leaving a block. -/
theorem edge_start {b k c : Nat} (hb : b < x.f.numBlocks) (hk : (x.f.succs b)[k]? = some c)
    (hreach : Reaches x.f.succs x.f.entry c) {σ σ' : Allocation → Val} {Q Q' : Nat → Val → Prop} (hx : Post x (x.f.lastInst b) σ Q)
    (hpar : ∀ v w, w < x.numVregs → (x.vreg w, x.vreg v) ∈ (x.f.params c).zip (x.f.args b (x.f.lastInst b) k) → ∀ a, Q v a → Q' w a)
    (hliv : ∀ w, w < x.numVregs → x.liveIn c w = true → ∀ a, Q w a → Q' w a)
    (S : Stage e num ms .OutEdgeMoves (2 * x.f.lastInst b) σ σ') :
    Start x e num ms c σ' Q' := by
  have hmem := List.mem_of_getElem? hk
  have hc := hf.edges.succLt b c hb hmem
  have hlm : x.f.lastInst b ∈ x.f.blockInsts b := (blockInsts_mem hf).mpr (by have := lastInst_eq hf hb; omega)
  intro σ'' S0
  by_cases hin : 1 < Cfg.inEdges x.f c
  · have hloc : Cfg.chooseMoveLocation x.f b c = some (ptBefore (x.f.lastInst b), true) := by
      obtain ⟨h1, h2⟩ := hf.critical b c hmem hin
      unfold Cfg.chooseMoveLocation
      dsimp only
      rw [if_pos ⟨hin, by rw [h1, h2]; simp⟩]
    rw [S0.none]
    · exact edge_arrive hf hv D hb hk hreach hx hpar hliv hloc S
    · intro m hm hpp
      have hsm := inst_small hf ⟨c, hc, (blockInsts_mem hf).mpr ⟨Nat.le_refl _, hf.ready.nonempty c hc⟩⟩
      obtain ⟨c', hc', h1, h2⟩ := in_group hf hv D (show 2 * (x.f.insns c).1 < _ by omega) hm hpp
      have := entry_inj hf hc hc' h1
      subst this
      omega
  · have hloc : Cfg.chooseMoveLocation x.f b c = some (entryPt x.f c, false) := by
      unfold Cfg.chooseMoveLocation
      dsimp only
      rw [if_neg (fun h => hin h.1), if_pos (by omega)]
      rfl
    rw [S.none] at S0
    · exact edge_arrive hf hv D hb hk hreach hx hpar hliv hloc S0
    · intro m hm hpp
      obtain ⟨_, c', h1, h2, _⟩ := out_group hf hv D hb hlm hm hpp
      rw [h1, List.mem_singleton] at hmem
      subst hmem
      exact hin h2

theorem run_all {out : Output} (sem : Sem Val) (junk : Nat → Allocation → Val)
    (hblock : ∀ b, b < x.f.numBlocks → ∀ A tr, allocItems x.f out sem junk (out.blockInstsAndEdits x.f b) A tr =
      runT x.f allocs sem junk ((flat gs).map RMove.toP) (x.f.blockInsts b) A tr) :
    ∀ (ks : List Nat) (b : Nat) (σ : Allocation → Val) (V : VReg → Val) (tr : Trace Val), b < x.f.numBlocks →
      Reaches x.f.succs x.f.entry b → Start x e num ms b σ (Is x V) →
      allocRun x.f out sem junk ks b σ tr = origRun x.f sem ks b V tr := by
  intro ks
  induction ks with
  | nil =>
    intro b σ V tr hb _ h
    unfold allocRun origRun
    rw [hblock b hb]
    exact (block_sim hf hv D hst hb sem junk tr h).1
  | cons k ks ih =>
    intro b σ V tr hb hr h
    unfold allocRun origRun
    dsimp only
    rw [hblock b hb]
    obtain ⟨h1, σx, h2, h3⟩ := block_sim hf hv D hst hb sem junk tr h
    cases hs : (x.f.succs b)[k]? with
    | none => exact h1
    | some s =>
      dsimp only
      rw [h1]
      have hmem := List.mem_of_getElem? hs
      have hreach := hr.step hmem
      exact ih s _ _ _ (hf.edges.succLt b s hb hmem) hreach (edge_start hf hv D hst hb hs hreach h2 (assign_par hf hb hs) (assign_live hf hv hb hs) h3)
end
end

end Regalloc.Apply
