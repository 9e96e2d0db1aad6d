import Verif.Proofs.AcceptFlow

/-
The checker accepts the emitted code.
-/
namespace Regalloc.Apply

open Exec ResolveMoves RedundantMoves
open Checker (Tok tokStep tokSem tokJunk Lab labInst labInsts LabFrom NoJunk Good GoodReads InstFit labEdge labOf)

/-- Edits of a block are edits of the output. -/
theorem edit_mem {edits : List (Nat × Edit)} {lo hi : Nat} {q : Edit} (h : InstOrEdit.edit q ∈ blockItems edits lo hi) :
    ∃ pe ∈ edits, pe.2 = q := by
  unfold blockItems at h
  obtain ⟨i, _, h⟩ := List.mem_flatMap.mp h
  rcases List.mem_append.mp h with h | h
  · obtain ⟨pe, hpe, he⟩ := List.mem_map.mp h
    exact ⟨pe, (List.mem_filter.mp hpe).1, by injection he⟩
  · simp at h

theorem mapAll_nil {α β : Type} (g : α → Option (List β)) :
    ∀ l : List α, (∀ a ∈ l, g a = some []) → ∃ ess, Checker.mapAll g l = some ess ∧ ess.flatten = []
  | [], _ => ⟨[], rfl, rfl⟩
  | a :: l, h => by
    obtain ⟨ess, h1, h2⟩ := mapAll_nil g l (fun c hc => h c (List.mem_cons_of_mem _ hc))
    refine ⟨[] :: ess, ?_, by simpa using h2⟩
    unfold Checker.mapAll
    rw [h1, h a List.mem_cons_self]

/-- No block has errors. -/
theorem findErrors_ok {f : Func} {env : MachineEnv} {p : Checker.Prep} {bbIn : List Checker.CState}
    (h : ∀ b, b < f.numBlocks → ∃ S, bbIn[b]? = some S ∧ Checker.blockErrors? env S (p.insts b) = some []) :
    Checker.findErrors? f env p bbIn = some [] := by
  unfold Checker.findErrors?
  split
  · rename_i hn
    obtain ⟨ess, h1, _⟩ := mapAll_nil (l := List.range f.numBlocks) (g := fun b => match bbIn[b]? with
      | none => none | some s => Checker.blockErrors? env s (p.insts b)) (by
        intro b hb
        obtain ⟨S, h3, h4⟩ := h b (List.mem_range.mp hb)
        show (match bbIn[b]? with | none => none | some s => Checker.blockErrors? env s (p.insts b)) = _
        rw [h3]; exact h4)
    exact absurd (hn.symm.trans h1) (by simp)
  · rename_i ess' hn
    obtain ⟨ess, h1, h2⟩ := mapAll_nil (l := List.range f.numBlocks) (g := fun b => match bbIn[b]? with
      | none => none | some s => Checker.blockErrors? env s (p.insts b)) (by
        intro b hb
        obtain ⟨S, h3, h4⟩ := h b (List.mem_range.mp hb)
        show (match bbIn[b]? with | none => none | some s => Checker.blockErrors? env s (p.insts b)) = _
        rw [h3]; exact h4)
    have := Option.some.inj (hn.symm.trans h1)
    rw [this, h2]

section
variable {x : Env} {e : ResolveMoves.MoveEnv} {num : Nat} (hf : FuncOk x) (hv : Valid x e num)
  {ms : List InsertedMove} {allocs al1 al2 : Nat → Nat → Allocation} {srcs psrcs : Nat → Nat → Option Allocation}
  {pdests : List PDest} (D : Done x ms allocs srcs psrcs pdests al1 al2)
include hf hv D

/-- Locations of one instruction do not interfere. -/
theorem inst_fit {b i : Nat} (hb : b < x.f.numBlocks) (hi : i ∈ x.f.blockInsts b) {out : Output} {env : MachineEnv}
    (ho : out.instAllocs i = some ((List.range (x.f.operands i).length).map (allocs i)))
    (hc : ∀ q ∈ Checker.locs x.f out i, q.2 ≠ .none ∧ (q.1.pos = .Early ∨ Checker.hasReuse (x.f.operands i) = false →
      Checker.checkConstraint env i q.1 q.2 ((out.instAllocs i).getD []) = .ok)) : InstFit x.f env out i := by
  have hin : ∃ b, b < x.f.numBlocks ∧ i ∈ x.f.blockInsts b := ⟨b, hb, hi⟩
  have hloc : Checker.locs x.f out i = opLocs x.f allocs i := by
    show (x.f.operands i).zip ((out.instAllocs i).getD []) = _
    rw [ho]; rfl
  refine ⟨⟨_, ho, by simp⟩, ?_, ?_, hc⟩
  · intro k k' q q' hk hk' hne hd hd' hn
    rw [hloc] at hk hk'
    obtain ⟨h1, h2⟩ := (opLocs_get _ _ _ _ _).mp hk
    obtain ⟨h3, h4⟩ := (opLocs_get _ _ _ _ _).mp hk'
    have hoa : OpAt x.f i k q.1 := ⟨hin, h1, hn⟩
    obtain ⟨r, hr, _, _, _, _, hp, hal⟩ := al2_def hf hv D hoa hd
    have hto := (hv.defs i k q.1 hoa hd r hr hp).1
    have hhas : r.Has (ptAfter i) := by
      refine ⟨?_, ?_⟩
      · have h5 := hp.1
        rcases defPoint_or i q.1 with h6 | h6 <;> rw [h6] at h5
        · exact Nat.le_trans h5 (Nat.le_succ _)
        · exact h5
      · have hto : 2 * (i + 1) ≤ r.range.to := hto
        show 2 * i + 1 < _
        omega
    have hother := (def_range hf hv D hb hi hoa hd hr hhas).2 k' q'.1 h3 (fun h => hne h.symm) hd'
    refine ⟨?_, ?_⟩
    · rw [h2, h4, allocs_def hf hv D hoa hd, hal]
      exact (def_apart hf hv D hb hi h3 hd' hr hhas hother).symm
    · rw [(hf.named i q.1 (List.mem_of_getElem? h1) hn).1]
      exact (name_apart hf hv hb hi h3 hr hother).symm
  · intro q hq hk hp hn
    rw [hloc] at hq
    obtain ⟨k, h1, h2⟩ := opLocs_mem _ _ _ _ hq
    have hoa : OpAt x.f i k q.1 := ⟨hin, h1, hn⟩
    obtain ⟨r, hr, hhas, hal⟩ := late_use_range hf hv D hoa hk hp
    have hnd := late_not_def hf hv D hb hi hoa hk
    rw [h2, hal]
    refine ⟨?_, ?_⟩
    · intro q' hq' hd'
      rw [hloc] at hq'
      obtain ⟨k', h3, h4⟩ := opLocs_mem _ _ _ _ hq'
      rw [h4]
      exact def_apart hf hv D hb hi h3 hd' hr hhas (hnd k' q'.1 h3 hd')
    · intro hm
      obtain ⟨p, hp, hpe⟩ := List.mem_map.mp hm
      exact hv.clobbers b hb i hi p hp _ r hr hhas hpe.symm

omit hv D in
/-- The moves that the checker collects for an edge. -/
theorem edge_insts {out : Output} {b k c : Nat} (hb : b < x.f.numBlocks) (hs : SortedEdits out.edits)
    (hbr : ∀ i ∈ x.f.blockInsts b, x.f.isBranch i = true → i = x.f.lastInst b) (hk : (x.f.succs b)[k]? = some c) :
    (Checker.edgeInsts x.f out b c = [] ∧ edgeMoves x.f b k c = []) ∨
      Checker.edgeInsts x.f out b c = [.pmove (edgeMoves x.f b k c)] := by
  have hbrs : Checker.branches x.f out b = if x.f.isBranch (x.f.lastInst b) then [x.f.lastInst b] else [] := by
    have e : Checker.branches x.f out b = (x.f.blockInsts b).filter (fun i => x.f.isBranch i) := by
      rw [← Checker.instsOf_eq (out := out) hs b]; rfl
    rw [e]
    exact Checker.filter_unique (Checker.blockInsts_nodup x.f b) ((blockInsts_mem hf).mpr (by have := lastInst_eq hf hb; omega)) hbr
  have hni := fun {j : Nat} (hj : (x.f.succs b)[j]? = some c) => (List.getElem?_eq_some_iff.mp hj)
  apply Checker.edgeInsts_eq hbrs hk
  · intro k' hk'
    obtain ⟨l1, e1⟩ := hni hk
    obtain ⟨l2, e2⟩ := hni hk'
    exact .inl ((List.Nodup.getElem_inj_iff (hf.succs_nodup b)).mp (e1.trans e2.symm))
  · rw [hbrs, List.all_eq_true]
    intro i hi
    have hil : i = x.f.lastInst b := by
      split at hi
      · exact List.mem_singleton.mp hi
      · cases hi
    subst hil
    unfold Checker.argsMatch
    rw [List.all_eq_true]
    intro q hq
    rw [List.mem_zipIdx_iff_getElem?] at hq
    rw [beq_iff_eq]
    exact hf.ready.arity b q.2 q.1 hq

section
variable {gs : List GroupOut} (hst : ∀ q, q < 2 ^ 32 → ∀ σ : Allocation → Tok, ∃ σ0 σ1 σ2 σ3 σ4, Stage e num ms .InEdgeMoves q σ σ0 ∧
  Stage e num ms .Regular q σ0 σ1 ∧ Stage e num ms .MultiFixedRegInitial q σ1 σ2 ∧ Stage e num ms .MultiFixedRegSecondary q σ2 σ3 ∧
  Stage e num ms .ReusedInput q σ3 σ4 ∧ Stage e num ms .OutEdgeMoves q σ4 (movesAt ((flat gs).map RMove.toP) q σ))
include hst

/-- One block and the edges that leave it. -/
theorem transfer {b : Nat} (hb : b < x.f.numBlocks) {out : Output} {env : MachineEnv} (hs : SortedEdits out.edits)
    (ho : ∀ i ∈ x.f.blockInsts b, out.instAllocs i = some ((List.range (x.f.operands i).length).map (allocs i)))
    (hblock : allocItems x.f out tokSem tokJunk (out.blockInstsAndEdits x.f b) Tok.init [] =
      runT x.f allocs tokSem tokJunk ((flat gs).map RMove.toP) (x.f.blockInsts b) Tok.init [])
    (hfit : ∀ i ∈ x.f.blockInsts b, InstFit x.f env out i)
    (hmv : ∀ q, InstOrEdit.edit q ∈ out.blockInstsAndEdits x.f b → ¬ (Checker.isStackAlloc env q.dst = true ∧ Checker.isStackAlloc env q.src = true))
    (hbr : ∀ i ∈ x.f.blockInsts b, x.f.isBranch i = true → i = x.f.lastInst b) (hreach : ∀ c ∈ x.f.succs b, Reaches x.f.succs x.f.entry c)
    {UA : List Allocation} {UV : List VReg} {S : Checker.CState} (hwf : Checker.StWf UA UV S) {cis : List Checker.CInst}
    (hci : Checker.blockInsts? x.f out b = some cis) (hwi : ∀ ci ∈ cis, ci.Within UA UV) (hinv : Inv x ms b S) :
    Checker.blockErrors? env S cis = some [] ∧ ∀ S1, Checker.updates? S cis = some S1 → ∀ c ∈ x.f.succs b, ∀ S2,
      Checker.updates? S1 (Checker.edgeInsts x.f out b c) = some S2 → Inv x ms c S2 := by
  have hios : Checker.instsOf (out.blockInstsAndEdits x.f b) = x.f.blockInsts b := Checker.instsOf_eq hs b
  obtain ⟨ts, h1, h2, σx, h3, h4⟩ := block_labels hf hv D hst hb ho (inv_start hv hinv) (fun i k v h => by cases h)
  obtain ⟨h5, S', h6, h7⟩ := Checker.accept_items (f := x.f) (env := env) (out := out) (out.blockInstsAndEdits x.f b) (cis := cis)
    (σ := Tok.init) (S := S) (lab := labOf S) (done := []) (tr := []) (ts := ts) hci hwf hwi (by rw [hios]; exact hfit) hmv
    (by rw [hios]; exact Checker.blockInsts_nodup _ _) (by simp) (fun a v h => h) (fun a i k h => by cases h) (fun v h => h)
    (by rw [hblock, h1]; rfl) (by rw [hios]; exact h2)
  rw [hios, hblock] at h7
  refine ⟨h5, ?_⟩
  intro S1 hS1 c hc S2 hS2
  rw [h6] at hS1
  cases hS1
  obtain ⟨k, hk⟩ := List.mem_iff_getElem?.mp hc
  have hcl := hf.edges.succLt b c hb hc
  have hrel : Checker.Rel (labEdge (edgeMoves x.f b k c) (labInsts x.f (x.f.blockInsts b) (labOf S)))
      (runT x.f allocs tokSem tokJunk ((flat gs).map RMove.toP) (x.f.blockInsts b) Tok.init []).1 S2 := by
    rcases edge_insts hf (out := out) hb hs hbr hk with ⟨g1, g2⟩ | g1
    · rw [g1] at hS2
      simp only [Checker.updates?, Option.some.injEq] at hS2
      subst hS2
      rw [g2]
      rintro a v (⟨_, h⟩ | ⟨u, h, _⟩)
      · exact h7 a v h
      · cases h
    · rw [g1] at hS2
      simp only [Checker.updates?] at hS2
      split at hS2
      · cases hS2
      rename_i S3 hS3
      cases hS2
      exact Checker.rel_pmove h7 hS3
  have hstart := edge_start hf hv D hst hb hk (hreach c hc) h3
    (Q' := Known x (labEdge (edgeMoves x.f b k c) (labInsts x.f (x.f.blockInsts b) (labOf S))))
    (by
      intro v w _ hm a ha
      rw [← edgeMoves_eq hf hk] at hm
      exact .inr ⟨_, hm, ha⟩)
    (by
      intro w hw hl a ha
      refine .inl ⟨?_, ha⟩
      rw [edgeMoves_eq hf hk, List.map_fst_zip (Nat.le_of_eq (hf.ready.arity b k c hk).symm)]
      intro hm
      exact hv.live_param c w hcl hw hl (List.mem_map.mpr ⟨_, hm, hf.index w hw⟩)) h4
  have hsm := inst_small hf ⟨c, hcl, (blockInsts_mem hf).mpr ⟨Nat.le_refl _, hf.ready.nonempty c hcl⟩⟩
  obtain ⟨σ0, _, _, _, _, S0, _⟩ := hst (entryPt x.f c) (show 2 * (x.f.insns c).1 < _ by omega)
    (runT x.f allocs tokSem tokJunk ((flat gs).map RMove.toP) (x.f.blockInsts b) Tok.init []).1
  exact start_inv hv hstart S0 hrel

/-- The checker accepts the code. -/
theorem accepts {out : Output} {env : MachineEnv} (hs : SortedEdits out.edits)
    (ho : ∀ b, b < x.f.numBlocks → ∀ i ∈ x.f.blockInsts b, out.instAllocs i = some ((List.range (x.f.operands i).length).map (allocs i)))
    (hblock : ∀ b, b < x.f.numBlocks → allocItems x.f out tokSem tokJunk (out.blockInstsAndEdits x.f b) Tok.init [] =
      runT x.f allocs tokSem tokJunk ((flat gs).map RMove.toP) (x.f.blockInsts b) Tok.init [])
    (hfit : ∀ b, b < x.f.numBlocks → ∀ i ∈ x.f.blockInsts b, InstFit x.f env out i)
    (hmv : ∀ q ∈ out.edits, ¬ (Checker.isStackAlloc env q.2.dst = true ∧ Checker.isStackAlloc env q.2.src = true))
    (hbr : ∀ b, b < x.f.numBlocks → ∀ i ∈ x.f.blockInsts b, x.f.isBranch i = true → i = x.f.lastInst b)
    (hreach : ∀ b, b < x.f.numBlocks → Reaches x.f.succs x.f.entry b)
    (horder : ∀ b, b < x.f.numBlocks → b ≠ x.f.entry → ∃ a, a < b ∧ b ∈ x.f.succs a)
    (hwell : Checker.WellFormed x.f out) : Checker.run? x.f env out = some [] := by
  obtain ⟨es, hes⟩ := Checker.run_isSome (env := env) hwell
  have hes' := hes
  unfold Checker.run? at hes'
  split at hes'
  · cases hes'
  rename_i p hp
  obtain ⟨hp1, hp2, _⟩ := Checker.prepare_spec hp
  have hmv' : ∀ b, ∀ q, InstOrEdit.edit q ∈ out.blockInstsAndEdits x.f b →
      ¬ (Checker.isStackAlloc env q.dst = true ∧ Checker.isStackAlloc env q.src = true) := by
    intro b q hq
    rw [C20_block_items _ _ _ hs] at hq
    obtain ⟨pe, hpe, rfl⟩ := edit_mem hq
    exact hmv pe hpe
  have key : ∀ UA UV, Checker.PrepOk UA UV x.f p → ∀ b, b < x.f.numBlocks → ∀ S, Checker.StWf UA UV S → Inv x ms b S → _ :=
    fun UA UV P b hb S hwf hinv => transfer hf hv D hst hb hs (ho b hb) (hblock b hb) (hfit b hb) (hmv' b) (hbr b hb)
      (fun c hc => hreach c (hf.edges.succLt b c hb hc)) hwf (hp1 b hb) (P.insts b hb) hinv
  obtain ⟨UA, UV, r, P, hr, hall⟩ := Checker.analyze_inv x.f p (fun b hb t ht => hf.edges.succLt b t hb ht) (Inv := Inv x ms)
    (fun c S T => Inv.meet) (inv_entry hf hv D) (by
      intro b hb he
      have h1 := hp1 b hb
      unfold Checker.blockInsts? at h1
      have h2 := (Checker.mapAll_get h1).1
      rw [he, List.length_nil] at h2
      have h3 := Checker.instsOf_eq (f := x.f) (out := out) hs b
      rw [List.eq_nil_of_length_eq_zero h2.symm] at h3
      have : x.f.lastInst b ∈ x.f.blockInsts b := (blockInsts_mem hf).mpr (by have := lastInst_eq hf hb; omega)
      rw [← h3] at this
      cases this)
    (fun UA UV P b hb S hwf hinv S1 hS1 c hc S2 hS2 => (key UA UV P b hb S hwf hinv).2 S1 hS1 c hc S2 (by rw [← hp2]; exact hS2)) horder
  unfold Checker.run?
  rw [hp]
  dsimp only
  rw [hr]
  dsimp only
  apply findErrors_ok
  intro b hb
  obtain ⟨S, hS, hwf, hinv⟩ := hall b hb
  exact ⟨S, hS, (key UA UV P b hb S hwf hinv).1⟩
end
end

end Regalloc.Apply
