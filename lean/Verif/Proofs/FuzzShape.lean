import Verif.Proofs.FuzzIon
import Verif.Spec.Pipeline
import Verif.Spec.Accepts
import Verif.Proofs.LiveRangesBlock

/-
C52: generated functions have the shape that the backtracking allocator requires.
-/
namespace Regalloc.FuzzGen.Built

open Liveness (MayRead MayReadAfter)
open Apply (OpAt DefAt entryPt exitPt)

variable {x : Fn} {g : Graph} {n : Nat} {es : List (Nat × Nat)} {plans : List Plan} {nv : Nat} {xs : List (List InstData × List (List VReg))}

theorem write_good (h : Built x g n es plans nv xs) {w : VReg} (hw : w ∈ allWrites x.func) : Good w := by
  unfold allWrites at hw
  obtain ⟨b, hb, hw⟩ := List.mem_flatMap.mp hw
  rw [h.numBlocks] at hb
  have hb := List.mem_range.mp hb
  obtain ⟨q, body, t, as, n1, n2, q1, q2, q3, q4, q5, q6, q7, q8, q9, q10, -⟩ := h.block hb
  have hp := h.plan b q q1
  rcases List.mem_append.mp hw with hw | hw
  · rw [q5] at hw
    exact hp.good w (hp.perm.mem_iff.mp (List.mem_append_left _ hw))
  · rw [h.writes hb q2] at hw
    unfold instWrites at hw
    rw [List.flatMap_append, List.mem_append] at hw
    rcases hw with hw | hw
    · exact q10.writes_good (fun v hv => hp.good v (hp.perm.mem_iff.mp (List.mem_append_right _ hv))) w hw
    · simp [q7, opWrites] at hw

/-- An instruction that lies in a block, with its operands. -/
theorem inst_at (h : Built x g n es plans nv xs) {j : Nat} {o : Op} (ho : o ∈ x.func.operands j) :
    ∃ b q v n1 n2, b < n ∧ off xs b ≤ j ∧ j + 1 < off xs (b + 1) ∧ plans[b]? = some q ∧ v ∈ q.vregs ∧
      Made v (Readable x g plans b (off xs b) j) n1 n2 (x.func.operands j) (x.func.clobbers j) := by
  have hj : j < x.func.numInsts := by
    by_cases hj : j < x.insts.length
    · exact hj
    · change o ∈ (x.insts[j]?.map _).getD [] at ho
      rw [List.getElem?_eq_none (by omega)] at ho
      simp at ho
  obtain ⟨b, hb, l1, l2⟩ := h.cover hj
  rcases h.inst hb l1 l2 with ⟨-, ho', -⟩ | ⟨l3, -, -, q, w, m1, m2, hq, hw, hm⟩
  · rw [ho'] at ho; simp at ho
  · exact ⟨b, q, w, m1, m2, hb, l1, l3, hq, hw, hm⟩

/-- Operands fixed to registers. -/
theorem fixed (h : Built x g n es plans nv xs) {j : Nat} {o : Op} (ho : o ∈ x.func.operands j) {p : PReg} (hp : o.constraint = .FixedReg p) :
    (p.hwEnc ≤ 62 ∧ o.vreg ∈ allWrites x.func) ∨ (∃ c, o.vreg = VReg.new VReg.MAX c ∧ p = PReg.new 63 c ∧ o.kind = .Use) := by
  obtain ⟨b, q, v, n1, n2, hb, l1, l2, hq, hv, hm⟩ := h.inst_at ho
  refine (hm.fixed o ho p hp).imp (fun ⟨h1, h2⟩ => ⟨h1, ?_⟩) id
  rcases h2 with h2 | h2
  · rw [h2]; exact h.mem_all hq hv
  · exact h.readable_mem h2

theorem off_inj {a b : Nat} (h : Built x g n es plans nv xs) (ha : a < n) (hb : b < n) (e : off xs (a + 1) = off xs b) : b = a + 1 := by
  have h1 := (h.insns ha).2
  have h2 := (h.insns hb).2
  rcases Nat.lt_trichotomy b (a + 1) with hlt | heq | hgt
  · have := off_mono (xs := xs) b a (by omega)
    omega
  · exact heq
  · have h3 := (h.insns (b := a + 1) (by omega)).2
    have := off_mono (xs := xs) (a + 1 + 1) b (by omega)
    omega

theorem writes_of_defined {b v d : Nat} (hd : Build.DefinedAt x.func b v d) : ∃ r, r.vreg = v ∧ r ∈ Ssa.writes x.func b := by
  obtain ⟨i, hi, o, ho, hn, hk, hv, e⟩ := hd
  refine ⟨o.vreg, hv, List.mem_append_right _ (List.mem_flatMap.mpr ⟨i, hi, ?_⟩)⟩
  exact List.mem_map_of_mem (List.mem_filter.mpr ⟨ho, by simp [hk]⟩)

theorem layout (h : Built x g n es plans nv xs) (hV : x.numVregs ≤ VReg.MAX) (a b v : Nat) (ha : a < x.func.numBlocks) (hb : b < x.func.numBlocks)
    (e : (x.func.insns a).2 = (x.func.insns b).1) (hd : DefAt x.func v (entryPt x.func b)) :
    ¬ Build.LiveAt x.func (MayReadAfter x.func a v ∨ Build.PassedOn x.func a v) a v (exitPt x.func a) := by
  have ha' := ha
  have hb' := hb
  rw [h.numBlocks] at ha hb
  rw [(h.insns ha).1, (h.insns hb).1] at e
  have hba := h.off_inj ha hb e
  -- the register is written in block `b`
  have hw : ∃ r, r.vreg = v ∧ r ∈ Ssa.writes x.func b := by
    obtain ⟨b', hb1, hd⟩ := hd
    rw [h.numBlocks] at hb1
    obtain ⟨r, hr, hw⟩ := writes_of_defined hd
    obtain ⟨i, hi, o, ho, -, -, -, e2⟩ := hd
    have : i = off xs b := by
      unfold entryPt Build.defPoint at e2
      rw [(h.insns hb).1] at e2
      dsimp only [ptBefore, ptAfter] at e2
      split at e2 <;> omega
    obtain ⟨m1, m2⟩ := (h.mem_insts hb1).mp hi
    have := (h.insns hb).2
    have : b' = b := by
      rcases Nat.lt_trichotomy b' b with hlt | heq | hgt
      · have := off_mono (xs := xs) (b' + 1) b (by omega)
        omega
      · exact heq
      · have := off_mono (xs := xs) (b + 1) b' (by omega)
        omega
    rw [this] at hw
    exact ⟨r, hr, hw⟩
  obtain ⟨r, hr, hw⟩ := hw
  have apart : ∀ d w, d ≤ a → w.vreg = v → w ∈ Ssa.writes x.func d → False := by
    intro d w hd hv hm
    have := Api.write_block h.inSsa (b := d) (b' := b) (by rw [h.numBlocks]; omega) hb' hm hw (by rw [hv, hr])
    omega
  rintro (⟨ho, -⟩ | ⟨u, hu, hus, -⟩ | ⟨d, -, hd, -⟩ | ⟨hm, -⟩)
  · obtain ⟨d, w, hd, hv, hm⟩ := h.needed_before hV ha ho
    exact apart d w hd hv hm
  · obtain ⟨i, hi, o, ho, -, -, -, rfl⟩ := hus
    obtain ⟨l1, l2⟩ := (h.mem_insts ha).mp hi
    rcases h.inst ha l1 l2 with ⟨-, ho', -⟩ | ⟨l3, -⟩
    · rw [ho'] at ho; simp at ho
    · unfold exitPt Build.usePoint at hu
      rw [h.last ha] at hu
      dsimp only [ptBefore, ptAfter] at hu
      split at hu <;> omega
  · obtain ⟨w, hv, hm⟩ := writes_of_defined hd
    exact apart a w (Nat.le_refl _) hv hm
  · obtain ⟨w, hm, hv⟩ := List.mem_map.mp hm
    exact apart a w (Nat.le_refl _) hv (List.mem_append_left _ hm)

/-- Without reuse, an early use is over at the start of the instruction. -/
theorem recordPoint_use {f : Func} {j : Nat} {o : Op} (hk : o.kind = .Use) (hp : o.pos = .Early)
    (hn : ∀ o ∈ f.operands j, ∀ m, o.constraint ≠ .Reuse m) : Build.recordPoint f j o = ptBefore j := by
  have : Build.reusedReg (f.operands j) = none := by
    unfold Build.reusedReg
    rw [Option.bind_eq_none_iff]
    intro m hm
    exfalso
    rw [List.findSome?_eq_some_iff] at hm
    obtain ⟨l1, o, l2, e, hm, -⟩ := hm
    have := hn o (by rw [e]; simp)
    cases hc : o.constraint with
    | Reuse m => exact this m hc
    | _ => rw [hc] at hm; cases hm
  unfold Build.recordPoint Build.usePoint
  rw [hk, this, hp]
  simp

theorem late (h : Built x g n es plans nv xs) (env : MachineEnv) (j v : Nat) : ∃ y : Place, ∀ k o, OpAt x.func j k o → o.vreg.vreg = v →
    Build.recordPoint x.func j o = ptAfter j → o.constraint.Admits env y := by
  have hok := h.operandsOk j
  by_cases hf : ∃ k o p, OpAt x.func j k o ∧ o.vreg.vreg = v ∧ Build.recordPoint x.func j o = ptAfter j ∧ o.constraint = .FixedReg p
  · obtain ⟨k, o, p, ⟨⟨b, hb, hj⟩, ho, hn⟩, hv, hr, hc⟩ := hf
    have hnr : ∀ o ∈ x.func.operands j, ∀ m, o.constraint ≠ .Reuse m := by
      intro o' ho' m hm
      exact hok.reuse_plain ⟨o', ho', m, hm⟩ o (List.mem_of_getElem? ho) p hc
    have hdef : ∀ o ∈ x.func.operands j, Build.recordPoint x.func j o = ptAfter j → o.kind = .Def := by
      intro o' ho' hr'
      cases hk : o'.kind with
      | Def => rfl
      | Use =>
        rw [recordPoint_use hk (hok.early o' ho' hk) hnr] at hr'
        dsimp only [ptBefore, ptAfter] at hr'
        omega
    refine ⟨Place.ofPReg env p, fun k' o' ho' hv' hr' => ?_⟩
    have hnd := (Api.nodup_block h.inSsa hb).2.1
    have hnd := Api.flatMap_part hnd hj
    unfold opWrites at hnd
    rw [List.map_map] at hnd
    have hm := List.mem_of_getElem? ho
    have hm' := List.mem_of_getElem? ho'.2.1
    have : o' = o := by
      refine List.inj_on_of_nodup_map hnd (List.mem_filter.mpr ⟨hm', ?_⟩) (List.mem_filter.mpr ⟨hm, ?_⟩) ?_
      · simp [hdef o' hm' hr']
      · simp [hdef o hm hr]
      · exact hv'.trans hv.symm
    rw [this, hc]
    rfl
  · refine ⟨.reg (PReg.new 0 .Int), fun k o ho hv hr => ?_⟩
    rcases hok.kinds o (List.mem_of_getElem? ho.2.1) with hc | hc | ⟨p, hc⟩ | ⟨m, hc⟩
    · rw [hc]; trivial
    · rw [hc]; exact ⟨_, rfl⟩
    · exact absurd ⟨k, o, p, ho, hv, hr, hc⟩ hf
    · rw [hc]; exact ⟨_, rfl⟩

/-- Arguments of branches. -/
theorem arg_mem (h : Built x g n es plans nv xs) {b i k : Nat} {a : VReg} (ha : a ∈ x.func.args b i k) : a ∈ allWrites x.func := by
  by_cases hb : b < n
  · obtain ⟨q, body, t, as, n1, n2, q1, q2, q3, q4, q5, q6, q7, q8, q9, q10, q11, q12⟩ := h.block hb
    have hk : k < (g.succ b).length := by
      by_contra hk
      rw [q6, List.getD_eq_getElem?_getD, List.getElem?_eq_none (by omega)] at ha
      simp at ha
    have hs : (x.func.succs b)[k]? = some ((g.succ b)[k]) := by rw [h.succ_eq]; exact List.getElem?_eq_getElem hk
    obtain ⟨h1, q', hq', h2⟩ := h.argsOf hs i
    obtain ⟨j, hj⟩ := List.mem_iff_getElem?.mp ha
    have hlt : j < (x.func.params ((g.succ b)[k])).length := by rw [← h1]; exact (List.getElem?_eq_some_iff.mp hj).1
    have hz : (a, (x.func.params ((g.succ b)[k]))[j]) ∈ (x.func.args b i k).zip (x.func.params ((g.succ b)[k])) := by
      refine List.mem_iff_getElem?.mpr ⟨j, ?_⟩
      rw [List.getElem?_zip_eq_some]
      exact ⟨hj, List.getElem?_eq_getElem hlt⟩
    rcases (h2 _ hz).2 with hm | hf
    · exact h.mem_all hq' hm
    · exact h.far_mem hf
  · change a ∈ (x.paramsOut.getD b []).getD k [] at ha
    rw [List.getD_eq_getElem?_getD (l := x.paramsOut), h.args, List.getElem?_eq_none (by rw [List.length_map, h.lenX]; omega)] at ha
    simp at ha

theorem operands_nil (h : Built x g n es plans nv xs) {j : Nat} (hj : ∀ b, b < x.func.numBlocks → j ∉ x.func.blockInsts b) : x.func.operands j = [] := by
  rw [List.eq_nil_iff_forall_not_mem]
  intro o ho
  obtain ⟨b, q, v, n1, n2, hb, l1, l2, -⟩ := h.inst_at ho
  exact hj b (by rw [h.numBlocks]; exact hb) ((h.mem_insts hb).mpr ⟨l1, by omega⟩)

theorem last_inst (h : Built x g n es plans nv xs) {b : Nat} (hb : b < n) : x.func.operands (x.func.lastInst b) = [] ∧ x.func.clobbers (x.func.lastInst b) = [] ∧
    (x.func.isRet (x.func.lastInst b) = true ↔ g.succ b = []) := by
  have := (h.insns hb).2
  rw [h.last hb]
  rcases h.inst (j := off xs (b + 1) - 1) hb (by omega) (by omega) with ⟨-, h1, h2, h3, -⟩ | ⟨l, -⟩
  · exact ⟨h1, h2, h3⟩
  · omega

theorem ionShape (h : Built x g n es plans nv xs) (hV : x.numVregs ≤ VReg.MAX) (hI : x.insts.length ≤ 2 ^ 30) {i : Pipeline.Input} (hf : i.f = x.func)
    (hv : ∀ w ∈ allWrites x.func, i.vreg w.vreg = w) : Api.IonShape i := by
  obtain ⟨f, vr, mu, env, size, bl, ord, tie, tot, fuel⟩ := i
  dsimp only at hf hv
  subst hf
  have hvr : ∀ v, v < x.func.numVregs → ∃ w ∈ allWrites x.func, w.vreg = v ∧ vr v = w := by
    intro v hlt
    have : v ∈ (allWrites x.func).map VReg.vreg := by rw [h.allWrites_perm.mem_iff]; exact List.mem_range.mpr hlt
    obtain ⟨w, hw, rfl⟩ := List.mem_map.mp this
    exact ⟨w, hw, rfl, hv w hw⟩
  have hend : ∀ b, b < n → off xs (b + 1) ≤ x.insts.length := fun b hb => by
    have := off_mono (xs := xs) (b + 1) n (by omega)
    rw [h.off_end] at this
    exact this
  constructor <;> dsimp only
  case beyond =>
    intro b hb
    rw [h.numBlocks] at hb
    constructor
    · show x.succs.getD b [] = []
      rw [List.getD_eq_getElem?_getD, h.succs, List.getElem?_eq_none (by rw [h.graph.rep.ls]; exact hb)]; rfl
    · show x.paramsIn.getD b [] = []
      rw [List.getD_eq_getElem?_getD, h.params, List.getElem?_eq_none (by rw [List.length_map, h.plen]; exact hb)]; rfl
  case outside => exact fun j hj => h.operands_nil hj
  case nonempty =>
    intro b hb
    rw [h.numBlocks] at hb
    rw [(h.insns hb).1]; exact (h.insns hb).2
  case ordered =>
    intro b c hbc hc
    rw [h.numBlocks] at hc
    rw [(h.insns (b := b) (by omega)).1, (h.insns hc).1]
    exact off_mono _ _ hbc
  case edges => exact h.edges
  case small =>
    intro b hb
    rw [h.numBlocks] at hb
    rw [(h.insns hb).1]
    exact Nat.le_trans (hend b hb) hI
  case insts =>
    intro b hb
    rw [h.numBlocks] at hb
    rw [(h.insns hb).1]
    exact hend b hb
  case tiled =>
    intro j hj
    obtain ⟨b, hb, l1, l2⟩ := h.cover hj
    exact ⟨b, by rw [h.numBlocks]; exact hb, (h.mem_insts hb).mpr ⟨l1, l2⟩⟩
  case succs_nodup =>
    intro b
    rw [h.succ_eq, show g.succ b = succOf es b from h.graph.rep.succs b]
    exact h.graph.nd b
  case ret =>
    intro b hb hr
    rw [h.numBlocks] at hb
    rw [h.succ_eq]
    exact (h.last_inst hb).2.2.mp hr
  case reach =>
    intro b hb
    rw [h.numBlocks] at hb
    rw [h.succ_eq]
    exact h.graph.reach hb
  case join_clobbers =>
    intro b c hc _
    rw [h.succ_eq] at hc
    exact (h.last_inst (h.graph.rep.lt _ (h.graph.mem_succ.mp hc)).1).2.1
  case vregs => exact hV
  case classes =>
    intro v hlt
    obtain ⟨w, hw, -, e⟩ := hvr v hlt
    rw [e]
    obtain ⟨c, hc⟩ := (h.write_good hw).cls
    rw [hc]; simp
  case index =>
    intro v hlt
    obtain ⟨w, hw, e', e⟩ := hvr v hlt
    rw [e, e']
  case named =>
    intro j o ho hn
    have := h.named ho hn
    exact ⟨(hv _ this).symm, h.range _ this⟩
  case named_params =>
    intro b p hp
    obtain ⟨q, hq, hm⟩ := h.params_mem hp
    exact (hv _ (h.mem_all hq hm)).symm
  case named_args => exact fun b k a ha => (hv _ (h.arg_mem ha)).symm
  case args => exact fun b k _ _ a ha => h.range _ (h.arg_mem ha)
  case args_class =>
    intro b k c hc m hm
    obtain ⟨-, q, -, h2⟩ := h.argsOf hc (x.func.lastInst b)
    have : (m.2, m.1) ∈ (x.func.args b (x.func.lastInst b) k).zip (x.func.params c) := by
      obtain ⟨j, hj⟩ := List.mem_iff_getElem?.mp hm
      rw [List.getElem?_zip_eq_some] at hj
      exact List.mem_iff_getElem?.mpr ⟨j, by rw [List.getElem?_zip_eq_some]; exact ⟨hj.2, hj.1⟩⟩
    exact (h2 _ this).1.symm
  case reuse =>
    rintro j k m o ⟨hb, ho, hn⟩ hc
    obtain ⟨-, h2, h3, -, o', h4, h5, h6, h7⟩ := (h.operandsOk j).reuse k m o ho hc
    refine ⟨h2, h3, o', ⟨hb, h4, ?_⟩, h5, (h.operandsOk j).early o' (List.mem_of_getElem? h4) h5, h7⟩
    unfold Op.asFixedNonallocatable
    rw [h6]
  case reuse_one =>
    rintro j k k' m m' o o' ⟨-, ho, -⟩ ⟨-, ho', -⟩ hc hc'
    rw [((h.operandsOk j).reuse k m o ho hc).1, ((h.operandsOk j).reuse k' m' o' ho' hc').1]
  case layout => exact h.layout hV
  case late => exact h.late env
  case limits =>
    rintro j k k' o o' p m - ⟨-, ho', -⟩ - - - hc
    exfalso
    rcases (h.operandsOk j).kinds o' (List.mem_of_getElem? ho') with e | e | ⟨q, e⟩ | ⟨q, e⟩ <;> rw [e] at hc <;> cases hc

end Regalloc.FuzzGen.Built
