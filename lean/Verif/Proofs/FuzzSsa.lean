import Verif.Proofs.FuzzAssemble
import Verif.Proofs.Ssa
import Verif.Props.PRegSet

/-
C51: generated functions are in SSA form.
-/
namespace Regalloc.FuzzGen.Built

open Ssa (writes)

variable {x : Fn} {g : Graph} {n : Nat} {es : List (Nat × Nat)} {plans : List Plan} {nv : Nat} {xs : List (List InstData × List (List VReg))}

theorem contains_ofList (l : List PReg) (p : PReg) : (PRegSet.ofList l).contains p = true ↔ p ∈ l := C06_history (.ofList l) p

theorem mem_clobbers {x : Fn} {j : Nat} {p : PReg} : p ∈ x.func.clobbers j ↔ p ∈ (x.insts[j]?.map (·.clobbers)).getD [] := by
  show p ∈ (PRegSet.ofList _).toList ↔ _
  rw [(C06_iteration _).1, contains_ofList]

/-- The registers an instruction of block `b` may read. -/
def Readable (x : Fn) (g : Graph) (plans : List Plan) (b : Nat) (lo j : Nat) (r : VReg) : Prop :=
  r ∈ x.func.params b ∨ Far g plans b r ∨
    ((∃ q, plans[b]? = some q ∧ r ∈ q.vregs) ∧ ∃ i, lo ≤ i ∧ i < j ∧ r ∈ opWrites (x.func.operands i))

/-- Registers of a block's plan are written in the block. -/
theorem mem_writes (h : Built x g n es plans nv xs) {b : Nat} {q : Plan} (hq : plans[b]? = some q) {v : VReg} :
    v ∈ q.vregs → v ∈ Ssa.writes x.func b := by
  intro hv
  have hb : b < n := by have := (List.getElem?_eq_some_iff.mp hq).1; rw [h.plen] at this; exact this
  obtain ⟨q', body, t, as, n1, n2, h1, h2, h3, h4, h5, h6, h7, -, -, h9, -⟩ := h.block hb
  rw [hq] at h1
  cases h1
  unfold Ssa.writes
  rw [h.writes hb h2, h5]
  rw [← (h.plan b q hq).perm.mem_iff, List.mem_append] at hv
  refine List.mem_append.mpr (hv.imp id fun hv => ?_)
  unfold instWrites
  rw [List.flatMap_append]
  exact List.mem_append_left _ (h9.mem_writes v hv)

theorem inst (h : Built x g n es plans nv xs) {b j : Nat} (hb : b < n) (h1 : off xs b ≤ j) (h2 : j < off xs (b + 1)) :
    (j + 1 = off xs (b + 1) ∧ x.func.operands j = [] ∧ x.func.clobbers j = [] ∧
      (x.func.isRet j = true ↔ g.succ b = []) ∧ (x.func.isBranch j = true ↔ g.succ b ≠ [])) ∨
    (j + 1 < off xs (b + 1) ∧ x.func.isRet j = false ∧ x.func.isBranch j = false ∧ ∃ q v n1 n2, plans[b]? = some q ∧ v ∈ q.vregs ∧
      Made v (Readable x g plans b (off xs b) j) n1 n2 (x.func.operands j) (x.func.clobbers j)) := by
  obtain ⟨q, body, t, as, n1, n2, q1, q2, q3, q4, q5, q6, q7, q8, q9, q10, -⟩ := h.block hb
  have ho := off_succ q2
  dsimp only at ho
  rw [List.length_append, List.length_singleton] at ho
  have hsum : off xs b + (j - off xs b) = j := by omega
  have hget : ∀ k d, (body ++ [t])[k]? = some d → x.func.operands (off xs b + k) = d.operands ∧ (∀ p, p ∈ x.func.clobbers (off xs b + k) ↔ p ∈ d.clobbers) ∧
      (x.func.isRet (off xs b + k) = true ↔ d.op = .Ret) ∧ (x.func.isBranch (off xs b + k) = true ↔ d.op = .Branch) := by
    intro k d hd
    have := q4 k d hd
    refine ⟨?_, ?_, ?_, ?_⟩
    · show (x.insts[off xs b + k]?.map _).getD [] = _
      rw [this]; rfl
    · intro p
      rw [mem_clobbers, this]; rfl
    · show ((x.insts[off xs b + k]?.map (·.op)) == some InstOpcode.Ret) = true ↔ _
      rw [this]; simp only [Option.map_some, beq_iff_eq, Option.some.injEq]
    · show ((x.insts[off xs b + k]?.map (·.op)) == some InstOpcode.Branch) = true ↔ _
      rw [this]; simp only [Option.map_some, beq_iff_eq, Option.some.injEq]
  by_cases hj : j - off xs b < body.length
  · right
    have hd : (body ++ [t])[j - off xs b]? = some body[j - off xs b] := by
      rw [List.getElem?_append_left hj, List.getElem?_eq_getElem hj]
    have hk := hget _ _ hd
    rw [hsum] at hk
    obtain ⟨e1, e2, e3, e4⟩ := hk
    obtain ⟨c1, v, m1, m2, hv, hm⟩ := q10.inst _ _ (List.getElem?_eq_getElem hj)
    rw [c1] at e3 e4
    refine ⟨by omega, ?_, ?_, q, v, m1, m2, q1, ?_, ?_⟩
    · cases hr : x.func.isRet j with
      | false => rfl
      | true => cases e3.mp hr
    · cases hr : x.func.isBranch j with
      | false => rfl
      | true => cases e4.mp hr
    · rw [← (h.plan b q q1).perm.mem_iff]; exact List.mem_append_right _ hv
    · rw [e1]
      have hR : ∀ r, (r ∈ q.params ∨ Far g plans b r ∨ (r ∈ q.defs ∧ r ∈ instWrites (body.take (j - off xs b)))) →
          Readable x g plans b (off xs b) j r := by
        rintro r (hr | hr | ⟨hr, hw⟩)
        · exact .inl (by rw [q5]; exact hr)
        · exact .inr (.inl hr)
        · refine .inr (.inr ⟨⟨q, q1, ?_⟩, ?_⟩)
          · rw [← (h.plan b q q1).perm.mem_iff]; exact List.mem_append_right _ hr
          · unfold instWrites at hw
            obtain ⟨d, hd, hw⟩ := List.mem_flatMap.mp hw
            obtain ⟨k, hk⟩ := List.mem_iff_getElem?.mp hd
            have hk' := hk
            rw [List.getElem?_take] at hk'
            split at hk'
            · next hlt =>
              refine ⟨off xs b + k, by omega, by omega, ?_⟩
              rw [(hget k d (getElem?_append_lt hk')).1]
              exact hw
            · cases hk'
      exact ⟨hm.le, hm.writes, fun r hr => hR r (hm.reads r hr),
        { hm.ok with clobber := fun o ho p hk hp hc => hm.ok.clobber o ho p hk hp ((e2 p).mp hc) }, fun o ho p hp =>
        (hm.fixed o ho p hp).imp (fun a => ⟨a.1, a.2.imp id (hR _)⟩) id, hm.outs⟩
  · left
    have hj' : j - off xs b = body.length := by omega
    have hd : (body ++ [t])[j - off xs b]? = some t := by rw [hj']; simp
    have hk := hget _ _ hd
    rw [hsum] at hk
    obtain ⟨e1, e2, e3, e4⟩ := hk
    refine ⟨by omega, by rw [e1, q7], ?_, ?_, ?_⟩
    · rw [List.eq_nil_iff_forall_not_mem]
      intro p hp
      rw [e2, q8] at hp
      exact List.not_mem_nil hp
    · rw [e3, q9]
      by_cases hs : g.succ b = []
      · rw [if_pos hs]; exact ⟨fun _ => hs, fun _ => rfl⟩
      · rw [if_neg hs]; exact ⟨fun e => (by cases e), fun e => absurd e hs⟩
    · rw [e4, q9]
      by_cases hs : g.succ b = []
      · rw [if_pos hs]; exact ⟨fun e => (by cases e), fun e => absurd hs e⟩
      · rw [if_neg hs]; exact ⟨fun _ => hs, fun _ => rfl⟩

theorem mem_all (h : Built x g n es plans nv xs) {b : Nat} {q : Plan} (hq : plans[b]? = some q) {v : VReg} (hv : v ∈ q.vregs) : v ∈ allWrites x.func := by
  have hb : b < n := by have := (List.getElem?_eq_some_iff.mp hq).1; rw [h.plen] at this; exact this
  unfold allWrites
  rw [List.mem_flatMap]
  exact ⟨b, by rw [h.numBlocks]; exact List.mem_range.mpr hb, h.mem_writes hq hv⟩

theorem single (h : Built x g n es plans nv xs) : ((allWrites x.func).map VReg.vreg).Nodup := by
  rw [h.allWrites_perm.nodup_iff]
  exact List.nodup_range

theorem range (h : Built x g n es plans nv xs) : ∀ w ∈ allWrites x.func, w.vreg < x.func.numVregs := by
  intro w hw
  have : w.vreg ∈ (allWrites x.func).map VReg.vreg := List.mem_map_of_mem hw
  rw [h.allWrites_perm.mem_iff] at this
  exact List.mem_range.mp this

theorem inj (h : Built x g n es plans nv xs) {v w : VReg} (hv : v ∈ allWrites x.func) (hw : w ∈ allWrites x.func) (e : v.vreg = w.vreg) : v = w := by
  have := h.single
  rw [List.nodup_iff_pairwise_ne, List.pairwise_map] at this
  obtain ⟨i, hi⟩ := List.mem_iff_getElem?.mp hv
  obtain ⟨j, hj⟩ := List.mem_iff_getElem?.mp hw
  obtain ⟨li, ei⟩ := List.getElem?_eq_some_iff.mp hi
  obtain ⟨lj, ej⟩ := List.getElem?_eq_some_iff.mp hj
  rw [List.pairwise_iff_getElem] at this
  rcases Nat.lt_trichotomy i j with hlt | heq | hlt
  · exact absurd (by rw [ei, ej]; exact e) (this i j li lj hlt)
  · subst heq; rw [← ei, ← ej]
  · exact absurd (by rw [ei, ej]; exact e.symm) (this j i lj li hlt)

theorem far_mem (h : Built x g n es plans nv xs) {b : Nat} {r : VReg} (hr : Far g plans b r) : r ∈ allWrites x.func := by
  obtain ⟨d, q, -, -, hq, hr⟩ := hr
  exact h.mem_all hq hr

theorem params_mem (h : Built x g n es plans nv xs) {b : Nat} {r : VReg} (hr : r ∈ x.func.params b) : ∃ q, plans[b]? = some q ∧ r ∈ q.vregs := by
  change r ∈ x.paramsIn.getD b [] at hr
  rw [List.getD_eq_getElem?_getD, h.params, List.getElem?_map] at hr
  cases hq : plans[b]? with
  | none => rw [hq] at hr; simp at hr
  | some q =>
    rw [hq] at hr
    refine ⟨q, rfl, ?_⟩
    rw [← (h.plan b q hq).perm.mem_iff]
    exact List.mem_append_left _ hr

theorem readable_mem (h : Built x g n es plans nv xs) {b lo j : Nat} {r : VReg} (hr : Readable x g plans b lo j r) : r ∈ allWrites x.func := by
  rcases hr with hr | hr | ⟨⟨q, hq, hr⟩, -⟩
  · obtain ⟨q, hq, hr⟩ := h.params_mem hr
    exact h.mem_all hq hr
  · exact h.far_mem hr
  · exact h.mem_all hq hr

theorem far_path (h : Built x g n es plans nv xs) {b : Nat} {r : VReg} (hr : Far g plans b r) {l : List Nat}
    (hw : Walk x.func.succs 0 b (b :: l)) : RegEvent.write r ∈ pathEvents x.func l := by
  obtain ⟨d, q, hne, hd, hq, hr⟩ := hr
  rw [h.succ_eq] at hw
  rw [Ssa.write_mem_path]
  refine ⟨d, ?_, h.mem_writes hq hr⟩
  rcases List.mem_cons.mp (hd _ hw) with e | hm
  · exact absurd e hne
  · exact hm

theorem walk_lt (h : Built x g n es plans nv xs) {b : Nat} {l : List Nat} (hw : Walk x.func.succs 0 b l) : b < n := by
  rw [h.succ_eq] at hw
  cases hw with
  | start => exact h.pos
  | step _ hs => exact (h.graph.rep.lt _ (h.graph.mem_succ.mp hs)).2

theorem walk_cons {succs : Nat → List Nat} {e b : Nat} {l : List Nat} (h : Walk succs e b l) : ∃ l', l = b :: l' := by
  cases h with
  | start => exact ⟨[], rfl⟩
  | step _ _ => exact ⟨_, rfl⟩

theorem reads (h : Built x g n es plans nv xs) : ∀ b l, Walk x.func.succs x.func.entry b l → ReadsDefined (pathEvents x.func l) := by
  have key : ∀ c l', Walk x.func.succs 0 c (c :: l') → ∀ pre i v post,
      blockEvents x.func c = pre ++ .read i v :: post → ∃ w, .write w ∈ pathEvents x.func l' ++ pre ∧ w.vreg = v.vreg := by
    intro c l' hwk pre i v post he
    have hc := h.walk_lt hwk
    obtain ⟨is1, is2, e1, e2, e3⟩ := Ssa.blockEvents_split he
    have hi : i ∈ x.func.blockInsts c := by rw [e1]; simp
    obtain ⟨l1, l2⟩ := (h.mem_insts hc).mp hi
    rcases h.inst hc l1 l2 with ⟨-, ho, -⟩ | ⟨-, -, -, q, w, m1, m2, hq, hw, hm⟩
    · rw [ho] at e2; simp [opReads] at e2
    · refine ⟨v, ?_, rfl⟩
      rcases hm.reads v e2 with hr | hr | ⟨-, k, hk1, hk2, hr⟩
      · exact List.mem_append_right _ ((e3 v).mpr (List.mem_append_left _ hr))
      · exact List.mem_append_left _ (h.far_path hr hwk)
      · refine List.mem_append_right _ ((e3 v).mpr (List.mem_append_right _ ?_))
        refine List.mem_flatMap.mpr ⟨k, ?_, hr⟩
        -- instructions before `i` are in `is1`
        have hs : (is1 ++ i :: is2).Pairwise (· < ·) := by
          rw [← e1]; unfold Func.blockInsts; exact List.pairwise_lt_range'
        have hkm : k ∈ is1 ++ i :: is2 := by rw [← e1]; exact (h.mem_insts hc).mpr ⟨hk1, by omega⟩
        rcases List.mem_append.mp hkm with hk | hk
        · exact hk
        · have := (List.pairwise_append.mp hs).2.1
          rcases List.mem_cons.mp hk with rfl | hk
          · omega
          · have := (List.pairwise_cons.mp this).1 k hk
            omega
  intro b l hw
  have hw' : Walk x.func.succs 0 b l := hw
  clear hw
  induction hw' with
  | start =>
    have : pathEvents x.func [0] = [] ++ blockEvents x.func 0 := by simp [pathEvents]
    rw [this]
    refine Ssa.ReadsDefined.append (by intro pre i v post h; simp at h) ?_
    intro pre i v post he
    simpa [pathEvents] using key 0 [] .start pre i v post he
  | @step a b l hp hs ih =>
    rw [Ssa.pathEvents_cons]
    exact Ssa.ReadsDefined.append ih (key b l (hp.step hs))

theorem edges (h : Built x g n es plans nv xs) : EdgesMatch x.func := by
  constructor
  · intro a b _ hb
    rw [h.succ_eq] at hb
    rw [h.numBlocks]
    exact (h.graph.rep.lt _ (h.graph.mem_succ.mp hb)).2
  · intro a b _ ha
    rw [h.pred_eq] at ha
    rw [h.numBlocks]
    exact (h.graph.rep.lt _ (h.graph.mem_pred.mp ha)).1
  · intro a b _ _
    rw [h.succ_eq, h.pred_eq, h.graph.mem_succ, h.graph.mem_pred]
  · rw [h.numBlocks]; exact h.pos

/-- The arguments on an edge. -/
theorem argsOf (h : Built x g n es plans nv xs) {b k s : Nat} (hs : (x.func.succs b)[k]? = some s) (i : Nat) :
    (x.func.args b i k).length = (x.func.params s).length ∧ ∃ q, plans[b]? = some q ∧
    ∀ m ∈ (x.func.args b i k).zip (x.func.params s), ArgFor g plans b q.vregs m.1 m.2 := by
  rw [h.succ_eq] at hs
  have hb : b < n := (h.graph.rep.lt _ (h.graph.mem_succ.mp (List.mem_of_getElem? hs))).1
  have hsn : s < n := (h.graph.rep.lt _ (h.graph.mem_succ.mp (List.mem_of_getElem? hs))).2
  obtain ⟨q, body, t, as, n1, n2, q1, q2, q3, q4, q5, q6, q7, q8, q9, q10, q11, q12⟩ := h.block hb
  obtain ⟨q', body', t', as', m1, m2, p1, p2, p3, p4, p5, -⟩ := h.block hsn
  obtain ⟨a, qs, a1, a2, a3, a4⟩ := q12 k s hs
  rw [p1] at a2
  cases a2
  rw [q6, p5, List.getD_eq_getElem?_getD, a1]
  exact ⟨a3, q, q1, a4⟩

theorem terminators (h : Built x g n es plans nv xs) : TerminatorsOk x.func := by
  intro b hb i hi
  rw [h.numBlocks] at hb
  obtain ⟨l1, l2⟩ := (h.mem_insts hb).mp hi
  obtain ⟨e, -⟩ := h.insns hb
  rw [e]
  dsimp only
  constructor
  · rcases h.inst hb l1 l2 with ⟨ho, -, -, hr, hbr⟩ | ⟨ho, hr, hbr, -⟩
    · rw [hr, hbr]
      constructor
      · intro _; exact ho
      · intro _; exact (Classical.em (g.succ b = [])).symm
    · rw [hr, hbr]; simp; omega
  · intro _ _ k s hs
    exact (h.argsOf hs i).1

theorem critical (h : Built x g n es plans nv xs) (a : Nat) (ha : a < n) : (∀ b, ¬ CriticalEdge x.func a b) ∧ ¬ BadBranchArg x.func a := by
  constructor
  · rintro b ⟨h1, h2, h3⟩
    rw [h.succ_eq] at h1 h2
    have hs : g.succ a = succOf es a := h.graph.rep.succs a
    rw [hs] at h1 h2
    obtain ⟨f1, f2⟩ := h.graph.fork a h2 b h1
    rcases h3 with h3 | ⟨h3, -⟩
    · rw [h.pred_eq] at h3
      have : g.pred b = predOf es b := h.graph.rep.preds b
      rw [this] at h3
      omega
    · exact f1 h3
  · rintro ⟨-, h2⟩
    obtain ⟨-, hlt⟩ := h.insns ha
    rw [h.last ha] at h2
    rcases h.inst (j := off xs (a + 1) - 1) ha (by omega) (by omega) with ⟨-, ho, -⟩ | ⟨ho, -⟩
    · exact h2 ho
    · omega

theorem entry_params (h : Built x g n es plans nv xs) : x.func.params x.func.entry = [] := by
  obtain ⟨q, body, t, as, n1, n2, q1, q2, q3, q4, q5, -⟩ := h.block h.pos
  show x.func.params 0 = []
  rw [q5]
  exact (h.plan 0 q q1).entry rfl

theorem inSsa (h : Built x g n es plans nv xs) : Api.InSsa x.func where
  single := h.single
  range := h.range
  reads := h.reads
  terminators := h.terminators
  entry := h.entry_params
  critical := fun a ha => h.critical a (by rw [h.numBlocks] at ha; exact ha)

/-- Registers that operands name. -/
theorem named (h : Built x g n es plans nv xs) {j : Nat} {o : Op} (ho : o ∈ x.func.operands j) (hn : o.asFixedNonallocatable = none) :
    o.vreg ∈ allWrites x.func := by
  have hj : j < x.func.numInsts := by
    by_cases hj : j < x.insts.length
    · exact hj
    · change o ∈ (x.insts[j]?.map _).getD [] at ho
      rw [List.getElem?_eq_none (by omega)] at ho
      simp at ho
  obtain ⟨b, hb, l1, l2⟩ := h.cover hj
  rcases h.inst hb l1 l2 with ⟨-, ho', -⟩ | ⟨-, -, -, q, w, m1, m2, hq, hw, hm⟩
  · rw [ho'] at ho; simp at ho
  · cases hk : o.kind with
    | Use =>
      refine h.readable_mem (hm.reads o.vreg ?_)
      unfold opReads
      exact List.mem_map_of_mem (List.mem_filter.mpr ⟨ho, by simp [hk, hn]⟩)
    | Def =>
      unfold allWrites
      rw [List.mem_flatMap]
      refine ⟨b, by rw [h.numBlocks]; exact List.mem_range.mpr hb, List.mem_append_right _ ?_⟩
      refine List.mem_flatMap.mpr ⟨j, (h.mem_insts hb).mpr ⟨l1, l2⟩, ?_⟩
      unfold opWrites
      exact List.mem_map_of_mem (List.mem_filter.mpr ⟨ho, by simp [hk]⟩)

theorem operandsOk (h : Built x g n es plans nv xs) (j : Nat) : OperandsOk (x.func.operands j) (x.func.clobbers j) := by
  have hnil : ∀ cl, OperandsOk [] cl := fun cl => by constructor <;> simp
  by_cases hj : j < x.insts.length
  · obtain ⟨b, hb, l1, l2⟩ := h.cover hj
    rcases h.inst hb l1 l2 with ⟨-, ho, -⟩ | ⟨-, -, -, q, w, m1, m2, hq, hw, hm⟩
    · rw [ho]; exact hnil _
    · exact hm.ok
  · have : x.func.operands j = [] := by
      show (x.insts[j]?.map _).getD [] = []
      rw [List.getElem?_eq_none (by omega)]; rfl
    rw [this]; exact hnil _

end Regalloc.FuzzGen.Built
