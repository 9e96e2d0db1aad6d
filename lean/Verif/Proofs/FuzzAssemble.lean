import Verif.Proofs.FuzzBlocks
import Verif.Proofs.Ssa
import Verif.Spec.Run

/-
C51: generated functions as a whole.
-/
namespace Regalloc.FuzzGen

open Debug (Label)

theorem layOut_get : ∀ (L : List (List InstData)) (k b : Nat), (layOut L k)[b]? =
    L[b]?.map (fun is => (k + (L.take b).flatten.length, k + (L.take b).flatten.length + is.length)) := by
  intro L
  induction L with
  | nil => intro k b; simp [layOut]
  | cons is L ih =>
    intro k b
    unfold layOut
    cases b with
    | zero => simp
    | succ b =>
      rw [List.getElem?_cons_succ, List.getElem?_cons_succ, ih, List.take_succ_cons, List.flatten_cons, List.length_append]
      congr 1
      funext is'
      rw [Prod.mk.injEq]
      omega

theorem layOut_length : ∀ (L : List (List InstData)) (k : Nat), (layOut L k).length = L.length := by
  intro L
  induction L with
  | nil => intro k; rfl
  | cons is L ih => intro k; simp [layOut, ih]

theorem flatten_get {α : Type} : ∀ (L : List (List α)) (b j : Nat) (is : List α) (x : α), L[b]? = some is → is[j]? = some x →
    L.flatten[(L.take b).flatten.length + j]? = some x := by
  intro L
  induction L with
  | nil => intro b j is x h; simp at h
  | cons l L ih =>
    intro b j is x h hx
    cases b with
    | zero =>
      simp only [List.getElem?_cons_zero, Option.some.injEq] at h
      subst h
      rw [List.take_zero, List.flatten_nil, List.length_nil, Nat.zero_add, List.flatten_cons]
      exact getElem?_append_lt hx
    | succ b =>
      rw [List.getElem?_cons_succ] at h
      rw [List.take_succ_cons, List.flatten_cons, List.flatten_cons, List.length_append, List.getElem?_append_right (by omega)]
      rw [← ih b j is x h hx]
      congr 1
      omega

theorem flatten_cover {α : Type} : ∀ (L : List (List α)) (j : Nat), j < L.flatten.length → ∃ b is, L[b]? = some is ∧
    (L.take b).flatten.length ≤ j ∧ j < (L.take b).flatten.length + is.length := by
  intro L
  induction L with
  | nil => intro j h; simp at h
  | cons l L ih =>
    intro j h
    rw [List.flatten_cons, List.length_append] at h
    by_cases hj : j < l.length
    · exact ⟨0, l, rfl, by simp, by simpa using hj⟩
    · obtain ⟨b, is, h1, h2, h3⟩ := ih (j - l.length) (by omega)
      refine ⟨b + 1, is, by rw [List.getElem?_cons_succ]; exact h1, ?_, ?_⟩ <;>
        rw [List.take_succ_cons, List.flatten_cons, List.length_append] <;> omega

theorem labelLe_iff (a b : Label) : labelLe a b = true ↔ a.vreg.bits.toNat < b.vreg.bits.toNat ∨
    (a.vreg.bits.toNat = b.vreg.bits.toNat ∧ (a.fr < b.fr ∨ (a.fr = b.fr ∧ (a.to < b.to ∨ (a.to = b.to ∧ a.label ≤ b.label))))) := by
  unfold labelLe
  simp only [Bool.or_eq_true, Bool.and_eq_true, decide_eq_true_eq, UInt32.lt_iff_toNat_lt, UInt32.toNat_inj]

/-- How a generated function is put together. -/
structure Built (x : Fn) (g : Graph) (n : Nat) (es : List (Nat × Nat)) (plans : List Plan) (nv : Nat)
    (xs : List (List InstData × List (List VReg))) : Prop where
  pos : 0 < n
  graph : GraphOk g n es
  plen : plans.length = n
  plan : ∀ (d : Nat) (q : Plan), plans[d]? = some q → PlanOk d q
  nums : (plans.flatMap Plan.vregs).map VReg.vreg = List.range' 0 nv
  blocks : Blocks g plans (List.range n) nv x.numVregs xs
  insts : x.insts = (xs.map Prod.fst).flatten
  lay : x.blocks = layOut (xs.map Prod.fst) 0
  preds : x.preds = g.preds
  succs : x.succs = g.succs
  params : x.paramsIn = plans.map Plan.params
  args : x.paramsOut = xs.map Prod.snd

theorem generate_sat {opts : Options} (ho : OptionsOk opts) : Sat (generate opts) (fun x =>
    (∃ g n es plans nv xs, Built x g n es plans nv xs ∧ opts.numBlocks.1 ≤ n ∧ n ≤ opts.numBlocks.2) ∧ x.labels.Pairwise (fun a b => labelLe a b = true)) := by
  unfold generate
  refine (Sat.intIn ho.blocks.2).bind fun n hn => ?_
  have hpos : 0 < n := by have := ho.blocks.1; omega
  refine (makeGraph_sat n).bind fun g hg => ?_
  obtain ⟨es, hg⟩ := hg
  refine (doms_sat hg hpos).bind fun idom hd => ?_
  refine (planBlocks_sat ho n (List.range n) 0).bind fun ps hps => ?_
  obtain ⟨p1, p2, p3, p4⟩ := hps
  rw [List.length_range] at p2
  have hplan : ∀ (d : Nat) (q : Plan), ps.1[d]? = some q → PlanOk d q := by
    intro d q hq
    have hlt := (List.getElem?_eq_some_iff.mp hq).1
    exact p4 d d q (by rw [List.getElem?_range (by omega)]) hq
  refine (genBlocks_sat (g := g) (n := n) (fun b hb => ⟨ho, hd, p2, hb, hplan⟩)
    (fun a b hb => (hg.rep.lt _ (hg.mem_succ.mp hb)).2) hg.rep.ls (List.range n) ps.2.1 (fun b hb => List.mem_range.mp hb)).bind fun r hr => ?_
  refine Sat.pure ⟨⟨g, n, es, ps.1, ps.2.1, r.1, ⟨hpos, hg, p2, hplan, ?_, hr, rfl, rfl, rfl, rfl, rfl, rfl⟩, hn⟩, ?_⟩
  · rw [p3, Nat.sub_zero]
  · dsimp only
    exact pairwise_isort (fun a b c => by rw [labelLe_iff, labelLe_iff, labelLe_iff]; omega)
      (fun a b => by rw [labelLe_iff, labelLe_iff]; omega) _

namespace Built

variable {x : Fn} {g : Graph} {n : Nat} {es : List (Nat × Nat)} {plans : List Plan} {nv : Nat} {xs : List (List InstData × List (List VReg))}

theorem lenX (h : Built x g n es plans nv xs) : xs.length = n := by
  have := h.blocks.length; rw [List.length_range] at this; exact this

theorem numBlocks (h : Built x g n es plans nv xs) : x.func.numBlocks = n := by
  show x.blocks.length = n
  rw [h.lay, layOut_length, List.length_map, h.lenX]

theorem succ_eq (h : Built x g n es plans nv xs) : x.func.succs = g.succ := by
  funext b
  show x.succs.getD b [] = g.succs.getD b []
  rw [h.succs]

theorem pred_eq (h : Built x g n es plans nv xs) : x.func.preds = g.pred := by
  funext b
  show x.preds.getD b [] = g.preds.getD b []
  rw [h.preds]

/-- The first instruction of a block. -/
def off (xs : List (List InstData × List (List VReg))) (b : Nat) : Nat := ((xs.map Prod.fst).take b).flatten.length

/-- What is known of a block. -/
theorem block (h : Built x g n es plans nv xs) {b : Nat} (hb : b < n) : ∃ q body t as n1 n2, plans[b]? = some q ∧
    xs[b]? = some (body ++ [t], as) ∧ x.func.insns b = (off xs b, off xs b + (body.length + 1)) ∧
    (∀ (j : Nat) (d : InstData), (body ++ [t])[j]? = some d → x.insts[off xs b + j]? = some d) ∧
    x.func.params b = q.params ∧ (∀ i k, x.func.args b i k = as.getD k []) ∧
    t.operands = [] ∧ t.clobbers = [] ∧ t.op = (if g.succ b = [] then .Ret else .Branch) ∧
    Chain (Far g plans b) q.defs q.params n1 n2 body ∧ as.length = (g.succ b).length ∧
    ∀ (k s : Nat), (g.succ b)[k]? = some s → ∃ a qs, as[k]? = some a ∧
      plans[s]? = some qs ∧ a.length = qs.params.length ∧ ∀ m ∈ a.zip qs.params, ArgFor g plans b q.vregs m.1 m.2 := by
  obtain ⟨y, hx⟩ : ∃ y, xs[b]? = some y := ⟨_, List.getElem?_eq_getElem (by rw [h.lenX]; exact hb)⟩
  obtain ⟨n1, n2, hok⟩ := h.blocks.get b b _ (by rw [List.getElem?_range hb]) hx
  obtain ⟨q, body, t, h1, h2, h3, h4, h5, h6, h7⟩ := hok.made
  have hm : (xs.map Prod.fst)[b]? = some (body ++ [t]) := by rw [List.getElem?_map, hx, ← h2]; rfl
  refine ⟨q, body, t, y.2, n1, n2, h1, by rw [hx, ← h2], ?_, ?_, ?_, ?_, h3, h4, h5, h6, hok.count, h7⟩
  · show x.blocks.getD b (0, 0) = _
    rw [List.getD_eq_getElem?_getD, h.lay, layOut_get, hm]
    simp [off]
  · intro j d hd
    rw [h.insts]
    exact flatten_get _ b j _ d hm hd
  · show x.paramsIn.getD b [] = _
    rw [List.getD_eq_getElem?_getD, h.params, List.getElem?_map, h1]; rfl
  · intro i k
    show (x.paramsOut.getD b []).getD k [] = _
    rw [List.getD_eq_getElem?_getD (l := x.paramsOut), h.args, List.getElem?_map, hx]; rfl

theorem off_zero : off xs 0 = 0 := by simp [off]

theorem off_succ {b : Nat} {y : List InstData × List (List VReg)} (h : xs[b]? = some y) : off xs (b + 1) = off xs b + y.1.length := by
  unfold off
  rw [List.take_succ, List.flatten_append, List.length_append, List.getElem?_map, h]
  simp

theorem off_end (h : Built x g n es plans nv xs) : off xs n = x.func.numInsts := by
  show _ = x.insts.length
  unfold off
  rw [h.insts, List.take_of_length_le (by rw [List.length_map, h.lenX]; exact Nat.le_refl _)]

theorem off_mono (a b : Nat) (hab : a ≤ b) : off xs a ≤ off xs b := by
  induction hab with
  | refl => exact Nat.le_refl _
  | @step m _ ih =>
    refine Nat.le_trans ih ?_
    cases hy : xs[m]? with
    | some y => rw [off_succ hy]; omega
    | none =>
      have := List.getElem?_eq_none_iff.mp hy
      unfold off
      rw [List.take_of_length_le (by rw [List.length_map]; omega), List.take_of_length_le (by rw [List.length_map]; omega)]
      exact Nat.le_refl _

theorem insns (h : Built x g n es plans nv xs) {b : Nat} (hb : b < n) : x.func.insns b = (off xs b, off xs (b + 1)) ∧ off xs b < off xs (b + 1) := by
  obtain ⟨q, body, t, as, n1, n2, -, h2, h3, -⟩ := h.block hb
  rw [h3, off_succ h2]
  simp

theorem cover (h : Built x g n es plans nv xs) {j : Nat} (hj : j < x.func.numInsts) : ∃ b, b < n ∧ off xs b ≤ j ∧ j < off xs (b + 1) := by
  change j < x.insts.length at hj
  rw [h.insts] at hj
  obtain ⟨b, is, h1, h2, h3⟩ := flatten_cover _ j hj
  rw [List.getElem?_map, Option.map_eq_some_iff] at h1
  obtain ⟨y, hy, rfl⟩ := h1
  have := (List.getElem?_eq_some_iff.mp hy).1
  rw [h.lenX] at this
  exact ⟨b, this, h2, by rw [off_succ hy]; exact h3⟩

theorem mem_insts (h : Built x g n es plans nv xs) {b i : Nat} (hb : b < n) : i ∈ x.func.blockInsts b ↔ off xs b ≤ i ∧ i < off xs (b + 1) := by
  unfold Func.blockInsts
  obtain ⟨e, l⟩ := h.insns hb
  rw [e, List.mem_range'_1]
  omega

theorem last (h : Built x g n es plans nv xs) {b : Nat} (hb : b < n) : x.func.lastInst b = off xs (b + 1) - 1 := by
  unfold Func.lastInst
  rw [(h.insns hb).1]

/-- The instructions of a block, as the function lists them. -/
theorem operands_map (h : Built x g n es plans nv xs) {b : Nat} (hb : b < n) {y : List InstData × List (List VReg)} (hy : xs[b]? = some y) :
    (x.func.blockInsts b).map x.func.operands = y.1.map InstData.operands := by
  obtain ⟨q, body, t, as, n1, n2, -, h2, h3, h4, -⟩ := h.block hb
  rw [h2] at hy
  cases hy
  apply List.ext_getElem?
  intro j
  unfold Func.blockInsts
  rw [h3]
  dsimp only
  rw [show off xs b + (body.length + 1) - off xs b = body.length + 1 by omega, List.getElem?_map, List.getElem?_map]
  by_cases hj : j < body.length + 1
  · rw [List.getElem?_range' hj]
    have hl : j < (body ++ [t]).length := by simp; omega
    have := h4 j _ (List.getElem?_eq_getElem hl)
    rw [List.getElem?_eq_getElem hl]
    show some ((x.insts[off xs b + 1 * j]?.map _).getD []) = _
    rw [Nat.one_mul, this]
    rfl
  · rw [List.getElem?_eq_none (by simp; omega), List.getElem?_eq_none (by simp; omega)]
    rfl

theorem writes (h : Built x g n es plans nv xs) {b : Nat} (hb : b < n) {y : List InstData × List (List VReg)} (hy : xs[b]? = some y) :
    (x.func.blockInsts b).flatMap (fun i => opWrites (x.func.operands i)) = instWrites y.1 := by
  unfold instWrites
  have e := h.operands_map hb hy
  rw [← List.flatMap_map x.func.operands opWrites, e, List.flatMap_map]

/-- Every register is defined exactly once. -/
theorem allWrites_perm (h : Built x g n es plans nv xs) : ((allWrites x.func).map VReg.vreg).Perm (List.range x.numVregs) := by
  have hz : (List.range n).zip xs = (List.range n).map (fun b => (b, xs.getD b ([], []))) := by
    refine List.ext_getElem (by simp [h.lenX]) ?_
    intro k h1 h2
    have hk : k < xs.length := by rw [h.lenX]; simpa using h2
    simp [List.getD_eq_getElem?_getD, List.getElem?_eq_getElem hk]
  have hp := h.blocks.perm h.plan
  rw [hz, List.flatMap_map] at hp
  have e1 : allWrites x.func = (List.range n).flatMap (fun b => (plans.getD b ⟨[], [], []⟩).params ++ instWrites (xs.getD b ([], [])).1) := by
    unfold allWrites
    rw [h.numBlocks, List.flatMap_def, List.flatMap_def]
    congr 1
    refine List.map_congr_left fun b hb => ?_
    have hb := List.mem_range.mp hb
    obtain ⟨q, body, t, as, n1, n2, h1, h2, h3, h4, h5, -⟩ := h.block hb
    rw [h.writes hb h2, h5, List.getD_eq_getElem?_getD, List.getD_eq_getElem?_getD, h1, h2]
    rfl
  rw [e1]
  refine hp.trans ?_
  have e2 : (List.range n).flatMap (fun b => (plans.getD b ⟨[], [], []⟩).vregs) = plans.flatMap Plan.vregs := by
    have : plans = (List.range n).map (fun b => plans.getD b ⟨[], [], []⟩) := by
      apply List.ext_getElem?
      intro k
      rw [List.getElem?_map]
      by_cases hk : k < n
      · rw [List.getElem?_range hk, List.getElem?_eq_getElem (by rw [h.plen]; exact hk)]
        simp [List.getD_eq_getElem?_getD, h.plen, hk]
      · rw [List.getElem?_eq_none (by rw [h.plen]; omega), List.getElem?_eq_none (by simp; omega)]
        rfl
    conv => rhs; rw [this]
    rw [List.flatMap_map]
  have := h.blocks.le
  rw [e2, h.nums, List.range_eq_range', show x.numVregs = nv + (x.numVregs - nv) by omega, ← List.range'_append_1,
    show nv + (x.numVregs - nv) - nv = x.numVregs - nv by omega, Nat.zero_add]

end Built

end Regalloc.FuzzGen
