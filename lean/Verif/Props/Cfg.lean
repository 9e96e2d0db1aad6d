import Verif.Proofs.Cfg
import Verif.Spec.Cfg
import Verif.Props.Domtree

/-
C11: control-flow validation. C32: placement of edge moves.
-/
namespace Regalloc
open Cfg

theorem inEdges_gt_one (f : Func) (b : Nat) : inEdges f b > 1 ↔ MultiIn f b := by
  unfold inEdges MultiIn
  by_cases hb : b = f.entry
  · cases h : f.preds b <;> simp [hb] <;> rw [← hb, h] <;> simp
  · simp [hb]

/-- If construction succeeds, no edge is critical. Missing for the full C11: a
return counted as an extra way out of the source block; the code does not check it
(`C11_return_with_successor_accepted`). -/
theorem C11_no_critical_edge_partial (f : Func) (info : Info) (h : init f = .ok info) (hm : EdgesMatch f)
    (a b : Nat) (ha : a < f.numBlocks) : ¬ CriticalEdge f a b := by
  rintro ⟨hs, hl, hi⟩
  have hb := hm.succLt a b ha hs
  have := ((init_ok h).1 b hb).crit ((inEdges_gt_one f b).mpr hi) a ((hm.iff a b ha hb).mpr hs)
  omega

/-- If construction succeeds, no terminator on an edge into a multi-entry block
has operands, so moves can be placed before it. -/
theorem C11_no_bad_branch_arg (f : Func) (info : Info) (h : init f = .ok info)
    (a : Nat) (ha : a < f.numBlocks) : ¬ BadBranchArg f a := by
  rintro ⟨⟨b, hs, hi⟩, ho⟩
  exact ho (((init_ok h).1 a ha).args ⟨b, hs, (inEdges_gt_one f b).mpr hi⟩)

/-- Block entry and exit points are those of the block's first and last
instruction. -/
theorem C11_entry_exit_points (f : Func) (info : Info) (h : init f = .ok info) (b : Nat)
    (hb : b < f.numBlocks) :
    info.blockEntry[b]? = some (2 * (f.insns b).1) ∧
    info.blockExit[b]? = some (2 * ((f.insns b).2 - 1) + 1) :=
  (init_ok h).2.1 b hb

/-- When the block ranges are disjoint, the instruction-to-block map sends every
instruction of block `b` to `b`. -/
theorem C11_insn_block (f : Func) (info : Info) (h : init f = .ok info)
    (hdisj : ∀ b c i, b < f.numBlocks → c < f.numBlocks → (f.insns b).1 ≤ i → i < (f.insns b).2 →
      (f.insns c).1 ≤ i → i < (f.insns c).2 → b = c)
    (b i : Nat) (hb : b < f.numBlocks) (h1 : (f.insns b).1 ≤ i) (h2 : i < (f.insns b).2) :
    info.insnBlock[i]? = some (some b) := by
  have hmem : ∀ c j, j ∈ f.blockInsts c ↔ (f.insns c).1 ≤ j ∧ j < (f.insns c).2 := by
    intro c j; unfold Func.blockInsts; rw [List.mem_range'_1]; omega
  obtain ⟨c, hc, hi, hv⟩ := (init_ok h).2.2.1 i ⟨b, hb, (hmem b i).mpr ⟨h1, h2⟩⟩
  have := hdisj b c i hb hc h1 h2 ((hmem c i).mp hi).1 ((hmem c i).mp hi).2
  rw [this]; exact hv

/-- Construction never panics on a well-formed function, and it succeeds exactly
when there is no critical edge and no misplaced branch operand. The error names
a genuine violation. -/
theorem C11_accepts_iff (f : Func) (hm : EdgesMatch f)
    (hi : ∀ b, b < f.numBlocks → (f.insns b).2 ≤ f.numInsts) :
    ((∃ info, init f = .ok info) ↔
      (∀ a, a < f.numBlocks → (∀ b, ¬ CriticalEdge f a b) ∧ ¬ BadBranchArg f a)) ∧
    (∀ e, init f = .err e →
      (∃ a b, a < f.numBlocks ∧ e = .critEdge a b ∧ CriticalEdge f a b) ∨
      (∃ a, a < f.numBlocks ∧ e = .disallowedBranchArg (f.lastInst a) ∧ BadBranchArg f a)) ∧
    init f ≠ .panic := by
  have hreach : ∀ x, Reaches f.succs f.entry x → x < f.numBlocks := by
    rintro x ⟨l, hl⟩
    induction hl with
    | start => exact hm.entryLt
    | step _ hs ih => exact hm.succLt _ _ ih hs
  have herr : ∀ e, init f = .err e →
      (∃ a b, a < f.numBlocks ∧ e = .critEdge a b ∧ CriticalEdge f a b) ∨
      (∃ a, a < f.numBlocks ∧ e = .disallowedBranchArg (f.lastInst a) ∧ BadBranchArg f a) := by
    intro e he
    unfold init at he
    split at he
    · simp at he
    · next b hpo =>
      obtain ⟨out, ho⟩ := (C08_succeeds_iff f.numBlocks f.entry f.succs).mpr
        ⟨hm.entryLt, fun a ha b hb => hm.succLt a b (hreach a ha) hb⟩
      rw [ho] at hpo; simp at hpo
    · next post hpo =>
      split at he
      · simp at he
      · split at he
        · next e' hs =>
          simp only [Outcome.err.injEq] at he; subst he
          obtain ⟨b, hb, h⟩ := scanBlocks_err _ hs
          have hb' : b < f.numBlocks := by simpa using hb
          rcases h with ⟨p, hp, rfl, h1, h2⟩ | ⟨rfl, h1, s, hs, h2⟩
          · have hpl := hm.predLt p b hb' hp
            exact .inl ⟨p, b, hpl, rfl, (hm.iff p b hpl hb').mp hp, h2, (inEdges_gt_one f b).mp h1⟩
          · exact .inr ⟨b, hb', rfl, ⟨s, hs, (inEdges_gt_one f s).mp h2⟩, h1⟩
        · simp at he
        · split at he <;> simp at he
  have hpanic : init f ≠ .panic := by
    unfold init
    have hk := C08_succeeds_iff f.numBlocks f.entry f.succs
    rcases Postorder.calculate_spec f.numBlocks f.entry f.succs with ⟨rpo, h, R⟩ | ⟨b, h, _⟩
    · rw [h]
      simp only
      obtain ⟨idom, h1, _⟩ := C09_dominates f.numBlocks f.entry f.succs f.preds rpo.reverse (by simpa using h)
        ⟨fun x hx p hp => hm.predLt p x (hreach x hx) hp,
         fun x p hx hp => hm.iff p x (hreach p hp) (hreach x hx)⟩
      rw [h1]
      simp only
      have hnp := scanBlocks_panic (f := f) (List.range f.numBlocks) (scan0_wf f) (by simp) (by
        intro b hb i hib
        have := hi b (by simpa using hb)
        unfold Func.blockInsts at hib
        rw [List.mem_range'_1] at hib; omega)
      split
      · simp
      · next hp => exact absurd hp hnp
      · next st hs =>
        obtain ⟨W, _⟩ := scanBlocks_ok _ (scan0_wf f) (by simp) List.nodup_range hs
        obtain ⟨r, hr, _⟩ := loopDepths_ok st.backIn st.backOut f.numBlocks W.l4 W.l5
          (List.range f.numBlocks) (by simp) [] 0 [] rfl (by simp)
        rw [hr]; simp
    · rw [h]; simp
  refine ⟨⟨?_, ?_⟩, herr, hpanic⟩
  · rintro ⟨info, h⟩ a ha
    exact ⟨fun b => C11_no_critical_edge_partial f info h hm a b ha, C11_no_bad_branch_arg f info h a ha⟩
  · intro hall
    cases h : init f with
    | ok info => exact ⟨info, rfl⟩
    | panic => exact absurd h hpanic
    | err e =>
      rcases herr e h with ⟨a, b, ha, _, hc⟩ | ⟨a, ha, _, hc⟩
      · exact absurd hc ((hall a ha).1 b)
      · exact absurd hc (hall a ha).2

/-! ### C32 -/

theorem traversals_in (succs : Nat → List Nat) (entry a b x : Nat) (l : List Nat)
    (hw : Walk succs entry x l) (hne : b ≠ entry) (honly : ∀ y, Reaches succs entry y → b ∈ succs y → y = a) :
    l.count b = traversals a b l := by
  induction hw with
  | start => simp [traversals, Ne.symm hne]
  | @step p y l hp hs ih =>
    obtain ⟨l', rfl⟩ : ∃ l', l = p :: l' := by cases hp <;> exact ⟨_, rfl⟩
    rw [List.count_cons, ih]
    simp only [traversals]
    by_cases hy : y = b
    · subst hy
      have := honly p ⟨_, hp⟩ hs
      simp [this]; omega
    · simp [hy]

theorem traversals_out (succs : Nat → List Nat) (entry a b x : Nat) (l : List Nat)
    (hw : Walk succs entry x l) (honly : ∀ y ∈ succs a, y = b) :
    l.tail.count a = traversals a b l := by
  induction hw with
  | start => simp [traversals]
  | @step p y l hp hs ih =>
    obtain ⟨l', rfl⟩ : ∃ l', l = p :: l' := by cases hp <;> exact ⟨_, rfl⟩
    rw [List.tail_cons, List.count_cons]
    simp only [List.tail_cons] at ih
    rw [ih]
    simp only [traversals]
    by_cases hp' : p = a
    · subst hp'
      have := honly y hs
      simp [this]; omega
    · simp [hp']

/-- After validation, the point chosen for the moves of an edge between
reachable blocks is executed exactly as often as the edge is traversed, on every
path from the entry. Either it is just before the first instruction of the
target and each entry of the target is a traversal, or it is just before the
terminator of the source and each time the source has been left the edge was
traversed; in that case the terminator has no operands to be disturbed. Returns
are assumed to have no successors. -/
theorem C32_edge_point_executed_once_per_traversal (f : Func) (info : Info) (h : init f = .ok info)
    (hm : EdgesMatch f) (hret : ∀ b, f.isRet (f.lastInst b) = true → f.succs b = [])
    (a b : Nat) (hra : Reaches f.succs f.entry a) (hs : b ∈ f.succs a) :
    ∃ pt atTail, chooseMoveLocation f a b = some (pt, atTail) ∧
      (atTail = false → pt = ptBefore (f.insns b).1 ∧
        ∀ x l, Walk f.succs f.entry x l → l.count b = traversals a b l) ∧
      (atTail = true → pt = ptBefore (f.lastInst a) ∧ f.operands (f.lastInst a) = [] ∧
        ∀ x l, Walk f.succs f.entry x l → l.tail.count a = traversals a b l) := by
  have hreach : ∀ x, Reaches f.succs f.entry x → x < f.numBlocks := by
    rintro x ⟨l, hl⟩
    induction hl with
    | start => exact hm.entryLt
    | step _ hs ih => exact hm.succLt _ _ ih hs
  have ha := hreach a hra
  have hb := hm.succLt a b ha hs
  have hap := (hm.iff a b ha hb).mpr hs
  have hnr : f.isRet (f.lastInst a) = false := by
    cases hr : f.isRet (f.lastInst a) with
    | false => rfl
    | true => rw [hret a hr] at hs; simp at hs
  unfold chooseMoveLocation
  simp only [hnr, Bool.false_eq_true, if_false, Nat.add_zero]
  by_cases hin : inEdges f b > 1
  · have hle := ((init_ok h).1 b hb).crit hin a hap
    refine ⟨_, true, by rw [if_pos ⟨hin, hle⟩], by simp, fun _ => ⟨rfl, ?_, ?_⟩⟩
    · exact ((init_ok h).1 a ha).args ⟨b, hs, hin⟩
    · intro x l hl
      refine traversals_out f.succs f.entry a b x l hl ?_
      intro y hy
      match hsa : f.succs a, hs, hy, hle with
      | [z], h1, h2, _ => simp at h1 h2; rw [h1, h2]
      | _ :: _ :: _, _, _, h3 => simp at h3
  · refine ⟨_, false, by rw [if_neg (by omega), if_pos (by omega)], fun _ => ⟨rfl, ?_⟩, by simp⟩
    intro x l hl
    have hne : b ≠ f.entry ∧ f.preds b = [a] := by
      unfold inEdges at hin
      match hpb : f.preds b, hap with
      | [z], h1 =>
        simp at h1; subst h1
        rw [hpb] at hin
        refine ⟨?_, rfl⟩
        intro he; rw [if_pos he] at hin; simp at hin
      | _ :: _ :: _, _ => rw [hpb] at hin; simp at hin; omega
    refine traversals_in f.succs f.entry a b x l hl hne.1 ?_
    intro y hy hyb
    have := (hm.iff y b (hreach y hy) hb).mpr hyb
    rw [hne.2] at this
    simpa using this

/-- Finding: a block whose last instruction is a return but which has a
successor is accepted by validation although its edge can have no valid point:
placing moves on it panics. -/
theorem C11_return_with_successor_accepted :
    ∃ f : Func, EdgesMatch f ∧ (∃ info, init f = .ok info) ∧ ∃ a b, b ∈ f.succs a ∧
      Reaches f.succs f.entry a ∧ chooseMoveLocation f a b = none := by
  refine ⟨{ numInsts := 3, numBlocks := 3, entry := 0, insns := fun b => (b, b + 1),
            succs := fun b => if b = 0 then [1] else if b = 2 then [1] else [], preds := fun b => if b = 1 then [0, 2] else [],
            params := fun _ => [], isRet := fun _ => true, isBranch := fun _ => false,
            args := fun _ _ _ => [], operands := fun _ => [], clobbers := fun _ => [], numVregs := 0 }, ?_, ?_, ?_⟩
  · exact EdgesMatch.of_decide (by decide)
  · exact ⟨_, rfl⟩
  · exact ⟨0, 1, by simp, Reaches.refl _ _, by decide⟩

/-! ### Non-vacuity -/

/-- A loop with a split back edge: 0 → 1; 1 → 2, 3; 2 → 1; 3 returns. -/
def exLoop : Func where
  numInsts := 6
  numBlocks := 4
  entry := 0
  insns := fun b => if b = 0 then (0, 2) else if b = 1 then (2, 3) else if b = 2 then (3, 5) else (5, 6)
  succs := fun b => if b = 0 then [1] else if b = 1 then [2, 3] else if b = 2 then [1] else []
  preds := fun b => if b = 1 then [0, 2] else if b = 2 then [1] else if b = 3 then [1] else []
  params := fun _ => []
  isRet := fun i => i = 5
  isBranch := fun i => i = 1 ∨ i = 2 ∨ i = 4
  args := fun _ _ _ => []
  operands := fun _ => []
  clobbers := fun _ => []
  numVregs := 0

example : ∃ info, init exLoop = .ok info ∧ info.insnBlock = [some 0, some 0, some 1, some 2, some 2, some 3] ∧
    info.blockEntry = [0, 4, 6, 10] ∧ info.blockExit = [3, 5, 9, 11] ∧ info.approxLoopDepth = [0, 1, 1, 0] :=
  ⟨_, rfl, rfl, rfl, rfl, rfl⟩

example : EdgesMatch exLoop := EdgesMatch.of_decide (by decide)

example : ∀ b, exLoop.isRet (exLoop.lastInst b) = true → exLoop.succs b = [] := by
  intro b h
  match b with
  | 0 => simp [exLoop, Func.lastInst] at h
  | 1 => simp [exLoop, Func.lastInst] at h
  | 2 => simp [exLoop, Func.lastInst] at h
  | _ + 3 => simp [exLoop]

example : chooseMoveLocation exLoop 2 1 = some (8, true) ∧ chooseMoveLocation exLoop 1 3 = some (10, false) := by
  decide

end Regalloc
