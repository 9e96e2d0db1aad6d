import Verif.Proofs.Liveness
import Verif.Props.Postorder

/-
C24: the liveness analysis is exact, for every function, graph and register.
-/
namespace Regalloc
open Liveness

/-- The loop ends, and leaves the invariant with an empty queue. -/
private theorem loop_spec {f : Func} (ord : HashOrder) (he : EdgesMatch f) (nt : NoTies f) (hb : BranchesOk f) :
    ∀ (n : Nat) (st : State), Inv f st → total f.numBlocks st.liveouts + st.queue.length < n →
      ∃ st', loop ord f n st = some st' ∧ Inv f st' ∧ st'.queue = [] := by
  intro n
  induction n with
  | zero => intro st _ h; omega
  | succ n ih =>
    intro st hi hm
    unfold loop
    cases hq : st.queue with
    | nil => exact ⟨st, rfl, hi, hq⟩
    | cons block rest =>
      obtain ⟨h1, h2⟩ := visit_inv ord he nt hb hq hi
      exact ih _ h1 (by omega)

/-- The fixpoint, for every reachable block. -/
private theorem analysis {f : Func} (ord : HashOrder) (he : EdgesMatch f) (nt : NoTies f) (hb : BranchesOk f) (po : List Nat)
    (hpo : Postorder.calculate? f.numBlocks f.entry f.succs = some (.ok po)) :
    ∃ st, loop ord f (fuel f po) (start po) = some st ∧ (∀ b, Good (st.liveins b)) ∧ (∀ b, Good (st.liveouts b)) ∧
      ∀ b, Reaches f.succs f.entry b → ∀ v, v < 2 ^ 30 →
        ((st.liveins b).get v = true ↔ MayRead f b v) ∧ ((st.liveouts b).get v = true ↔ MayReadAfter f b v) := by
  obtain ⟨hn, hr, _⟩ := C08_lists_reachable_once _ _ _ _ hpo
  have hlt : ∀ b, Reaches f.succs f.entry b → b < f.numBlocks := by
    rintro b ⟨l, hl⟩
    induction hl with
    | start => exact he.entryLt
    | step _ hs ih => exact he.succLt _ _ ih hs
  obtain ⟨st, h1, h2, h3⟩ := loop_spec ord he nt hb (fuel f po) (start po)
    ⟨fun _ => .new, fun _ => .new, fun _ => Iff.rfl, hn, fun b h => hlt b ((hr b).mp h),
      fun b v _ h => by simp only [start, get_new] at h; simp at h, fun b v _ h => by simp only [start, get_new] at h; simp at h,
      fun b h h' => absurd ((hr b).mpr h) h'⟩
    (fuel_ok f po)
  refine ⟨st, h1, h2.inGood, h2.outGood, ?_⟩
  have hfix := fun b hb => h2.fix b hb (by rw [h3]; simp)
  have key : ∀ b t, Exec f b t → Reaches f.succs f.entry b → ∀ v, v < 2 ^ 30 → ReadsFirst v t → (st.liveins b).get v = true := by
    intro b t ht
    induction ht with
    | stop b =>
      intro hb' v hv hrf
      rw [(hfix b hb').1 v hv, transfer_get nt hb b v hv (h2.outGood b)]
      exact .inl hrf
    | @step b c i t hc ht ih =>
      intro hb' v hv hrf
      have hmem : c ∈ f.succs b := List.mem_iff_getElem?.mpr ⟨i, hc⟩
      have hrc := hb'.step hmem
      rw [(hfix b hb').1 v hv, transfer_get nt hb b v hv (h2.outGood b)]
      rw [List.append_assoc, readsFirst_append] at hrf
      rcases hrf with hrf | ⟨hw, hrf⟩
      · exact .inl hrf
      · right
        refine ⟨hw, ?_⟩
        rw [readsFirst_append] at hrf
        rcases hrf with hrf | ⟨_, hrf⟩
        · left
          refine ⟨i, c, hc, ?_⟩
          have := readsFirst_reads v ((f.args b (f.lastInst b) i).map VReg.vreg)
          rw [List.map_map] at this
          exact this.mp hrf
        · right
          exact (hfix c hrc).2 b ((he.iff b c (hlt b hb') (hlt c hrc)).mpr hmem) v hv (ih hrc v hv hrf)
  intro b hb' v hv
  refine ⟨⟨h2.inSound b v hv, fun ⟨t, ht, hrf⟩ => key b t ht hb' v hv hrf⟩, h2.outSound b v hv, ?_⟩
  rintro ⟨c, hc, t, ht, hrf⟩
  have hrc := hb'.step hc
  exact (hfix c hrc).2 b ((he.iff b c (hlt b hb') (hlt c hrc)).mpr hc) v hv (key c t ht hrc v hv hrf)

/-- C24. The analysis always ends, and rejects the function exactly when some register may
be read before it is written on some path from the entry. -/
theorem C24_rejects_iff (f : Func) (ord : HashOrder) (he : EdgesMatch f) (nt : NoTies f) (hb : BranchesOk f) (po : List Nat)
    (hpo : Postorder.calculate? f.numBlocks f.entry f.succs = some (.ok po)) :
    (∃ r, compute ord f po = some r) ∧
    (compute ord f po = some (.error .entryLivein) ↔ ∃ v, v < 2 ^ 30 ∧ MayRead f f.entry v) ∧
    (∀ e, compute ord f po = some (.error e) → e = .entryLivein) := by
  obtain ⟨st, h1, h2, _, h3⟩ := analysis ord he nt hb po hpo
  unfold compute
  rw [h1]
  simp only
  have hent := h3 f.entry (.refl _ _)
  by_cases hem : (st.liveins f.entry).isEmpty = true
  · rw [if_pos hem]
    have := (h2 f.entry).isEmpty_iff.mp hem
    refine ⟨⟨_, rfl⟩, ⟨by simp, ?_⟩, by simp⟩
    rintro ⟨v, hv, hm⟩
    have h := (hent v hv).1.mpr hm
    rw [this v hv] at h; simp at h
  · rw [if_neg hem]
    refine ⟨⟨_, rfl⟩, ⟨fun _ => ?_, fun _ => rfl⟩, by simp⟩
    apply Classical.byContradiction
    intro hno
    apply hem
    rw [(h2 f.entry).isEmpty_iff]
    intro v hv
    cases hg : (st.liveins f.entry).get v
    · rfl
    · exact absurd ⟨v, hv, (hent v hv).1.mp hg⟩ hno

/-- C24. Otherwise, for every reachable block, the live-in set holds exactly the registers
that may be read before they are written from the start of the block on, and the live-out
set those that may be once the block is left. -/
theorem C24_liveness_exact (f : Func) (ord : HashOrder) (he : EdgesMatch f) (nt : NoTies f) (hb : BranchesOk f) (po : List Nat)
    (hpo : Postorder.calculate? f.numBlocks f.entry f.succs = some (.ok po)) (st : State)
    (hst : compute ord f po = some (.ok st)) (b : Nat) (hr : Reaches f.succs f.entry b) (v : Nat) (hv : v < 2 ^ 30) :
    (st.isLiveIn b v = true ↔ MayRead f b v) ∧ ((st.liveouts b).get v = true ↔ MayReadAfter f b v) := by
  obtain ⟨st', h1, h2, _, h3⟩ := analysis ord he nt hb po hpo
  unfold compute at hst
  rw [h1] at hst
  simp only at hst
  split at hst
  · simp only [Option.some.injEq, Except.ok.injEq] at hst
    subst hst
    exact h3 b hr v hv
  · simp at hst

/-- The sets it computes are well formed. -/
theorem Liveness.liveouts_good (f : Func) (ord : HashOrder) (he : EdgesMatch f) (nt : NoTies f) (hb : BranchesOk f) (po : List Nat)
    (hpo : Postorder.calculate? f.numBlocks f.entry f.succs = some (.ok po)) (st : State)
    (hst : compute ord f po = some (.ok st)) (b : Nat) : Good (st.liveouts b) := by
  obtain ⟨st', h1, _, h2, _⟩ := analysis ord he nt hb po hpo
  unfold compute at hst
  rw [h1] at hst
  simp only at hst
  split at hst
  · simp only [Option.some.injEq, Except.ok.injEq] at hst
    subst hst
    exact h2 b
  · simp at hst

/-! ### Concrete cases -/

/-- Operands for the examples. -/
private def use (n : Nat) : Op := ⟨.new n .Int, .Any, .Use, .Early⟩
private def lateUse (n : Nat) : Op := ⟨.new n .Int, .Any, .Use, .Late⟩
private def define (n : Nat) : Op := ⟨.new n .Int, .Any, .Def, .Late⟩

private def idOrder : HashOrder := ⟨id, fun l => .refl l⟩

/-- Block 0 defines 0 and 1 and enters the loop 1 with argument 0; the loop body uses
register 1 and its parameter 2 and passes 3 back; block 2 returns 3. -/
private def loopFunc : Func where
  numInsts := 5
  numBlocks := 4
  entry := 0
  insns := fun b => if b = 0 then (0, 2) else if b = 1 then (2, 4) else if b = 2 then (4, 5) else (5, 6)
  succs := fun b => if b = 0 then [1] else if b = 1 then [3, 2] else if b = 3 then [1] else []
  preds := fun b => if b = 1 then [0, 3] else if b = 2 then [1] else if b = 3 then [1] else []
  params := fun b => if b = 1 then [.new 2 .Int] else []
  isRet := fun i => i = 4
  isBranch := fun i => i = 1 ∨ i = 3 ∨ i = 5
  args := fun b _ _ => if b = 0 then [.new 0 .Int] else if b = 3 then [.new 3 .Int] else []
  operands := fun i => if i = 0 then [define 0, define 1] else if i = 2 then [use 1, use 2, define 3] else if i = 4 then [use 3] else []
  clobbers := fun _ => []
  numVregs := 4

private theorem loopFunc_noTies : NoTies loopFunc := by
  intro i p v
  by_cases h0 : i = 0
  · subst h0; cases p <;> simp [loopFunc, regsAt, define, use]
  by_cases h2 : i = 2
  · subst h2; cases p <;> simp [loopFunc, regsAt, define, use]
  by_cases h4 : i = 4
  · subst h4; cases p <;> simp [loopFunc, regsAt, define, use]
  · simp [loopFunc, regsAt, h0, h2, h4]

private theorem loopFunc_branches : BranchesOk loopFunc := by
  intro b
  by_cases h0 : b = 0
  · subst h0; decide
  by_cases h1 : b = 1
  · subst h1; decide
  by_cases h3 : b = 3
  · subst h3; decide
  · simp [loopFunc, h0, h1, h3]

/-- The hypotheses hold of a function with a loop, and the analysis says register 1 is live
around the loop, 0 is not live out of the entry, and nothing is live into it. -/
example : EdgesMatch loopFunc ∧ NoTies loopFunc ∧ BranchesOk loopFunc ∧
    Postorder.calculate? loopFunc.numBlocks loopFunc.entry loopFunc.succs = some (.ok [3, 2, 1, 0]) :=
  ⟨.of_decide (by decide +kernel), loopFunc_noTies, loopFunc_branches, by decide +kernel⟩

example : (compute idOrder loopFunc [3, 2, 1, 0]).map (fun r => match r with
    | .ok st => (List.range 4).map (fun b => (List.range 4).map (fun v => (st.isLiveIn b v, (st.liveouts b).get v)))
    | .error _ => []) =
  some [[(false, false), (false, true), (false, false), (false, false)],
    [(false, false), (true, true), (false, false), (false, true)],
    [(false, false), (false, false), (false, false), (true, false)],
    [(false, false), (true, true), (false, false), (true, false)]] := by decide +kernel

/-- The same function with the definition of register 1 removed is rejected. -/
example : ((compute idOrder { loopFunc with operands := fun i => if i = 0 then [define 0] else loopFunc.operands i } [3, 2, 1, 0]).map
    (fun r => match r with | .ok _ => none | .error e => some e)) = some (some .entryLivein) := by decide +kernel

/-- One block with one instruction. -/
private def single (ops : List Op) : Func :=
  { loopFunc with
    numBlocks := 1
    succs := fun _ => []
    preds := fun _ => []
    insns := fun _ => (0, 1)
    operands := fun _ => ops
    isBranch := fun _ => false }

/-- C24, limit of the claim: when one instruction uses and defines a register at the same
position, the answer depends on the order of its operands. -/
theorem C24_ties_depend_on_order :
    (compute idOrder (single [lateUse 5, define 5]) [0]).map (fun r => match r with | .ok _ => true | .error _ => false) = some true ∧
    (compute idOrder (single [define 5, lateUse 5]) [0]).map (fun r => match r with | .ok _ => true | .error _ => false) = some false := by
  decide +kernel

end Regalloc
