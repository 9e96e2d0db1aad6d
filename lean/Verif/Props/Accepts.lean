import Verif.Spec.Accepts
import Verif.Proofs.AcceptRun
import Verif.Props.Pipeline

/-
C44: the checker accepts what the backtracking allocator returns.
-/
namespace Regalloc.Pipeline

open Apply (OpAt)

/-- A location that the constraint admits passes the check. -/
theorem check_ok {i : Input} {j : Nat} {o : Op} {a : Allocation} {as : List Allocation} {x : Place} (hx : placeOf i.env a = some x)
    (hc : o.constraint.Admits i.env x) (hreg : ∀ p, a.asReg = some p → a = Allocation.reg p)
    (hreuse : ∀ m, o.constraint = .Reuse m → as[m]? = some a) : a ≠ .none ∧ Checker.checkConstraint i.env j o a as = .ok := by
  unfold placeOf at hx
  refine ⟨?_, ?_⟩
  · rintro rfl
    rw [C05_alloc_none.2.1, C05_alloc_none.2.2] at hx
    cases hx
  · cases h : a.asReg with
    | some p =>
      rw [h] at hx
      cases hx
      have ha := hreg p h
      have hk : a.kind? = some .Reg := by rw [ha]; exact (C05_alloc_reg p).1
      unfold Checker.checkConstraint
      cases hcc : o.constraint with
      | Any => rfl
      | Reg =>
        rw [hcc] at hc
        obtain ⟨p', hp'⟩ := hc
        unfold Place.ofPReg at hp'
        split at hp'
        · cases hp'
        · rename_i hn
          simp only [h, if_neg hn]
      | Stack =>
        rw [hcc] at hc
        have : p ∈ i.env.fixedStackSlots := by
          apply Classical.byContradiction
          intro hn
          exact hc p (by unfold Place.ofPReg; rw [if_neg hn])
        simp only [h, hk, if_pos this]
        simp
      | FixedReg p' =>
        rw [hcc] at hc
        have hc : Place.ofPReg i.env p = Place.ofPReg i.env p' := hc
        have : p = p' := by
          unfold Place.ofPReg at hc
          split at hc <;> split at hc <;> cases hc <;> rfl
        subst this
        simp [ha]
      | Reuse m =>
        simp [hk, hreuse m hcc]
      | Limit n =>
        rw [hcc] at hc
        obtain ⟨p', hp', hlt⟩ := hc
        unfold Place.ofPReg at hp'
        split at hp'
        · cases hp'
        · cases hp'
          simp only [h, if_neg (show ¬ p.hwEnc ≥ n by omega)]
    | none =>
      rw [h] at hx
      obtain ⟨s, hs, rfl⟩ := Option.map_eq_some_iff.mp hx
      have hk : a.kind? = some .Stack := by
        unfold Allocation.asStack at hs
        split at hs
        · assumption
        · cases hs
      unfold Checker.checkConstraint
      cases hcc : o.constraint with
      | Any => rfl
      | Stack => simp [hk]
      | Limit n => simp only [h]
      | Reg => rw [hcc] at hc; obtain ⟨p, hp⟩ := hc; cases hp
      | Reuse m => rw [hcc] at hc; obtain ⟨p, hp⟩ := hc; cases hp
      | FixedReg p =>
        rw [hcc] at hc
        have hc : Place.slot s.index = Place.ofPReg i.env p := hc
        unfold Place.ofPReg at hc
        split at hc <;> cases hc

/-- C44. If the allocator succeeds, the checker returns, and reports no error.

Partial: blocks must be numbered such that each but the entry has a predecessor with a smaller
number, without which it is false (`C44_order_violation`); inputs that are reused must be plain
(`C44_reused_input_violation`); and for the reasons given at `C41_same_behaviour_partial`. -/
theorem C44_checker_accepts_partial {i : Input} (hp : ProgramOk i) (hr : RegsOk i) {out : Output} (h : run i = .ok out) (hfit : Fits i out)
    (hb : BranchLast i.f) (ho : InOrder i.f) (hre : PlainReuse i.f) : Checker.run? i.f i.env out = some [] := by
  obtain ⟨fr, q, ss, slots, num, ms, allocs, edits, s, H⟩ := ran hp hr h
  have hf := func_ok hp fr q ss slots
  have hv := H.valid hp hr
  obtain ⟨srcs, psrcs, pdests, al1, al2, gs, ed, s', D, h1, h2, hst, hblock⟩ := Apply.run_parts hf hv
    (machine_ok hr H.loop allocs) (H.room hfit) H.apply rfl rfl rfl (sortedMoves_perm i ms) (sortedMoves_sorted i ms)
  rw [H.resolve] at h1
  cases h1
  have hout : out = Apply.outputOf i.f s.num.toNat edits allocs := H.out
  have hal : ∀ b, b < i.f.numBlocks → ∀ j ∈ i.f.blockInsts b,
      out.instAllocs j = some ((List.range (i.f.operands j).length).map (allocs j)) := by
    intro b hb j hj
    rw [hout]
    refine Apply.instAllocs_outputOf i.f _ edits allocs ?_
    have h1 := Build.mem_blockInsts.mp hj
    have h2 : (i.f.insns b).2 ≤ i.f.numInsts := hp.func.insts b hb
    omega
  refine Apply.accepts hf hv D (hst Checker.Tok) (out := out) (env := i.env) (by rw [hout]; exact h2) hal ?_ ?_ ?_ hb hp.reach ho ?_
  · intro b hb
    rw [hout]
    exact hblock Checker.Tok Checker.tokSem Checker.tokJunk b hb _ _
  · intro b hb j hj
    refine Apply.inst_fit hf hv D hb hj (hal b hb j hj) ?_
    intro q hq
    have hlk : ∃ k : Nat, (i.f.operands j)[k]? = some q.1 ∧ ((out.instAllocs j).getD [])[k]? = some q.2 := by
      obtain ⟨k, hk⟩ := List.mem_iff_getElem?.mp hq
      unfold Checker.locs at hk
      obtain ⟨h1, h2⟩ := List.getElem?_zip_eq_some.mp hk
      exact ⟨k, h1, h2⟩
    obtain ⟨k, hk1, hk2⟩ := hlk
    have hop : ∀ m a, Output.operand out j m = some a → ((out.instAllocs j).getD [])[m]? = some a := by
      intro m a hm
      unfold Output.operand at hm
      rw [hal b hb j hj] at hm ⊢
      exact hm
    cases hn : q.1.asFixedNonallocatable with
    | some p =>
      have h3 := hop k _ (C41_nonallocatable hp hr h hb hj hk1 hn)
      rw [hk2] at h3
      have h4 : q.2 = Allocation.reg p := Option.some.inj h3
      have h5 : q.1.constraint = .FixedReg p := by
        unfold Op.asFixedNonallocatable at hn
        split at hn
        · rename_i p' hp'
          split at hn
          · cases hn; exact hp'
          · cases hn
        · cases hn
      rw [h4]
      refine ⟨C05_alloc_injective.2.2.2.1 p, fun _ => ?_⟩
      unfold Checker.checkConstraint
      rw [h5]
      simp
    | none =>
      have hoa : OpAt i.f j k q.1 := ⟨⟨b, hb, hj⟩, hk1, hn⟩
      obtain ⟨a, x, h3, h4, h5, h6, h7, -⟩ := C41_operands_partial hp hr h hoa
        (fun ⟨k', o', g1, g2⟩ => hre j k k' q.1 o' g1 g2 hoa)
      have h8 := hop k a h3
      rw [hk2] at h8
      have h8 : q.2 = a := Option.some.inj h8
      rw [h8]
      have := check_ok (j := j) h4 h5 (fun p hp => (h7 p hp).1) (fun m hm => hop m a (h6 m hm))
      exact ⟨this.1, fun _ => this.2⟩
  · intro e he
    obtain ⟨-, -, h3, -⟩ := (C41_edits hp hr h hfit).2 e he
    have key : ∀ a, (∃ p, placeOf i.env a = some (.reg p)) → Checker.isStackAlloc i.env a = false := by
      rintro a ⟨p, hp⟩
      unfold placeOf at hp
      unfold Checker.isStackAlloc
      cases ha : a.asReg with
      | none =>
        rw [ha] at hp
        obtain ⟨s, -, hs⟩ := Option.map_eq_some_iff.mp hp
        cases hs
      | some p' =>
        rw [ha] at hp
        have hp : Place.ofPReg i.env p' = .reg p := Option.some.inj hp
        unfold Place.ofPReg at hp
        split at hp
        · cases hp
        · rename_i hn
          exact decide_eq_false hn
    rintro ⟨g1, g2⟩
    rcases h3 with h3 | h3
    · rw [key _ h3] at g2; cases g2
    · rw [key _ h3] at g1; cases g1
  · refine ⟨fun b hb t ht => hp.func.edges.succLt b t hb ht, by rw [hout]; exact h2, fun b hb j hj => ⟨_, hal b hb j hj, by simp; rfl⟩, ?_, ?_⟩
    · intro b hlt j hj hbr k s hk
      rw [hb b hlt j hj hbr]
      exact (hp.func.ready.arity b k s hk)
    · intro b hlt j hj o hmem k hk
      obtain ⟨k', hk'⟩ := List.mem_iff_getElem?.mp hmem
      have hn : o.asFixedNonallocatable = none := by
        unfold Op.asFixedNonallocatable
        rw [hk]
      obtain ⟨-, -, w, hw, -⟩ := hp.func.reuse j k' k o ⟨⟨b, hlt, hj⟩, hk', hn⟩ hk
      exact (List.getElem?_eq_some_iff.mp hw.2.1).1

/-! ### Concrete cases -/

section Example

open Apply (Data FuncB FuncB')

theorem branchLast_of {d : Data} (h : ∀ b ∈ List.range d.func.numBlocks, ∀ j ∈ d.func.blockInsts b, d.func.isBranch j = true → j = d.func.lastInst b) :
    BranchLast d.func := fun b hb => h b (List.mem_range.mpr hb)

theorem inOrder_of {d : Data} (h : ∀ b ∈ List.range d.func.numBlocks, b ≠ d.func.entry → ∃ a ∈ List.range b, b ∈ d.func.succs a) :
    InOrder d.func := fun b hb hne => by
  obtain ⟨a, h1, h2⟩ := h b (List.mem_range.mpr hb) hne
  exact ⟨a, List.mem_range.mp h1, h2⟩

/-- The function of C41: a loop with a value that is clobbered, spilled, and reused. -/
example : BranchLast (demo demoData 2).f := branchLast_of (d := demoData) (by decide +kernel)
example : (demoOut 2).bind (Checker.run? demoData.func (demo demoData 2).env) = some [] := by decide +kernel

example : InOrder (demo demoData 2).f := inOrder_of (d := demoData) (by decide +kernel)
example : PlainReuse (demo demoData 2).f := by
  intro j k k' o o' h1 h2 h3
  have h1 := (demoData.opAt_iff demoFuncB.insts _ _ _).mp h1
  have h3 := (demoData.opAt_iff demoFuncB.insts _ _ _).mp h3
  have key : ∀ q ∈ demoData.allOps, ∀ q' ∈ demoData.allOps, q.1 = q'.1 ∧ q'.2.2.constraint = .Reuse q.2.1 →
      q.2.2.constraint = .Any ∨ q.2.2.constraint = .Reg := by decide +kernel
  exact key _ h3 _ h1 ⟨rfl, h2⟩

/-- Block 2 comes before block 1 in every execution. The last block reads what the first one
defines. -/
def orderData : Data where
  blocks := [
    { insns := (0, 2), succs := [2], args := [[]] },
    { insns := (2, 3), succs := [3], preds := [2], args := [[]] },
    { insns := (3, 4), succs := [1], preds := [0], args := [[]] },
    { insns := (4, 5), preds := [1] }]
  insts := [
    { ops := [⟨.new 0 .Int, .Any, .Def, .Late⟩] },
    { branch := true },
    { branch := true },
    { branch := true },
    { ops := [⟨.new 0 .Int, .Any, .Use, .Early⟩], ret := true }]
  vregs := [(.new 0 .Int, [])]

theorem orderFuncB : FuncB orderData := by constructor <;> decide +kernel
theorem orderFuncB' : FuncB' orderData := by constructor <;> decide +kernel

/-- C44 fails if blocks are not numbered in order. The analysis visits all blocks in the order of
their numbers at first, also those that it has no labels for yet, and takes it that no location
holds anything there (`/repo/src/checker.rs:844-847`, `:866-873`). It goes on with that, so that
it reports an error although the output is right: C41 applies to it. -/
theorem C44_order_violation : ∃ i out, ProgramOk i ∧ RegsOk i ∧ run i = .ok out ∧ Fits i out ∧ BranchLast i.f ∧ PlainReuse i.f ∧
    Checker.run? i.f i.env out = some [.unknownValue 4] := by
  have hrun : (match run (demo orderData 2) with | .ok out => some (out.numSpillslots, Checker.run? orderData.func (demo orderData 2).env out) | .error _ => none) =
      some (0, some [.unknownValue 4]) := by decide +kernel
  cases h : run (demo orderData 2) with
  | error e => rw [h] at hrun; cases hrun
  | ok out =>
    rw [h] at hrun
    have hrun := Option.some.inj hrun
    refine ⟨demo orderData 2, out, ?_, ?_, h, ?_, branchLast_of (d := orderData) (by decide +kernel), ?_, congrArg Prod.snd hrun⟩
    · exact programOk_of (d := orderData) (place := fun _ => .reg (.new 1 .Int)) rfl rfl orderFuncB orderFuncB' (by constructor <;> decide +kernel)
    · exact regsOk_of (d := orderData) rfl orderFuncB (by constructor <;> decide +kernel)
    · have h1 : out.numSpillslots = 0 := congrArg Prod.fst hrun
      unfold Fits
      rw [h1]
      decide
    · intro j k k' o o' h1 h2 h3
      have h1 := (orderData.opAt_iff orderFuncB.insts _ _ _).mp h1
      have key : ∀ q' ∈ orderData.allOps, q'.2.2.constraint = .Any := by decide +kernel
      rw [key _ h1] at h2
      cases h2

/-- The output of C41 in which the constraint of a reused input is ignored: the checker reports
that. -/
theorem C44_reused_input_violation : ∃ i out, ProgramOk i ∧ RegsOk i ∧ run i = .ok out ∧ Fits i out ∧ BranchLast i.f ∧ InOrder i.f ∧
    ∃ e es, Checker.run? i.f i.env out = some (e :: es) := by
  have hrun : (match run (demo reusedData 2) with | .ok out => some (out.numSpillslots, Checker.run? reusedData.func (demo reusedData 2).env out) | .error _ => none) =
      some (0, some [.notFixedReg 1]) := by decide +kernel
  cases h : run (demo reusedData 2) with
  | error e => rw [h] at hrun; cases hrun
  | ok out =>
    rw [h] at hrun
    have hrun := Option.some.inj hrun
    refine ⟨demo reusedData 2, out, ?_, ?_, h, ?_, branchLast_of (d := reusedData) (by decide +kernel), inOrder_of (d := reusedData) (by decide +kernel),
      _, [], congrArg Prod.snd hrun⟩
    · exact programOk_of (d := reusedData) (place := fun _ => .reg (.new 1 .Int)) rfl rfl reusedFuncB reusedFuncB' (by constructor <;> decide +kernel)
    · exact regsOk_of (d := reusedData) rfl reusedFuncB (by constructor <;> decide +kernel)
    · have h1 : out.numSpillslots = 0 := congrArg Prod.fst hrun
      unfold Fits
      rw [h1]
      decide

end Example

end Regalloc.Pipeline
