import Verif.Proofs.CheckerComplete
import Verif.Props.FastallocExample
import Verif.Spec.Accepts

/-
C45: the checker accepts every output that meets the constraints and behaves like the function; in
particular what the single-pass allocator returns.
-/
namespace Regalloc
namespace Checker
open Exec

/-- C45: if the operands of each instruction are in locations that meet their constraints and do
not disturb each other, no move goes from memory to memory, and the allocated program behaves like
the function on every path, whatever the instructions compute and whatever is in the registers at
the start, then the checker reports no error. -/
theorem C45_checker_complete (f : Func) (env : MachineEnv) (out : Output) (hwell : WellFormed f out) (hlay : LaidOut f)
    (hun : ∀ b, b < f.numBlocks → ∀ i ∈ f.blockInsts b, Undisturbed f out i)
    (hcon : ∀ b, b < f.numBlocks → ∀ i ∈ f.blockInsts b, ConstraintsMet f env out i)
    (hmv : ∀ q ∈ out.edits, ¬ (InMemory env q.2.dst ∧ InMemory env q.2.src))
    (hsame : ∀ ks, SameOn f out ks) : run? f env out = some [] :=
  complete hwell hlay hun hcon hmv hsame

end Checker

namespace Fast
open Exec

theorem nonalloc_con {o : Op} {p : PReg} (h : o.asFixedNonallocatable = some p) : o.constraint = .FixedReg p := by
  unfold Op.asFixedNonallocatable at h
  split at h
  · rename_i q hq
    split at h
    · cases h; exact hq
    · cases h
  · cases h

theorem sublist_flatMap {α β : Type} (g : α → List β) {x : α} {l : List α} (h : x ∈ l) : (g x).Sublist (l.flatMap g) := by
  obtain ⟨a, b, rfl⟩ := List.append_of_mem h
  rw [List.flatMap_append, List.flatMap_cons]
  exact (List.sublist_append_left _ _).trans (List.sublist_append_right _ _)

theorem edits_sorted {cx : Cx} {C : Nat → VReg} (he : EnvOk cx) (hf : FuncOk cx.f C) {out : Output} (h : run cx = .ok out) :
    SortedEdits out.edits := by
  unfold run at h
  split at h
  · cases h
  · next t ht =>
    cases h
    obtain ⟨eb, ea, G⟩ := runEnv_spec (fnOk he hf) ht
    show SortedEdits t.edits
    rw [G.edits, insts_range hf]
    exact editsOf_sorted List.pairwise_lt_range'

section
variable {cx : Cx} {C : Nat → VReg} (he : EnvOk cx) (hf : FuncOk cx.f C) {out : Output} (h : run cx = .ok out)
include he hf h

theorem allocs_of {i : Nat} (hi : i < cx.f.numInsts) : ∃ as, out.instAllocs i = some as ∧ as.length = (cx.f.operands i).length := by
  obtain ⟨as, h1, h2, _⟩ := C29_constraints_met_partial cx C he hf out h i hi
  exact ⟨as, h1, h2⟩

theorem wellFormed_of : Checker.WellFormed cx.f out where
  succLt := hf.succs
  sorted := edits_sorted he hf h
  allocs := fun _ hb _ hi => allocs_of he hf h (inst_lt hf hb hi)
  args := by
    intro b hb i hi hbr k s hs
    rw [hf.branch_last b hb i hi hbr]
    exact (hf.args b hb k s hs).1
  reuse := by
    intro b hb i hi o ho k hk
    have O := hf.operands i (inst_lt hf hb hi)
    cases hkk : o.kind with
    | Use => exact absurd hk (O.uses o ho hkk k)
    | Def =>
      rcases (O.defs o ho hkk).2 with e | ⟨q, e, _⟩ | ⟨j, oj, e, hj, _⟩
      · rw [hk] at e; cases e
      · rw [hk] at e; cases e
      · rw [hk] at e; cases e
        exact (List.getElem?_eq_some_iff.mp hj).1

omit he h in
theorem laidOut_of (ho : Pipeline.InOrder cx.f) : Checker.LaidOut cx.f where
  nonempty := hf.nonempty
  branchLast := hf.branch_last
  inOrder := ho
  edges := by
    intro b hb k k' s hk hk'
    have h1 := (List.getElem?_eq_some_iff.mp hk)
    have h2 := (List.getElem?_eq_some_iff.mp hk')
    exact .inl ((List.Nodup.getElem_inj_iff (hf.succs_nodup b hb) (hi := h1.1) (hj := h2.1)).mp (h1.2.trans h2.2.symm))

theorem constraintsMet_of {b i : Nat} (hb : b < cx.f.numBlocks) (hi : i ∈ cx.f.blockInsts b) : Checker.ConstraintsMet cx.f cx.env out i := by
  intro as has k o a ho ha
  obtain ⟨as', h1, _, h2⟩ := C29_constraints_met_partial cx C he hf out h i (inst_lt hf hb hi)
  rw [has] at h1
  cases h1
  obtain ⟨g1, g2⟩ := h2 k o a ho ha
  have hnone : ∀ p, Allocation.reg p ≠ Allocation.none := by
    intro p e
    have := congrArg Allocation.asReg e
    rw [asReg_reg, asReg_none] at this
    cases this
  cases hna : o.asFixedNonallocatable with
  | some p =>
    have e := g1 p hna
    subst e
    refine ⟨hnone p, ?_⟩
    have : o.constraint = .FixedReg p := nonalloc_con hna
    unfold Checker.Allowed
    rw [this]
  | none =>
    obtain ⟨g3, g4⟩ := g2 hna
    have hreg : (∃ p c, a = Allocation.reg p ∧ o.vreg.class? = some c ∧ AllocatableIn cx.env c p) →
        ∃ p, a.asReg = some p ∧ p ∉ cx.env.fixedStackSlots := by
      rintro ⟨p, c, rfl, _, hc⟩
      exact ⟨p, asReg_reg p, he.real c p hc⟩
    obtain ⟨al, slot, e1, G, I, hinj, hlt⟩ := run_good he hf h (inst_lt hf hb hi)
    have e : a = al k := by
      rw [has] at e1
      cases e1
      rw [List.getElem?_map, List.getElem?_range (List.getElem?_eq_some_iff.mp ho).1] at ha
      exact (Option.some.inj ha).symm
    have hstk : ∀ n, a = Allocation.stack (SpillSlot.new n) → a.asReg = none → a ≠ Allocation.none ∧ a.isStack = true := by
      intro n hn hr
      rcases G.real k o ho hna with ⟨q, hq, _⟩ | ⟨m, hm, hs⟩
      · rw [← e] at hq; rw [hq, asReg_reg] at hr; cases hr
      · rw [← e] at hm
        rw [hm]
        refine ⟨stk_ne_none (hlt _ _ hs).2, ?_⟩
        have := isStack_stk cx (hlt _ _ hs).2
        unfold Cx.isStack at this
        rw [asReg_stk (hlt _ _ hs).2, Bool.or_false] at this
        exact this
    refine ⟨?_, ?_⟩
    · rcases G.real k o ho hna with ⟨q, hq, _⟩ | ⟨m, hm, hs⟩
      · rw [e, hq]; exact hnone q
      · rw [e, hm]; exact stk_ne_none (hlt _ _ hs).2
    · unfold Satisfies at g3
      unfold Checker.Allowed
      cases hc : o.constraint with
      | Any => trivial
      | Reg => rw [hc] at g3; exact hreg g3
      | Stack =>
        rw [hc] at g3
        rcases g3 with ⟨n, hn⟩ | ⟨p, hp, rfl⟩
        · cases hr : a.asReg with
          | none => exact .inl (hstk n hn hr).2
          | some p =>
            rcases G.real k o ho hna with ⟨q, hq, _⟩ | ⟨m, hm, hs⟩
            · have hs := G.con k o ho hna
              unfold ConOk at hs
              rw [hc] at hs
              dsimp only at hs
              rw [← e] at hs hq
              rw [hq, isStack_reg] at hs
              refine .inr ⟨q, ?_, (fixedStack_iff cx q).mp hs⟩
              rw [← hr, hq, asReg_reg]
            · rw [e, hm, asReg_stk (hlt _ _ hs).2] at hr; cases hr
        · exact .inr ⟨p, asReg_reg p, hp⟩
      | FixedReg p => rw [hc] at g3; exact g3
      | Reuse j =>
        rw [hc] at g3
        obtain ⟨p, hp, _⟩ := hreg g3.2
        exact ⟨g3.1, by rw [hp]; simp⟩
      | Limit n =>
        rw [hc] at g3
        obtain ⟨p, c, rfl, _, _, hn⟩ := g3
        exact ⟨p, asReg_reg p, hn⟩

theorem undisturbed_of {b i : Nat} (hb : b < cx.f.numBlocks) (hi : i ∈ cx.f.blockInsts b)
    (legal : ∀ o ∈ cx.f.operands i, o.kind = .Use → o.pos = .Late → ∀ q, o.constraint = .FixedReg q → q ∉ cx.f.clobbers i) :
    Checker.Undisturbed cx.f out i where
  real := fun o ho hd => ((hf.operands i (inst_lt hf hb hi)).defs o ho hd).1
  once := by
    have h1 : (opWrites (cx.f.operands i)).Sublist (allWrites cx.f) := by
      unfold allWrites
      refine List.Sublist.trans ?_ (sublist_flatMap _ (List.mem_range.mpr hb))
      exact (sublist_flatMap (fun i => opWrites (cx.f.operands i)) hi).trans (List.sublist_append_right _ _)
    have := (List.Sublist.map VReg.vreg h1).nodup hf.single
    exact List.Nodup.of_map _ this
  useDef := by
    intro v hr hw
    have := hf.use_after_def i i (inst_lt hf hb hi) (inst_lt hf hb hi) v hw v hr rfl
    omega
  defs := by
    intro as has k k' o o' ho ho' hne hd hd'
    have O := hf.operands i (inst_lt hf hb hi)
    refine C29_conflicting_apart_partial cx C he hf out h i (inst_lt hf hb hi) as has k k' o o' hne ho ho'
      (O.defs o (List.mem_of_getElem? ho) hd).1 (O.defs o' (List.mem_of_getElem? ho') hd').1 ⟨.inr ⟨.inl hd, .inl hd'⟩, ?_⟩
    rintro ⟨hu, _⟩
    rw [hd] at hu; cases hu
  late := by
    intro as has k o ho hu hl hna
    have O := hf.operands i (inst_lt hf hb hi)
    constructor
    · intro k' o' ho' hd'
      refine C29_conflicting_apart_partial cx C he hf out h i (inst_lt hf hb hi) as has k k' o o' ?_ ho ho' hna
        (O.defs o' (List.mem_of_getElem? ho') hd').1 ⟨.inr ⟨.inr hl, .inl hd'⟩, ?_⟩
      · rintro rfl
        rw [ho] at ho'; cases ho'
        rw [hu] at hd'; cases hd'
      · rintro ⟨_, hu', _⟩
        rw [hd'] at hu'; cases hu'
    · intro p hp ha
      exact C29_late_uses_survive_clobbers_partial cx C he hf out h i (inst_lt hf hb hi) as has legal k o p ho hu hl hna ha hp
end

/-- C45 for the single-pass allocator: the checker accepts its output, for the functions of C28
whose blocks are in order and which do not ask for a late use in a clobbered register. -/
theorem C45_accepts_fastalloc_partial (cx : Cx) (C : Nat → VReg) (he : EnvOk cx) (hf : FuncOk cx.f C) (hord : Pipeline.InOrder cx.f)
    (legal : ∀ i, i < cx.f.numInsts → ∀ o ∈ cx.f.operands i, o.kind = .Use → o.pos = .Late → ∀ q, o.constraint = .FixedReg q →
      q ∉ cx.f.clobbers i)
    (out : Output) (h : run cx = .ok out) : Checker.run? cx.f cx.env out = some [] :=
  Checker.C45_checker_complete cx.f cx.env out (wellFormed_of he hf h) (laidOut_of hf hord)
    (fun _ hb i hi => undisturbed_of he hf h hb hi (legal i (inst_lt hf hb hi)))
    (fun _ hb _ hi => constraintsMet_of he hf h hb hi)
    (fun q hq hm => C29_no_memory_moves cx he out h q hq ⟨hm.2, hm.1⟩)
    (C28_fastalloc_preserves_partial cx C he hf out h)

/-- The hypotheses are met by the example of C28: a loop with parameters, spills and clobbers. -/
theorem Ex.accepted : ∃ out, run Ex.cx = .ok out ∧ out.edits ≠ [] ∧ 0 < out.numSpillslots ∧ Checker.run? Ex.cx.f Ex.cx.env out = some [] := by
  obtain ⟨out, h, h1, h2⟩ := Ex.succeeds
  refine ⟨out, h, h1, h2, C45_accepts_fastalloc_partial Ex.cx Ex.v Ex.envOk Ex.funcOk ?_ ?_ out h⟩
  · have : ∀ b, b < Ex.f.numBlocks → b ≠ Ex.f.entry → ∃ a ∈ List.range b, b ∈ Ex.f.succs a := by decide +kernel
    intro b hb hne
    obtain ⟨a, ha, hs⟩ := this b hb hne
    exact ⟨a, List.mem_range.mp ha, hs⟩
  · have : ∀ i, i < Ex.f.numInsts → ∀ o ∈ Ex.f.operands i, o.kind = .Use → o.pos = .Late → ∀ q ∈ Ex.f.clobbers i,
      o.constraint ≠ .FixedReg q := by decide +kernel
    intro i hi o ho hu hl q hq hc
    exact this i hi o ho hu hl q hc hq

/-- So are those of `C45_checker_complete`. -/
example : ∃ f env out, Checker.WellFormed f out ∧ Checker.LaidOut f ∧ (∀ b, b < f.numBlocks → ∀ i ∈ f.blockInsts b, Checker.Undisturbed f out i) ∧
    (∀ b, b < f.numBlocks → ∀ i ∈ f.blockInsts b, Checker.ConstraintsMet f env out i) ∧ out.edits ≠ [] ∧ ∀ ks, SameOn f out ks := by
  obtain ⟨out, h, h1, _⟩ := Ex.succeeds
  have hi := Ex.envOk
  refine ⟨Ex.cx.f, Ex.cx.env, out, wellFormed_of Ex.envOk Ex.funcOk h, laidOut_of Ex.funcOk ?_, fun _ hb i hi => undisturbed_of Ex.envOk Ex.funcOk h hb hi ?_,
    fun _ hb _ hi => constraintsMet_of Ex.envOk Ex.funcOk h hb hi, h1, C28_fastalloc_preserves_partial Ex.cx Ex.v Ex.envOk Ex.funcOk out h⟩
  · have : ∀ b, b < Ex.f.numBlocks → b ≠ Ex.f.entry → ∃ a ∈ List.range b, b ∈ Ex.f.succs a := by decide +kernel
    intro b hb hne
    obtain ⟨a, ha, hs⟩ := this b hb hne
    exact ⟨a, List.mem_range.mp ha, hs⟩
  · have : ∀ i, i < Ex.f.numInsts → ∀ o ∈ Ex.f.operands i, o.kind = .Use → o.pos = .Late → ∀ q ∈ Ex.f.clobbers i,
      o.constraint ≠ .FixedReg q := by decide +kernel
    intro o ho hu hl q hc hq
    exact this i (inst_lt Ex.funcOk hb hi) o ho hu hl q hq hc

end Fast
end Regalloc
