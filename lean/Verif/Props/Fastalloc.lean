import Verif.Proofs.FastRun
import Verif.Proofs.FastMem
import Verif.Spec.Checker
import Verif.Props.FastallocBugs

/-
C28 (single-pass allocator: the output executes like the input) and C29 (operand
constraints are met, conflicting operands are apart).
-/
namespace Regalloc
namespace Fast
open Exec

/-- C28, for functions satisfying `FuncOk`: if the allocator succeeds, then on every
path, whatever the instructions compute and whatever is in the registers at the
start, the allocated program shows each instruction the operand values of the
original program.

Missing from the full statement: functions laid out with a use before its definition,
definitions constrained to the stack or to `Any` location, reuse of a constrained
input, definitions by branches and duplicate successors. For the first three the
statement is false (`C28_layout_violation`, `C28_stack_def_violation`,
`C28_reuse_fixed_violation`). -/
theorem C28_fastalloc_preserves_partial (cx : Cx) (C : Nat → VReg) (he : EnvOk cx) (hf : FuncOk cx.f C) (out : Output)
    (h : run cx = .ok out) (ks : List Nat) : SameOn cx.f out ks :=
  fun _ sem junk V A => run_spec he hf h sem junk ks V A

theorem run_good {cx : Cx} {C : Nat → VReg} (he : EnvOk cx) (hf : FuncOk cx.f C) {out : Output} (h : run cx = .ok out) {i : Nat}
    (hi : i < cx.f.numInsts) : ∃ al slot, out.instAllocs i = some ((List.range (cx.f.operands i).length).map al) ∧
    OpsGood cx i al slot ∧ IOk cx C i ∧ (∀ v w n, slot v = some n → slot w = some n → v = w) ∧
    ∀ v n, slot v = some n → n < out.numSpillslots ∧ n < 2 ^ 29 := by
  unfold run at h
  split at h
  · cases h
  · next t ht =>
    have h := Except.ok.inj h
    subst h
    obtain ⟨eb, ea, G⟩ := runEnv_spec (fnOk he hf) ht
    have : i ∈ (List.range cx.f.numBlocks).flatMap cx.f.blockInsts := by
      rw [insts_range hf, List.mem_range'_1]; omega
    obtain ⟨b, hb, hib⟩ := List.mem_flatMap.mp this
    exact ⟨t.allocs i, t.slot, instAllocs_outputOf cx t hi, G.good b hb i hib, iok hf (List.mem_range.mp hb) hib,
      G.inv.slotInj, fun v n hn => ⟨G.inv.slotLt v n hn, G.inv.slot29 hn⟩⟩

theorem pcls_alloc {cx : Cx} (he : EnvOk cx) {p : PReg} {v : VReg} {c : RegClass} (hc : v.class? = some c)
    (h1 : cx.initAvail.contains p = true) (h2 : pcls p = vcls v) (h3 : cx.isStack (Allocation.reg p) = false) :
    AllocatableIn cx.env c p := by
  rcases (initAvail_iff cx p).mp h1 with h | ⟨c', h⟩
  · rw [isStack_reg, ← Bool.not_eq_true] at h3
    exact (h3 ((fixedStack_iff cx p).mpr h)).elim
  · have := he.class_ok c' p h
    have e : c' = c := by
      unfold pcls vcls at h2
      rw [this, hc] at h2
      exact h2
    rw [← e]; exact h

/-- C29: every operand is assigned a location that meets its constraint; registers of
the operand's class or fixed stack slots, or spill slots. An operand naming a
register that is not allocatable is left in that register. -/
theorem C29_constraints_met_partial (cx : Cx) (C : Nat → VReg) (he : EnvOk cx) (hf : FuncOk cx.f C) (out : Output)
    (h : run cx = .ok out) (i : Nat) (hi : i < cx.f.numInsts) :
    ∃ as, out.instAllocs i = some as ∧ as.length = (cx.f.operands i).length ∧
      ∀ (k : Nat) o a, (cx.f.operands i)[k]? = some o → as[k]? = some a →
        (∀ p, o.asFixedNonallocatable = some p → a = Allocation.reg p) ∧
        (o.asFixedNonallocatable = none → Satisfies cx.env as o a ∧
          ((∃ p c, a = Allocation.reg p ∧ o.vreg.class? = some c ∧ AllocatableIn cx.env c p) ∨
           (∃ p ∈ cx.env.fixedStackSlots, a = Allocation.reg p) ∨
           ∃ n, n < out.numSpillslots ∧ a = Allocation.stack (SpillSlot.new n))) := by
  obtain ⟨al, slot, h1, G, I, hinj, hlt⟩ := run_good he hf h hi
  refine ⟨_, h1, by simp, ?_⟩
  intro k o a ho ha
  have hk := (List.getElem?_eq_some_iff.mp ho).1
  have e : a = al k := by
    rw [List.getElem?_map, List.getElem?_range hk] at ha
    exact (Option.some.inj ha).symm
  subst e
  refine ⟨fun p hp => G.na k o p ho hp, fun hn => ?_⟩
  obtain ⟨c, hc⟩ := (hf.operands i hi).class_ok o (List.mem_of_getElem? ho) hn
  have hreal := G.real k o ho hn
  have hreg : ∀ p, al k = Allocation.reg p → cx.isStack (al k) = false →
      ∃ p c, al k = Allocation.reg p ∧ o.vreg.class? = some c ∧ AllocatableIn cx.env c p := by
    intro p hp hs
    rcases hreal with ⟨q, hq, h2, h3⟩ | ⟨n, hn, hsl⟩
    · rw [hq] at hs
      exact ⟨q, c, hq, hc, pcls_alloc he hc h2 h3 hs⟩
    · rw [hn, isStack_stk cx (hlt _ _ hsl).2] at hs; cases hs
  have hcon := G.con k o ho hn
  refine ⟨?_, ?_⟩
  · unfold ConOk at hcon
    unfold Satisfies
    cases hcc : o.constraint with
    | Any => trivial
    | Reg => rw [hcc] at hcon; obtain ⟨p, hp, hs⟩ := hcon; exact hreg p hp hs
    | Stack =>
      rw [hcc] at hcon
      rcases hreal with ⟨q, hq, h2, h3⟩ | ⟨n, hn, hsl⟩
      · refine .inr ⟨q, ?_, hq⟩
        dsimp only at hcon
        rw [hq, isStack_reg] at hcon
        exact (fixedStack_iff cx q).mp hcon
      · exact .inl ⟨n, hn⟩
    | FixedReg p => rw [hcc] at hcon; exact hcon
    | Reuse j =>
      rw [hcc] at hcon
      obtain ⟨p, hp, hs⟩ := hcon
      refine ⟨?_, hreg p hp hs⟩
      have hod : o.kind = .Def := by
        cases hkk : o.kind with
        | Def => rfl
        | Use => exact ((hf.operands i hi).uses o (List.mem_of_getElem? ho) hkk j hcc).elim
      rcases (hf.operands i hi).defs o (List.mem_of_getElem? ho) hod with ⟨_, h | ⟨q, h, _⟩ | ⟨j', oj, h, hj, _⟩⟩
      · rw [hcc] at h; cases h
      · rw [hcc] at h; cases h
      · rw [hcc] at h; cases h
        have hjl := (List.getElem?_eq_some_iff.mp hj).1
        rw [List.getElem?_map, List.getElem?_range hjl, Option.map_some, G.reuse j k oj o hj ho hcc]
    | Limit n => rw [hcc] at hcon; exact hcon.elim
  · rcases hreal with ⟨q, hq, h2, h3⟩ | ⟨n, hn, hsl⟩
    · cases hs : cx.isStack (al k) with
      | false => exact .inl (hreg q hq hs)
      | true =>
        rw [hq, isStack_reg] at hs
        exact .inr (.inl ⟨q, (fixedStack_iff cx q).mp hs, hq⟩)
    · exact .inr (.inr ⟨n, (hlt _ _ hsl).1, hn⟩)

/-- C29: two operands of an instruction that need their locations at the same moment
for different values are in different locations. -/
theorem C29_conflicting_apart_partial (cx : Cx) (C : Nat → VReg) (he : EnvOk cx) (hf : FuncOk cx.f C) (out : Output)
    (h : run cx = .ok out) (i : Nat) (hi : i < cx.f.numInsts) (as : List Allocation) (has : out.instAllocs i = some as)
    (k k' : Nat) (o o' : Op) (hne : k ≠ k') (ho : (cx.f.operands i)[k]? = some o) (ho' : (cx.f.operands i)[k']? = some o')
    (hn : o.asFixedNonallocatable = none) (hn' : o'.asFixedNonallocatable = none) (hc : Conflict o o') :
    as[k]? ≠ as[k']? := by
  obtain ⟨al, slot, h1, G, I, hinj, hlt⟩ := run_good he hf h hi
  rw [has] at h1
  have h1 := Option.some.inj h1
  subst h1
  have hk := (List.getElem?_eq_some_iff.mp ho).1
  have hk' := (List.getElem?_eq_some_iff.mp ho').1
  rw [List.getElem?_map, List.getElem?_range hk, List.getElem?_map, List.getElem?_range hk']
  simp only [Option.map_some, ne_eq, Option.some.injEq]
  intro e
  have hcan := (I.vreg k o ho hn).1
  have hcan' := (I.vreg k' o' ho' hn').1
  have hreuse : ∀ (k k' : Nat) o o', (cx.f.operands i)[k]? = some o → (cx.f.operands i)[k']? = some o' →
      ReuseRel (cx.f.operands i) o o' → ¬ Conflict o o' ∧ ¬ Conflict o' o := by
    rintro k k' o o' ho ho' ⟨j, oj, hj, _, hu, he, _⟩
    have hd : o'.kind = .Def := by
      cases hkk : o'.kind with
      | Def => rfl
      | Use => exact ((hf.operands i hi).uses o' (List.mem_of_getElem? ho') hkk j hj).elim
    have hl : o'.pos = .Late := by
      rcases (hf.operands i hi).defs o' (List.mem_of_getElem? ho') hd with ⟨_, h | ⟨q, h, _⟩ | ⟨j', oj, h, _, _, _, _, _, hl⟩⟩
      · rw [hj] at h; cases h
      · rw [hj] at h; cases h
      · exact hl
    unfold Conflict HeldBefore HeldAfter
    rw [hd, hl, hu, he]
    simp
  rcases G.real k o ho hn with ⟨p, hp, _⟩ | ⟨n, hp, hs⟩
  · have hp' : al k' = Allocation.reg p := by rw [← e]; exact hp
    rcases G.compat k k' o o' p ho ho' hne hn hn' hp hp' with ⟨a, b, c⟩ | ⟨a, b⟩ | hr | hr
    · refine hc.2 ⟨a, b, ?_⟩
      rw [hcan, hcan', c]
    · rcases hc.1 with ⟨x, y⟩ | ⟨x, y⟩
      · exact a ⟨x.imp_right .inl, y.imp_right .inl⟩
      · exact b ⟨x, y⟩
    · exact (hreuse k k' o o' ho ho' hr).1 hc
    · exact (hreuse k' k o' o ho' ho hr).2 hc
  · rcases G.real k' o' ho' hn' with ⟨q, hq, _⟩ | ⟨n', hp', hs'⟩
    · rw [← e, hp] at hq
      exact reg_ne_stk (hlt _ _ hs).2 hq.symm
    · have hnn : n = n' := by
        rw [← e, hp] at hp'
        have h1 := stk_toNat (hlt _ _ hs).2
        have h2 := stk_toNat (hlt _ _ hs').2
        rw [hp'] at h1
        omega
      subst hnn
      have hv := hinj _ _ _ hs hs'
      by_cases hd : o.kind = .Def
      · exact I.defUniq k k' o o' ho ho' hne hd hn' hv
      · by_cases hd' : o'.kind = .Def
        · exact I.defUniq k' k o' o ho' ho (Ne.symm hne) hd' hn hv.symm
        · refine hc.2 ⟨?_, ?_, ?_⟩
          · cases hkk : o.kind with
            | Def => exact (hd hkk).elim
            | Use => rfl
          · cases hkk : o'.kind with
            | Def => exact (hd' hkk).elim
            | Use => rfl
          · rw [hcan, hcan', hv]

/-- C29: no definition is assigned a register its instruction clobbers. -/
theorem C29_defs_survive_clobbers_partial (cx : Cx) (C : Nat → VReg) (he : EnvOk cx) (hf : FuncOk cx.f C) (out : Output)
    (h : run cx = .ok out) (i : Nat) (hi : i < cx.f.numInsts) (as : List Allocation) (has : out.instAllocs i = some as)
    (k : Nat) (o : Op) (p : PReg) (ho : (cx.f.operands i)[k]? = some o) (hd : o.kind = .Def)
    (ha : as[k]? = some (Allocation.reg p)) : p ∉ cx.f.clobbers i := by
  obtain ⟨al, slot, h1, G, I, hinj, hlt⟩ := run_good he hf h hi
  rw [has] at h1
  have h1 := Option.some.inj h1
  subst h1
  have hk := (List.getElem?_eq_some_iff.mp ho).1
  rw [List.getElem?_map, List.getElem?_range hk] at ha
  have := G.clob k o p ho hd (Option.some.inj ha)
  unfold Cx.clob at this
  rwa [cont_ofList] at this

/-- C29: no late use is assigned a register its instruction clobbers, when the
instruction does not itself ask for that (which `/repo/src/lib.rs:1286-1288`
forbids). -/
theorem C29_late_uses_survive_clobbers_partial (cx : Cx) (C : Nat → VReg) (he : EnvOk cx) (hf : FuncOk cx.f C) (out : Output)
    (h : run cx = .ok out) (i : Nat) (hi : i < cx.f.numInsts) (as : List Allocation) (has : out.instAllocs i = some as)
    (legal : ∀ o ∈ cx.f.operands i, o.kind = .Use → o.pos = .Late → ∀ q, o.constraint = .FixedReg q → q ∉ cx.f.clobbers i)
    (k : Nat) (o : Op) (p : PReg) (ho : (cx.f.operands i)[k]? = some o) (hu : o.kind = .Use) (hl : o.pos = .Late)
    (hn : o.asFixedNonallocatable = none) (ha : as[k]? = some (Allocation.reg p)) : p ∉ cx.f.clobbers i := by
  obtain ⟨al, slot, h1, G, I, hinj, hlt⟩ := run_good he hf h hi
  rw [has] at h1
  have h1 := Option.some.inj h1
  subst h1
  have hk := (List.getElem?_eq_some_iff.mp ho).1
  rw [List.getElem?_map, List.getElem?_range hk] at ha
  have := G.lateClob (fun k o q ho hu hl hc => by
    unfold Cx.clob
    rw [cont_ofList]
    exact legal o (List.mem_of_getElem? ho) hu hl q hc) k o p ho hu hl hn (Option.some.inj ha)
  unfold Cx.clob at this
  rwa [cont_ofList] at this

theorem isStack_iff {cx : Cx} {a : Allocation} : cx.isStack a = true ↔ Checker.InMemory cx.env a := by
  unfold Cx.isStack Checker.InMemory
  rw [Bool.or_eq_true]
  refine or_congr Iff.rfl ?_
  cases a.asReg with
  | none => simp
  | some p => simp [fixedStack_iff]

/-- C29: no move that the allocator inserts goes from memory to memory (spill slots or fixed stack
slots), for any function. -/
theorem C29_no_memory_moves (cx : Cx) (he : EnvOk cx) (out : Output) (h : run cx = .ok out) :
    ∀ q ∈ out.edits, ¬ (Checker.InMemory cx.env q.2.src ∧ Checker.InMemory cx.env q.2.dst) := by
  unfold run at h
  split at h
  · cases h
  · next t ht =>
    cases h
    intro q hq
    rw [← isStack_iff, ← isStack_iff]
    exact (runEnv_mem he ht).edits q hq

end Fast
end Regalloc
