import Verif.Proofs.FastFitRun
import Verif.Props.FastTotal

/-
C47: when the single-pass allocator reports too many live registers.
-/
namespace Regalloc
namespace Fast
open Exec

/-- C47, in part. If every instruction leaves as many registers of each class alone as it has
operands that are neither fixed nor on the stack (and one for moves between stack slots), not
counting registers that are never read, and names
fixed registers consistently, the single-pass allocator succeeds. In full, C47 says this of every
function on which allocation is possible (`Placeable` at each instruction); that is false, see
`C47_starved_violation` and `C47_fixed_twice_violation`. -/
theorem C47_enough_registers_partial (cx : Cx) (C : Nat → VReg) (he : EnvOk cx) (hf : Workable cx C) (hs : SlotsFit cx) (hr : Roomy cx C) :
    ∃ out, run cx = .ok out := by
  rcases C46_no_panic cx C he hf hs with h | h
  · exact h
  · exact absurd h (run_fit he hf hs hr)

/-- C47, with C28: on such functions the single-pass allocator is total and correct. -/
theorem C47_total_correct_partial (cx : Cx) (C : Nat → VReg) (he : EnvOk cx) (hf : FuncOk cx.f C)
    (hl : ∀ i o n, o ∈ cx.f.operands i → o.constraint ≠ .Limit n)
    (hp : ∀ b, b < cx.f.numBlocks → ∀ p ∈ cx.f.params b, p.vreg < cx.f.numVregs)
    (hc : ∀ v, v < cx.f.numVregs → ∃ p, AllocatableIn cx.env (vcls (C v)) p) (hs : SlotsFit cx) (hr : Roomy cx C) :
    ∃ out, run cx = .ok out ∧ ∀ ks, SameOn cx.f out ks := by
  obtain ⟨out, h⟩ := C47_enough_registers_partial cx C he (workable_of_funcOk hf hl hp hc) hs hr
  exact ⟨out, h, C28_fastalloc_preserves_partial cx C he hf out h⟩

/-! ### Concrete cases -/

/-- A decidable form of `RoomyInst` for functions with registers of one class: `free` are registers
of that class. -/
def roomyB (cx : Cx) (free : List PReg) (i : Nat) : Bool :=
  ((cx.f.operands i).all fun o => match o.constraint with
    | .Reuse j => (match (cx.f.operands i)[j]? with | some oj => decide (oj.constraint = .Reg) | none => false)
    | .FixedReg p => o.asFixedNonallocatable.isSome || cx.initAvail.contains p
    | _ => true) &&
  ((cx.f.operands i).zipIdx.all fun x => (cx.f.operands i).zipIdx.all fun y =>
    decide (x.2 = y.2) || (fixedOf x.1).isNone || decide (fixedOf x.1 ≠ fixedOf y.1) ||
      !(((decide (x.1.kind = .Use) || decide (x.1.pos = .Early)) && (decide (y.1.kind = .Use) || decide (y.1.pos = .Early))) ||
        ((decide (x.1.kind = .Def) || decide (x.1.pos = .Late)) && (decide (y.1.kind = .Def) || decide (y.1.pos = .Late))))) &&
  decide (flexCount cx.f (fun _ => false) i + 1 ≤
    (free.filter (fun p => !((cx.f.clobbers i).contains p) && (cx.f.operands i).all (fun o => decide (fixedOf o ≠ some p)))).length)

theorem fixedOf_iff {o : Op} {p : PReg} : fixedOf o = some p ↔ o.constraint = .FixedReg p := by
  unfold fixedOf
  split
  · rename_i q hq; rw [hq]; simp
  · rename_i h
    exact ⟨fun e => (by cases e), fun e => absurd e (h p)⟩

theorem roomy_of {cx : Cx} {C : Nat → VReg} {free : List PReg} {c : RegClass} {i : Nat} (hc : ∀ v, v < cx.f.numVregs → vcls (C v) = c) (hn : free.Nodup)
    (hfree : ∀ p ∈ free, AllocatableIn cx.env c p) (h : roomyB cx free i = true) : RoomyInst cx C (fun _ => false) i := by
  unfold roomyB at h
  rw [Bool.and_eq_true, Bool.and_eq_true, List.all_eq_true] at h
  obtain ⟨⟨h1, h2⟩, h3⟩ := h
  refine ⟨?_, ?_, ?_, ?_⟩
  · intro o ho j hj
    have := h1 o ho
    rw [hj] at this
    dsimp only at this
    split at this
    · rename_i oj e
      exact ⟨oj, e, of_decide_eq_true this⟩
    · cases this
  · intro o ho p hp hna
    have := h1 o ho
    rw [hp, hna] at this
    dsimp only [Option.isSome] at this
    rw [Bool.false_or] at this
    exact ((initAvail_iff cx p).mp this).symm
  · intro k k' o o' p hk hk' hne hp hp'
    rw [List.all_eq_true] at h2
    have := h2 (o, k) (List.mem_zipIdx_iff_getElem?.mpr hk)
    rw [List.all_eq_true] at this
    have := this (o', k') (List.mem_zipIdx_iff_getElem?.mpr hk')
    dsimp only at this
    rw [fixedOf_iff.mpr hp, fixedOf_iff.mpr hp'] at this
    simp only [hne, decide_false, Option.isNone_some, ne_eq, not_true_eq_false, Bool.or_false, Bool.false_or, Bool.not_eq_true',
      Bool.or_eq_false_iff, Bool.and_eq_false_iff, decide_eq_false_iff_not] at this
    unfold HeldBefore HeldAfter
    grind
  · intro v hv
    rw [hc v hv]
    refine ⟨free.filter (fun p => !((cx.f.clobbers i).contains p) && (cx.f.operands i).all (fun o => decide (fixedOf o ≠ some p))),
      List.Pairwise.filter _ hn, ?_, ?_⟩
    rotate_left
    · refine Nat.le_trans ?_ (of_decide_eq_true h3)
      have : scratchNeed cx.env c ≤ 1 := by unfold scratchNeed; split <;> omega
      omega
    · intro p hp
      obtain ⟨m1, m2⟩ := List.mem_filter.mp hp
      rw [Bool.and_eq_true, List.all_eq_true] at m2
      refine ⟨hfree p m1, ?_⟩
      rintro (hx | ⟨o, ho, hx⟩)
      · have := m2.1
        simp [hx] at this
      · have := of_decide_eq_true (m2.2 o ho)
        exact this (fixedOf_iff.mpr hx)

namespace Ex

/-- Six registers. -/
def six : List PReg := [p 0, p 1, p 2, p 3, p 4, p 5]

/-- The loop of `FastallocExample`, with six registers. -/
def roomy : Cx :=
  ⟨f, ⟨fun c => match c with
    | .Int => PRegSet.ofList six
    | .Float => PRegSet.ofList [PReg.new 0 .Float]
    | .Vector => PRegSet.ofList [PReg.new 0 .Vector], fun _ => PRegSet.empty, fun _ => none, []⟩, fun _ => 1, false⟩

theorem roomy_envOk : EnvOk roomy where
  class_ok := by
    have key : ∀ c : RegClass, ∀ q ∈ (roomy.regs c).toList, q.class? = some c := by
      intro c; cases c <;> decide +kernel
    intro c q hq
    exact key c q ((mem_toList _ _).mpr ((regs_iff roomy c q).mpr hq))
  real := fun _ _ _ h => by cases h
  scratch := fun _ _ h => by cases h
  invalid := fun h => by cases h
  size_pos := fun _ => Nat.zero_lt_one
  size_le := fun _ => (by decide : 1 ≤ 2 ^ 20)

theorem roomy_classes (c : RegClass) : ∃ q, AllocatableIn roomy.env c q := by
  cases c
  · exact ⟨p 0, .inl (by decide +kernel)⟩
  · exact ⟨PReg.new 0 .Float, .inl (by decide +kernel)⟩
  · exact ⟨PReg.new 0 .Vector, .inl (by decide +kernel)⟩

theorem roomy_roomy : Roomy roomy v := by
  have key : ∀ b ∈ List.range roomy.f.numBlocks, ∀ i ∈ roomy.f.blockInsts b, roomyB roomy six i = true := by decide +kernel
  refine ⟨fun _ => false, fun _ h => (by cases h), fun b hb i hi => ?_⟩
  exact roomy_of (c := .Int) (by decide +kernel) (by decide +kernel) (fun q hq => .inl ((by decide +kernel : ∀ q ∈ six, (roomy.env.preferred .Int).contains q = true) q hq))
    (key b (List.mem_range.mpr hb) i hi)

end Ex

/-- The hypotheses of C47 are met by a loop with fixed registers, a reused input, a late use and a
clobber. -/
example : ∃ out, run Ex.roomy = .ok out ∧ ∀ ks, SameOn Ex.roomy.f out ks :=
  C47_total_correct_partial Ex.roomy Ex.v Ex.roomy_envOk Ex.funcOk (fun i o n h => Ex.ops_no_limit i o n h) (by decide +kernel)
    (fun _ _ => Ex.roomy_classes _) (by unfold SlotsFit; decide +kernel) Ex.roomy_roomy

/-! ### Possible, but reported as impossible -/

/-- A decidable form of `Placeable`: the given locations do. Stack locations are spill slots. -/
def placeB (env : MachineEnv) (f : Func) (i : Nat) (as : List (PReg ⊕ Nat)) : Bool :=
  decide (as.length = (f.operands i).length) &&
  ((f.operands i).zip as).all (fun x => match x.1.constraint, x.2 with
    | .Any, _ => true
    | .Reg, .inl p => (match x.1.vreg.class? with | some c => (env.preferred c).contains p | none => false)
    | .FixedReg q, .inl p => decide (p = q)
    | _, _ => false) &&
  ((f.operands i).zip as).zipIdx.all (fun x => ((f.operands i).zip as).zipIdx.all (fun y =>
    decide (x.2 = y.2) || decide (x.1.1.kind = .Use ∧ y.1.1.kind = .Use ∧ x.1.1.vreg = y.1.1.vreg) || decide (x.1.2 ≠ y.1.2))) &&
  as.all (fun a => match a with | .inl _ => true | .inr n => decide (n < 2 ^ 24)) && (f.clobbers i).isEmpty

/-- The location. -/
def locOf : PReg ⊕ Nat → Allocation
  | .inl p => Allocation.reg p
  | .inr n => stk n

theorem locOf_inj {x y : PReg ⊕ Nat} (hx : ∀ n, x = .inr n → n < 2 ^ 24) (hy : ∀ n, y = .inr n → n < 2 ^ 24) (h : locOf x = locOf y) : x = y := by
  rcases x with p | n <;> rcases y with q | m
  · rw [reg_inj h]
  · exact absurd h (reg_ne_stk (Nat.lt_trans (hy m rfl) (by decide)))
  · exact absurd h.symm (reg_ne_stk (Nat.lt_trans (hx n rfl) (by decide)))
  · rw [stk_inj (Nat.lt_trans (hx n rfl) (by decide)) (Nat.lt_trans (hy m rfl) (by decide)) h]

theorem placeable_of {env : MachineEnv} {f : Func} {i : Nat} {as : List (PReg ⊕ Nat)} (h : placeB env f i as = true) : Placeable env f i := by
  unfold placeB at h
  simp only [Bool.and_eq_true, decide_eq_true_eq] at h
  obtain ⟨⟨⟨⟨h1, h2⟩, h3⟩, h4⟩, h5⟩ := h
  rw [List.all_eq_true] at h2 h3 h4
  have hz : ∀ {k : Nat} {o : Op} {a : PReg ⊕ Nat}, (f.operands i)[k]? = some o → as[k]? = some a → ((f.operands i).zip as)[k]? = some (o, a) := by
    intro k o a ho ha
    rw [List.getElem?_zip_eq_some]
    exact ⟨ho, ha⟩
  refine ⟨as.map locOf, by rw [List.length_map, h1], ?_, ?_, ?_⟩
  · intro k o a ho ha
    rw [List.getElem?_map, Option.map_eq_some_iff] at ha
    obtain ⟨x, hx, rfl⟩ := ha
    have := h2 (o, x) (List.mem_of_getElem? (hz ho hx))
    dsimp only at this
    unfold Satisfies
    cases hc : o.constraint <;> cases x <;> rw [hc] at this <;> dsimp only at this ⊢ <;> try cases this
    · rename_i p
      split at this
      · rename_i c hcl
        exact ⟨p, c, rfl, hcl, .inl this⟩
      · cases this
    · rw [of_decide_eq_true this]; rfl
  · intro k k' o o' ho ho' hne hcf e
    have hk := (List.getElem?_eq_some_iff.mp ho).1
    have hk' := (List.getElem?_eq_some_iff.mp ho').1
    have g1 : as[k]? = some (as[k]'(by omega)) := List.getElem?_eq_getElem _
    have g2 : as[k']? = some (as[k']'(by omega)) := List.getElem?_eq_getElem _
    rw [List.getElem?_map, List.getElem?_map, g1, g2] at e
    have e := Option.some.inj e
    have hlt : ∀ x ∈ as, ∀ n, x = Sum.inr n → n < 2 ^ 24 := by
      rintro x hx n rfl
      exact of_decide_eq_true (h4 _ hx)
    have e' := locOf_inj (hlt _ (List.getElem_mem _)) (hlt _ (List.getElem_mem _)) e
    have := h3 ((o, as[k]'(by omega)), k) (List.mem_zipIdx_iff_getElem?.mpr (hz ho g1))
    rw [List.all_eq_true] at this
    have := this ((o', as[k']'(by omega)), k') (List.mem_zipIdx_iff_getElem?.mpr (hz ho' g2))
    dsimp only at this
    rw [Bool.or_eq_true, Bool.or_eq_true, decide_eq_true_eq, decide_eq_true_eq, decide_eq_true_eq] at this
    rcases this with (h | h) | h
    · exact hne h
    · exact hcf.2 h
    · exact h e'
  · intro k o p ho _ _ hp
    rw [List.isEmpty_iff] at h5
    rw [h5] at hp
    cases hp

theorem tooMany_of {cx : Cx} (h : tooManyB cx = true) : run cx = .error .tooMany := by
  unfold tooManyB at h
  split at h
  · assumption
  · cases h

namespace Bug

/-- Two operands that may be anywhere precede two that must be in registers; there are three
registers. -/
def starved : Cx := single 3 fun
  | 0 => [⟨v 1, .Any, .Def, .Late⟩, ⟨v 2, .Any, .Def, .Late⟩]
  | 1 => [⟨v 3, .Any, .Def, .Late⟩, ⟨v 4, .Any, .Def, .Late⟩]
  | 2 => [⟨v 1, .Any, .Use, .Early⟩, ⟨v 2, .Any, .Use, .Early⟩, ⟨v 3, .Reg, .Use, .Early⟩, ⟨v 4, .Reg, .Use, .Early⟩]
  | _ => []

/-- One value, passed twice in one register. -/
def fixedTwice : Cx := single 2 fun
  | 0 => [⟨v 1, .Reg, .Def, .Late⟩]
  | 1 => [⟨v 1, .FixedReg (p 0), .Use, .Early⟩, ⟨v 1, .FixedReg (p 0), .Use, .Early⟩]
  | _ => []

end Bug

/-- C47 fails: allocation is possible at every instruction, but an operand that may be anywhere
takes a register that a later one must have, since the count of available registers is not
decremented when it is taken (`/repo/src/fastalloc/mod.rs:763-784`). -/
theorem C47_starved_violation : Accepted Bug.starved.f ∧ EnvOk Bug.starved ∧ Workable Bug.starved Bug.v ∧ SlotsFit Bug.starved ∧
    (∀ i, i < Bug.starved.f.numInsts → Placeable Bug.starved.env Bug.starved.f i) ∧ run Bug.starved = .error .tooMany := by
  refine ⟨accepted_of (by decide +kernel), single_envOk _ _, single_workable (by decide +kernel) (by decide +kernel) (by decide +kernel),
    by unfold SlotsFit; decide +kernel, ?_, tooMany_of (by decide +kernel)⟩
  intro i hi
  have hi : i < 3 := hi
  match i, hi with
  | 0, _ => exact placeable_of (as := [.inr 0, .inr 1]) (by decide +kernel)
  | 1, _ => exact placeable_of (as := [.inr 0, .inr 1]) (by decide +kernel)
  | 2, _ => exact placeable_of (as := [.inr 0, .inr 1, .inl (Bug.p 0), .inl (Bug.p 1)]) (by decide +kernel)

/-- C47 fails: an instruction reads one register twice, both times in the same fixed register. The
second reservation fails (`/repo/src/fastalloc/mod.rs:572-575`). -/
theorem C47_fixed_twice_violation : Accepted Bug.fixedTwice.f ∧ EnvOk Bug.fixedTwice ∧ Workable Bug.fixedTwice Bug.v ∧ SlotsFit Bug.fixedTwice ∧
    (∀ i, i < Bug.fixedTwice.f.numInsts → Placeable Bug.fixedTwice.env Bug.fixedTwice.f i) ∧ run Bug.fixedTwice = .error .tooMany := by
  refine ⟨accepted_of (by decide +kernel), single_envOk _ _, single_workable (by decide +kernel) (by decide +kernel) (by decide +kernel),
    by unfold SlotsFit; decide +kernel, ?_, tooMany_of (by decide +kernel)⟩
  intro i hi
  have hi : i < 2 := hi
  match i, hi with
  | 0, _ => exact placeable_of (as := [.inl (Bug.p 0)]) (by decide +kernel)
  | 1, _ => exact placeable_of (as := [.inl (Bug.p 0), .inl (Bug.p 0)]) (by decide +kernel)

end Fast
end Regalloc
