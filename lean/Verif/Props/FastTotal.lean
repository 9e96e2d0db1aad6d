import Verif.Proofs.FastSafeRun
import Verif.Props.FastallocExample

/-
C46: the single-pass allocator does not panic.
-/
namespace Regalloc
namespace Fast
open Exec

/-- C46. On every workable function whose spill slots can be numbered, the single-pass allocator
returns an allocation or the error `TooManyLiveRegs`; it does not panic. -/
theorem C46_no_panic (cx : Cx) (C : Nat → VReg) (he : EnvOk cx) (hf : Workable cx C) (hs : SlotsFit cx) :
    (∃ out, run cx = .ok out) ∨ run cx = .error .tooMany := by
  have h := run_safe he hf hs
  cases e : run cx with
  | ok out => exact .inl ⟨out, rfl⟩
  | error x =>
    cases x with
    | tooMany => exact .inr rfl
    | panic => exact absurd e h

/-- A function as C28 asks, whose uses have no `Limit` constraint, whose parameters are numbered
like other registers, and whose register classes have registers, is workable. -/
theorem workable_of_funcOk {cx : Cx} {C : Nat → VReg} (hf : FuncOk cx.f C) (hl : ∀ i o n, o ∈ cx.f.operands i → o.constraint ≠ .Limit n)
    (hp : ∀ b, b < cx.f.numBlocks → ∀ p ∈ cx.f.params b, p.vreg < cx.f.numVregs)
    (hc : ∀ v, v < cx.f.numVregs → ∃ p, AllocatableIn cx.env (vcls (C v)) p) : Workable cx C where
  layout := fun b b' hb hb' => insns_mono hf hb hb'
  succs := hf.succs
  succs_nodup := hf.succs_nodup
  preds := fun b hb p hpp => (hf.preds p b hb).mp hpp
  lengths := fun b hb k s hs => (hf.args b hb k s hs).1
  branch_last := hf.branch_last
  branch_uses := fun b hb h => hf.branch_uses b hb (h.elim (hf.succs_branch b hb) id)
  vregs := hf.vregs
  operands := by
    intro b hb i hi
    have hO := hf.operands i (inst_lt hf hb hi)
    refine ⟨hO.regs, fun o ho n => hl i o n ho, hO.uses, fun o ho hk => (hO.defs o ho hk).1, ?_⟩
    intro o ho j hj
    have hk : o.kind = .Def := by
      cases hk : o.kind with
      | Def => rfl
      | Use => exact absurd hj (hO.uses o ho hk j)
    rcases (hO.defs o ho hk).2 with h | ⟨p, h, _⟩ | ⟨j', oj, h, h1, h2, h3, h4, _, h5⟩
    · rw [hj] at h; cases h
    · rw [hj] at h; cases h
    · rw [hj] at h
      cases h
      exact ⟨h5, oj, h1, h2, h3, .inl h4⟩
  params := fun b hb p hpp => ⟨hf.params b hb p hpp, hp b hb p hpp⟩
  args := fun b hb k s hs => (hf.args b hb k s hs).2.1
  classes := hc
  single := hf.single
  use_after_def := fun b b' i i' hb hb' hi hi' => hf.use_after_def i i' (inst_lt hf hb hi) (inst_lt hf hb' hi')
  use_after_param := by
    intro b b' i hb hb' hi v hv w hw e
    have h1 := hf.use_after_param b i hb (inst_lt hf hb' hi) v hv w hw e
    have h2 := mem_blockInsts.mp hi
    by_cases hlt : b ≤ b'
    · exact hlt
    · have := insns_mono hf (show b' < b by omega) hb
      omega

/-- C46, with C28: on a function as C28 asks (and as in `workable_of_funcOk`), the single-pass
allocator returns a program that behaves like the function, or reports too many live registers. -/
theorem C46_correct_or_error (cx : Cx) (C : Nat → VReg) (he : EnvOk cx) (hf : FuncOk cx.f C)
    (hl : ∀ i o n, o ∈ cx.f.operands i → o.constraint ≠ .Limit n)
    (hp : ∀ b, b < cx.f.numBlocks → ∀ p ∈ cx.f.params b, p.vreg < cx.f.numVregs)
    (hc : ∀ v, v < cx.f.numVregs → ∃ p, AllocatableIn cx.env (vcls (C v)) p) (hs : SlotsFit cx) :
    (∃ out, run cx = .ok out ∧ ∀ ks, SameOn cx.f out ks) ∨ run cx = .error .tooMany := by
  rcases C46_no_panic cx C he (workable_of_funcOk hf hl hp hc) hs with ⟨out, h⟩ | h
  · exact .inl ⟨out, h, C28_fastalloc_preserves_partial cx C he hf out h⟩
  · exact .inr h

/-! ### Concrete cases -/

namespace Ex

theorem env_classes (c : RegClass) : ∃ p, AllocatableIn Bug.env c p := by
  cases c
  · exact ⟨p 0, .inl (by decide +kernel)⟩
  · exact ⟨PReg.new 0 .Float, .inl (by decide +kernel)⟩
  · exact ⟨PReg.new 0 .Vector, .inl (by decide +kernel)⟩

theorem ops_no_limit (i : Nat) (o : Op) (n : Nat) (h : o ∈ ops i) : o.constraint ≠ .Limit n := by
  unfold ops at h
  split at h <;> simp at h <;> rcases h with rfl | rfl | rfl | rfl <;> simp

/-- The loop of `FastallocExample` meets the hypotheses. -/
theorem workable : Workable cx v :=
  workable_of_funcOk funcOk (fun i o n h => ops_no_limit i o n h) (by decide +kernel) (fun _ _ => env_classes _)

theorem slotsFit : SlotsFit cx := by unfold SlotsFit; decide +kernel

end Ex

example : (∃ out, run Ex.cx = .ok out ∧ ∀ ks, SameOn Ex.cx.f out ks) ∨ run Ex.cx = .error .tooMany :=
  C46_correct_or_error Ex.cx Ex.v Ex.envOk Ex.funcOk (fun i o n h => Ex.ops_no_limit i o n h) (by decide +kernel)
    (fun _ _ => Ex.env_classes _) Ex.slotsFit

/-- Definitions on the stack and anywhere, two results reusing inputs, one of them fixed. -/
def Ex.wide : Cx := Bug.single 4 fun
  | 0 => [⟨Bug.v 1, .Any, .Def, .Late⟩, ⟨Bug.v 2, .Stack, .Def, .Early⟩]
  | 1 => [⟨Bug.v 3, .Reuse 1, .Def, .Late⟩, ⟨Bug.v 1, .FixedReg (Bug.p 0), .Use, .Early⟩]
  | 2 => [⟨Bug.v 4, .Reuse 1, .Def, .Late⟩, ⟨Bug.v 3, .Reg, .Use, .Early⟩, ⟨Bug.v 1, .Reg, .Use, .Late⟩]
  | 3 => [⟨Bug.v 2, .Reg, .Use, .Early⟩, ⟨Bug.v 4, .Stack, .Use, .Late⟩]
  | _ => []

/-- Four operands that must be in registers at once, with three registers. -/
def Ex.tight : Cx := Bug.single 2 fun
  | 0 => [⟨Bug.v 1, .Reg, .Def, .Late⟩, ⟨Bug.v 2, .Reg, .Def, .Late⟩, ⟨Bug.v 3, .Reg, .Def, .Late⟩]
  | 1 => [⟨Bug.v 1, .Reg, .Use, .Early⟩, ⟨Bug.v 2, .Reg, .Use, .Early⟩, ⟨Bug.v 3, .Reg, .Use, .Early⟩, ⟨Bug.v 4, .Reg, .Def, .Early⟩]
  | _ => []

/-- A decidable form of the conditions on operands. -/
def workOpB (f : Func) (C : Nat → VReg) (i : Nat) (o : Op) : Bool :=
  (o.asFixedNonallocatable.isSome || decide (o.vreg = C o.vreg.vreg ∧ o.vreg.vreg < f.numVregs)) &&
  (match o.constraint with | .Limit _ => false | _ => true) &&
  (match o.kind with | .Def => o.asFixedNonallocatable.isNone | .Use => match o.constraint with | .Reuse _ => false | _ => true) &&
  (match o.constraint with
   | .Reuse j => decide (o.pos = .Late) && (match (f.operands i)[j]? with
      | some oj => decide (oj.kind = .Use) && decide (oj.pos = .Early) && (match oj.constraint with | .Reg => true | .FixedReg _ => true | _ => false)
      | none => false)
   | _ => true)

theorem workOps_of {cx : Cx} {C : Nat → VReg} {i : Nat} (h : (cx.f.operands i).all (workOpB cx.f C i) = true) : WorkableOps cx C i := by
  rw [List.all_eq_true] at h
  have h' : ∀ o ∈ cx.f.operands i, (o.asFixedNonallocatable = none → o.vreg = C o.vreg.vreg ∧ o.vreg.vreg < cx.f.numVregs) ∧
      (∀ n, o.constraint ≠ .Limit n) ∧ (o.kind = .Use → ∀ j, o.constraint ≠ .Reuse j) ∧ (o.kind = .Def → o.asFixedNonallocatable = none) ∧
      ∀ j, o.constraint = .Reuse j → o.pos = .Late ∧
        ∃ oj, (cx.f.operands i)[j]? = some oj ∧ oj.kind = .Use ∧ oj.pos = .Early ∧ (oj.constraint = .Reg ∨ ∃ p, oj.constraint = .FixedReg p) := by
    intro o ho
    have := h o ho
    unfold workOpB at this
    simp only [Bool.and_eq_true, Bool.or_eq_true, decide_eq_true_eq] at this
    obtain ⟨⟨⟨h1, h2⟩, h3⟩, h4⟩ := this
    refine ⟨fun hn => ?_, fun n hn => ?_, fun hu j hj => ?_, fun hd => ?_, fun j hj => ?_⟩
    · rw [hn] at h1; simpa using h1
    · rw [hn] at h2; cases h2
    · rw [hu, hj] at h3; cases h3
    · rw [hd] at h3; simpa using h3
    · rw [hj] at h4
      simp only [Bool.and_eq_true, decide_eq_true_eq] at h4
      refine ⟨h4.1, ?_⟩
      have h5 := h4.2
      split at h5
      · rename_i oj e
        simp only [Bool.and_eq_true, decide_eq_true_eq] at h5
        refine ⟨oj, e, h5.1.1, h5.1.2, ?_⟩
        have h6 := h5.2
        cases hc : oj.constraint with
        | Reg => exact .inl rfl
        | FixedReg p => exact .inr ⟨p, rfl⟩
        | Any => rw [hc] at h6; cases h6
        | Stack => rw [hc] at h6; cases h6
        | Reuse _ => rw [hc] at h6; cases h6
        | Limit _ => rw [hc] at h6; cases h6
      · cases h5
  exact ⟨fun o ho => (h' o ho).1, fun o ho => (h' o ho).2.1, fun o ho => (h' o ho).2.2.1, fun o ho => (h' o ho).2.2.2.1,
    fun o ho => (h' o ho).2.2.2.2⟩

theorem single_workable {n : Nat} {ops : Nat → List Op} (h1 : ∀ i ∈ List.range n, (ops i).all (workOpB (Bug.single n ops).f Bug.v i) = true)
    (h2 : ((allWrites (Bug.single n ops).f).map VReg.vreg).Nodup)
    (h3 : ∀ i ∈ List.range n, ∀ i' ∈ List.range n, ∀ v ∈ opWrites (ops i), ∀ w ∈ opReads (ops i'), v.vreg = w.vreg → i < i') :
    Workable (Bug.single n ops) Bug.v where
  layout := fun b b' hb hb' => by
    have : (Bug.single n ops).f.numBlocks = 1 := rfl
    omega
  succs := fun b _ s hs => by cases hs
  succs_nodup := fun b _ => List.nodup_nil
  preds := fun b _ s hs => by cases hs
  lengths := fun b _ k s hs => by simp [Bug.single] at hs
  branch_last := fun b _ i _ h => by cases h
  branch_uses := fun b _ h => by
    rcases h with h | h
    · exact absurd rfl h
    · cases h
  vregs := (by decide : 5 ≤ VReg.MAX)
  operands := fun b _ i hi => workOps_of (h1 i (List.mem_range.mpr (mem_blockInsts.mp hi).2))
  params := fun b _ p hp => by cases hp
  args := fun b _ k s hs => by simp [Bug.single] at hs
  classes := fun v _ => Ex.env_classes _
  single := h2
  use_after_def := fun b b' i i' _ _ hi hi' v hv w hw e => h3 i (List.mem_range.mpr (mem_blockInsts.mp hi).2) i'
    (List.mem_range.mpr (mem_blockInsts.mp hi').2) v hv w hw e
  use_after_param := fun b b' i _ _ _ v hv => by cases hv

theorem single_envOk (n : Nat) (ops : Nat → List Op) : EnvOk (Bug.single n ops) where
  class_ok := Ex.envOk.class_ok
  real := fun _ _ _ h => by cases h
  scratch := fun _ _ h => by cases h
  invalid := fun h => by cases h
  size_pos := fun _ => Nat.zero_lt_one
  size_le := fun _ => (by decide : 1 ≤ 2 ^ 20)

def okB (cx : Cx) : Bool := match run cx with | .ok _ => true | .error _ => false
def tooManyB (cx : Cx) : Bool := match run cx with | .error .tooMany => true | _ => false
def panicB (cx : Cx) : Bool := match run cx with | .error .panic => true | _ => false

theorem panic_of {cx : Cx} (h : panicB cx = true) : run cx = .error .panic := by
  unfold panicB at h
  split at h
  · assumption
  · cases h

/-- Both outcomes occur on workable functions. -/
example : Workable Ex.wide Bug.v ∧ EnvOk Ex.wide ∧ SlotsFit Ex.wide ∧ okB Ex.wide = true :=
  ⟨single_workable (by decide +kernel) (by decide +kernel) (by decide +kernel), single_envOk _ _, by unfold SlotsFit; decide +kernel, by decide +kernel⟩

example : Workable Ex.tight Bug.v ∧ EnvOk Ex.tight ∧ SlotsFit Ex.tight ∧ tooManyB Ex.tight = true :=
  ⟨single_workable (by decide +kernel) (by decide +kernel) (by decide +kernel), single_envOk _ _, by unfold SlotsFit; decide +kernel, by decide +kernel⟩

/-! ### What is not workable -/

namespace Bug

/-- A use with a `Limit` constraint. -/
def limit : Cx := single 2 fun
  | 0 => [⟨v 1, .Reg, .Def, .Late⟩]
  | 1 => [⟨v 1, .Limit 2, .Use, .Early⟩]
  | _ => []

/-- A result reusing an input that is asked to be on the stack. -/
def reuseStack : Cx := single 3 fun
  | 0 => [⟨v 1, .Reg, .Def, .Late⟩]
  | 1 => [⟨v 2, .Reuse 1, .Def, .Late⟩, ⟨v 1, .Stack, .Use, .Early⟩]
  | 2 => [⟨v 2, .Reg, .Use, .Early⟩]
  | _ => []

/-- A result reusing an input that is read late. -/
def reuseLate : Cx := single 3 fun
  | 0 => [⟨v 1, .Reg, .Def, .Late⟩]
  | 1 => [⟨v 1, .Reg, .Use, .Late⟩, ⟨v 2, .Reuse 0, .Def, .Late⟩]
  | 2 => [⟨v 2, .Reg, .Use, .Early⟩]
  | _ => []

/-- A class with no register but a fixed stack slot. -/
def noRegs : Cx :=
  ⟨⟨2, 1, 0, fun _ => (0, 2), fun _ => [], fun _ => [], fun _ => [], fun i => i == 1, fun _ => false,
    fun _ _ _ => [], fun | 0 => [⟨VReg.new 1 .Float, .Reg, .Def, .Late⟩] | 1 => [⟨VReg.new 1 .Float, .Reg, .Use, .Early⟩] | _ => [],
    fun _ => [], 3⟩,
   ⟨fun c => match c with | .Int => PRegSet.ofList [p 0, p 1, p 2] | _ => PRegSet.empty, fun _ => PRegSet.empty, fun _ => none,
    [PReg.new 40 .Float]⟩, fun _ => 1, false⟩

end Bug

/-- C46 fails: a `Limit` constraint is not supported (`/repo/src/fastalloc/mod.rs:671,804`). -/
theorem C46_limit_violation : Accepted Bug.limit.f ∧ run Bug.limit = .error .panic :=
  ⟨accepted_of (by decide +kernel), panic_of (by decide +kernel)⟩

/-- C46 fails: the result of an instruction reuses an input that is asked to be on the stack; the
allocator reaches the `unreachable!` at `/repo/src/fastalloc/mod.rs:1132`. -/
theorem C46_reuse_stack_violation : Accepted Bug.reuseStack.f ∧ run Bug.reuseStack = .error .panic :=
  ⟨accepted_of (by decide +kernel), panic_of (by decide +kernel)⟩

/-- C46 fails: the result of an instruction reuses an input that is read late. The input is
allocated before the result, whose location it needs. -/
theorem C46_reuse_late_violation : Accepted Bug.reuseLate.f ∧ run Bug.reuseLate = .error .panic :=
  ⟨accepted_of (by decide +kernel), panic_of (by decide +kernel)⟩

/-- C46 fails: a register of a class that has fixed stack slots but no registers. The list of least
recently used registers is empty, and asked for its last element
(`/repo/src/fastalloc/lru.rs:116`). -/
theorem C46_no_registers_violation : Accepted Bug.noRegs.f ∧ run Bug.noRegs = .error .panic :=
  ⟨accepted_of (by decide +kernel), panic_of (by decide +kernel)⟩

end Fast
end Regalloc
