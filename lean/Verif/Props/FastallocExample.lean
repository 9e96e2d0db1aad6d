import Verif.Props.Fastalloc

/-
C28, C29: a concrete function meeting the hypotheses. A loop whose body permutes its
parameters, with fixed registers, a reused input, a late use, a clobber and values
living across the loop.
-/
namespace Regalloc
namespace Fast
open Exec

/-! ### Definedness on all paths, from a table of registers defined at block entry -/

def instsDefinedB (f : Func) : List Nat → List VReg → Bool
  | [], _ => true
  | i :: is, D => (opReads (f.operands i)).all (fun v => decide (v ∈ D)) && instsDefinedB f is (D ++ opWrites (f.operands i))

def writesIn (f : Func) (b : Nat) : List VReg := (f.blockInsts b).flatMap (fun i => opWrites (f.operands i))

def tableOk (f : Func) (T : Nat → List VReg) : Bool :=
  (List.range f.numBlocks).all fun b =>
    instsDefinedB f (f.blockInsts b) (T b) &&
    (f.succs b).zipIdx.all fun sk => decide (sk.1 < f.numBlocks) &&
      (edgeMoves f b sk.2 sk.1).all (fun m => decide (m.2 ∈ T b ++ writesIn f b)) &&
      (T sk.1).all (fun v => decide (v ∈ T b ++ writesIn f b ++ (edgeMoves f b sk.2 sk.1).map Prod.fst))

theorem instsDefined_of {f : Func} : ∀ {is : List Nat} {L : List VReg} {D : VReg → Prop}, instsDefinedB f is L = true →
    (∀ v ∈ L, D v) → InstsDefined f is D
  | [], _, _, _, _ => trivial
  | i :: is, L, D, h, hD => by
    unfold instsDefinedB at h
    rw [Bool.and_eq_true, List.all_eq_true] at h
    refine ⟨fun v hv => hD v (of_decide_eq_true (h.1 v hv)), instsDefined_of h.2 ?_⟩
    intro v hv
    rcases List.mem_append.mp hv with hv | hv
    · exact .inl (hD v hv)
    · exact .inr hv

theorem noUndefined_of {f : Func} {T : Nat → List VReg} (h : tableOk f T = true) : ∀ (ks : List Nat) (b : Nat) (D : VReg → Prop),
    b < f.numBlocks → (∀ v ∈ T b, D v) → NoUndefinedReads f ks b D := by
  unfold tableOk at h
  rw [List.all_eq_true] at h
  intro ks
  induction ks with
  | nil =>
    intro b D hb hD
    have := h b (List.mem_range.mpr hb)
    rw [Bool.and_eq_true] at this
    exact instsDefined_of this.1 hD
  | cons k ks ih =>
    intro b D hb hD
    have := h b (List.mem_range.mpr hb)
    rw [Bool.and_eq_true, List.all_eq_true] at this
    refine ⟨instsDefined_of this.1 hD, ?_⟩
    split
    · trivial
    · next s hs =>
      have h2 := this.2 (s, k) (List.mem_zipIdx_iff_getElem?.mpr hs)
      simp only [Bool.and_eq_true, List.all_eq_true, decide_eq_true_eq] at h2
      obtain ⟨⟨h2, h3⟩, h4⟩ := h2
      have hbd : ∀ v ∈ T b ++ writesIn f b, blockDefined f b D v := by
        intro v hv
        rcases List.mem_append.mp hv with hv | hv
        · exact .inl (hD v hv)
        · obtain ⟨i, hi, hv⟩ := List.mem_flatMap.mp hv
          exact .inr ⟨i, hi, hv⟩
      refine ⟨fun m hm => hbd _ (h3 m hm), ih s _ h2 ?_⟩
      intro v hv
      rcases List.mem_append.mp (h4 v hv) with hv | hv
      · exact .inl (hbd v hv)
      · exact .inr hv

/-! ### The operand requirements, executably -/

def defOkB (f : Func) (i : Nat) (o : Op) : Bool :=
  o.asFixedNonallocatable.isNone &&
  match o.constraint with
  | .Reg => true
  | .FixedReg p => decide (p ∉ f.clobbers i)
  | .Reuse j =>
    match (f.operands i)[j]? with
    | some oj => decide (oj.kind = .Use ∧ oj.pos = .Early ∧ oj.constraint = .Reg ∧ oj.vreg.class? = o.vreg.class? ∧ o.pos = .Late)
    | none => false
  | _ => false

def opOkB (f : Func) (C : Nat → VReg) (i : Nat) (o : Op) : Bool :=
  (o.asFixedNonallocatable.isSome || decide (o.vreg = C o.vreg.vreg ∧ o.vreg.vreg < f.numVregs ∧ o.vreg.class?.isSome = true)) &&
  (match o.kind with
   | .Def => defOkB f i o
   | .Use => match o.constraint with | .Reuse _ => false | _ => true) &&
  (match o.constraint with | .FixedReg p => o.asFixedNonallocatable.isSome || decide (p.class? = o.vreg.class?) | _ => true)

def reusesOf (f : Func) (i : Nat) : List Nat :=
  (f.operands i).filterMap (fun o => match o.constraint with | .Reuse j => some j | _ => none)

theorem operandsOk_of {f : Func} {C : Nat → VReg} {i : Nat} (h : (f.operands i).all (opOkB f C i) = true)
    (hr : (reusesOf f i).Nodup) : OperandsOk f C i := by
  rw [List.all_eq_true] at h
  have h' : ∀ o ∈ f.operands i, (o.asFixedNonallocatable = none → o.vreg = C o.vreg.vreg ∧ o.vreg.vreg < f.numVregs ∧
      o.vreg.class?.isSome = true) ∧ (o.kind = .Def → defOkB f i o = true) ∧ (o.kind = .Use → ∀ j, o.constraint ≠ .Reuse j) ∧
      ∀ p, o.asFixedNonallocatable = none → o.constraint = .FixedReg p → p.class? = o.vreg.class? := by
    intro o ho
    have := h o ho
    unfold opOkB at this
    simp only [Bool.and_eq_true, Bool.or_eq_true, decide_eq_true_eq] at this
    obtain ⟨⟨h1, h2⟩, h3⟩ := this
    refine ⟨fun hn => ?_, fun hd => ?_, fun hu j hj => ?_, fun p hn hp => ?_⟩
    · rw [hn] at h1; simpa using h1
    · rw [hd] at h2; exact h2
    · rw [hu, hj] at h2; simp at h2
    · rw [hp, hn] at h3; simpa using h3
  refine ⟨fun o ho hn => ⟨((h' o ho).1 hn).1, ((h' o ho).1 hn).2.1⟩, ?_, ?_, fun o ho => (h' o ho).2.2.1,
    fun o ho hn => Option.isSome_iff_exists.mp ((h' o ho).1 hn).2.2, fun o ho => (h' o ho).2.2.2⟩
  · intro o ho hd
    have := (h' o ho).2.1 hd
    unfold defOkB at this
    rw [Bool.and_eq_true, Option.isNone_iff_eq_none] at this
    refine ⟨this.1, ?_⟩
    have h2 := this.2
    cases hc : o.constraint with
    | Any => rw [hc] at h2; cases h2
    | Reg => exact .inl rfl
    | Stack => rw [hc] at h2; cases h2
    | FixedReg p => rw [hc] at h2; exact .inr (.inl ⟨p, rfl, of_decide_eq_true h2⟩)
    | Limit n => rw [hc] at h2; cases h2
    | Reuse j =>
      rw [hc] at h2
      dsimp only at h2
      split at h2
      · next oj hj =>
        have := of_decide_eq_true h2
        exact .inr (.inr ⟨j, oj, rfl, hj, this.1, this.2.1, this.2.2.1, this.2.2.2.1, this.2.2.2.2⟩)
      · cases h2
  · intro k k' o o' j hk hk' hj hj'
    unfold reusesOf at hr
    have key : ∀ (l : List Op) (k k' : Nat), k < k' → ∀ o o' : Op, o.constraint = .Reuse j → o'.constraint = .Reuse j →
        l[k]? = some o → l[k']? = some o' →
        (l.filterMap (fun o => match o.constraint with | .Reuse j => some j | _ => none)).Nodup → False := by
      intro l
      induction l with
      | nil => intro k k' _ o o' _ _ h; simp at h
      | cons x xs ih =>
        intro k k' hlt o o' hj hj' h1 h2 hnd
        cases k' with
        | zero => omega
        | succ m =>
          rw [List.getElem?_cons_succ] at h2
          cases k with
          | zero =>
            simp only [List.getElem?_cons_zero, Option.some.injEq] at h1
            subst h1
            rw [List.filterMap_cons] at hnd
            rw [hj] at hnd
            dsimp only at hnd
            rw [List.nodup_cons] at hnd
            exact hnd.1 (List.mem_filterMap.mpr ⟨o', List.mem_of_getElem? h2, by rw [hj']⟩)
          | succ n =>
            rw [List.getElem?_cons_succ] at h1
            refine ih n m (by omega) o o' hj hj' h1 h2 ?_
            rw [List.filterMap_cons] at hnd
            split at hnd
            · exact hnd
            · exact (List.nodup_cons.mp hnd).2
    rcases Nat.lt_trichotomy k k' with h1 | h1 | h1
    · exact (key _ k k' h1 o o' hj hj' hk hk' hr).elim
    · exact h1
    · exact (key _ k' k h1 o' o hj' hj hk' hk hr).elim

namespace Ex

def p (n : Nat) : PReg := PReg.new n .Int
def v (n : Nat) : VReg := VReg.new n .Int

def ops : Nat → List Op
  | 0 => [⟨v 1, .Reg, .Def, .Late⟩]
  | 1 => [⟨v 2, .FixedReg (p 2), .Def, .Late⟩]
  | 3 => [⟨v 5, .Reuse 1, .Def, .Late⟩, ⟨v 3, .Reg, .Use, .Early⟩]
  | 5 => [⟨v 3, .FixedReg (p 1), .Use, .Early⟩, ⟨v 6, .Reg, .Def, .Late⟩, ⟨v 1, .Any, .Use, .Late⟩, ⟨v 5, .Stack, .Use, .Early⟩]
  | 7 => [⟨v 3, .Reg, .Use, .Early⟩, ⟨v 5, .Reg, .Use, .Early⟩]
  | _ => []

/-- b0: `v1, v2 := …`, to b1(v1, v2); b1(v3, v4): `v5 := op v3`, to b2 or b3;
b2: `v6 := op v3 v1 v5` clobbering a register, to b1(v4, v3); b3: uses v3, v5. -/
def f : Func where
  numInsts := 8
  numBlocks := 4
  entry := 0
  insns := fun b => if b = 0 then (0, 3) else if b = 1 then (3, 5) else if b = 2 then (5, 7) else (7, 8)
  succs := fun b => if b = 0 then [1] else if b = 1 then [2, 3] else if b = 2 then [1] else []
  preds := fun b => if b = 1 then [0, 2] else if b = 2 then [1] else if b = 3 then [1] else []
  params := fun b => if b = 1 then [v 3, v 4] else []
  isRet := fun i => i == 7
  isBranch := fun i => i == 2 || i == 4 || i == 6
  args := fun b _ _ => if b = 0 then [v 1, v 2] else if b = 2 then [v 4, v 3] else []
  operands := ops
  clobbers := fun i => if i = 5 then [p 0] else []
  numVregs := 7

def cx : Cx := ⟨f, Bug.env, fun _ => 1, false⟩

theorem envOk : EnvOk cx where
  class_ok := by
    have key : ∀ c : RegClass, ∀ q ∈ (cx.regs c).toList, q.class? = some c := by
      intro c; cases c <;> decide +kernel
    intro c q hq
    exact key c q ((mem_toList _ _).mpr ((regs_iff cx c q).mpr hq))
  real := fun _ _ _ h => by cases h
  scratch := fun _ _ h => by cases h
  invalid := fun h => by cases h
  size_pos := fun _ => Nat.zero_lt_one
  size_le := fun _ => (by decide : 1 ≤ 2 ^ 20)

theorem funcOk : FuncOk f v where
  first := rfl
  next := by
    have : ∀ b, b < 3 → (f.insns (b + 1)).1 = (f.insns b).2 := by decide
    intro b hb
    have h2 : f.numBlocks = 4 := rfl
    exact this b (by omega)
  nonempty := by decide
  count := by
    intro b hb
    have h2 : f.numBlocks = 4 := rfl
    have : b = 3 := by omega
    subst this; rfl
  entry := by decide
  succs := by decide
  preds := by
    intro b s hs
    have h1 : ∀ s, s < 4 → ∀ b, b < 4 → (b ∈ f.preds s ↔ b < f.numBlocks ∧ s ∈ f.succs b) := by decide
    have h2 : ∀ s, s < 4 → ∀ b ∈ f.preds s, b < 4 := by decide
    by_cases hb : b < 4
    · exact h1 s hs b hb
    · constructor
      · intro h; exact (hb (h2 s hs b h)).elim
      · intro h; exact (hb h.1).elim
  succs_nodup := by decide
  entry_params := rfl
  no_critical := by
    have : ∀ b, b < f.numBlocks → ∀ b', b' < f.numBlocks → ∀ s ∈ f.succs b, s ∈ f.succs b' → 1 < (f.succs b).length → b' = b := by
      decide
    exact fun b b' s hb hb' => this b hb b' hb' s
  branch_last := by decide
  succs_branch := by decide
  branch_join := by
    have : ∀ b, b < f.numBlocks → ∀ b', b' < f.numBlocks → ∀ s ∈ f.succs b, s ∈ f.succs b' → b' ≠ b →
      f.operands (f.lastInst b) = [] := by decide
    exact fun b b' s hb hb' => this b hb b' hb' s
  branch_uses := by decide
  vregs := by decide
  operands := by
    have : ∀ i, i < f.numInsts → (f.operands i).all (opOkB f v i) = true ∧ (reusesOf f i).Nodup := by decide +kernel
    exact fun i hi => operandsOk_of (this i hi).1 (this i hi).2
  params := by decide +kernel
  args := by
    have : ∀ b, b < f.numBlocks → ∀ x ∈ (f.succs b).zipIdx, (f.args b (f.lastInst b) x.2).length = (f.params x.1).length ∧
      (∀ a ∈ f.args b (f.lastInst b) x.2, a = v a.vreg ∧ a.vreg < f.numVregs) ∧
      ∀ m ∈ (f.params x.1).zip (f.args b (f.lastInst b) x.2), m.1.class? = m.2.class? := by decide +kernel
    exact fun b hb k s hs => this b hb (s, k) (List.mem_zipIdx_iff_getElem?.mpr hs)
  single := by decide +kernel
  defined := fun ks => noUndefined_of (T := fun b => if b = 0 then [] else if b = 1 then [v 1, v 2, v 3, v 4] else
    [v 1, v 2, v 3, v 4, v 5]) (by decide +kernel) ks 0 _ (by decide) (by intro x hx; simp at hx)
  use_after_def := by
    have : ∀ i, i < f.numInsts → ∀ i', i' < f.numInsts → ∀ v ∈ opWrites (f.operands i), ∀ w ∈ opReads (f.operands i'),
      v.vreg = w.vreg → i < i' := by decide +kernel
    exact fun i i' hi hi' => this i hi i' hi'
  arg_after_def := by
    have : ∀ i, i < f.numInsts → ∀ b, b < f.numBlocks → ∀ x ∈ (f.succs b).zipIdx,
      ∀ v ∈ opWrites (f.operands i), ∀ w ∈ f.args b (f.lastInst b) x.2, v.vreg = w.vreg → i < f.lastInst b := by decide +kernel
    exact fun i b k s hi hb hs => this i hi b hb (s, k) (List.mem_zipIdx_iff_getElem?.mpr hs)
  use_after_param := by
    have : ∀ b, b < f.numBlocks → ∀ i, i < f.numInsts → ∀ v ∈ f.params b, ∀ w ∈ opReads (f.operands i),
      v.vreg = w.vreg → (f.insns b).1 ≤ i := by decide +kernel
    exact fun b i hb hi => this b hb i hi
  arg_after_param := by
    have : ∀ b, b < f.numBlocks → ∀ b', b' < f.numBlocks → ∀ x ∈ (f.succs b').zipIdx,
      ∀ v ∈ f.params b, ∀ w ∈ f.args b' (f.lastInst b') x.2, v.vreg = w.vreg → b ≤ b' := by decide +kernel
    exact fun b b' k s hb hb' hs => this b hb b' hb' (s, k) (List.mem_zipIdx_iff_getElem?.mpr hs)

/-- The allocator succeeds on the example. -/
theorem succeeds : ∃ out, run cx = .ok out ∧ out.edits ≠ [] ∧ 0 < out.numSpillslots := by
  have h : (match run cx with | .ok out => decide (out.edits ≠ [] ∧ 0 < out.numSpillslots) | .error _ => false) = true := by
    decide +kernel
  split at h
  · next out e => exact ⟨out, e, of_decide_eq_true h⟩
  · cases h

end Ex

/-- The hypotheses of C28 and C29 are met, and the conclusion of C28 follows on
every path. -/
example : ∃ out, run Ex.cx = .ok out ∧ ∀ ks, SameOn Ex.cx.f out ks := by
  obtain ⟨out, h, _⟩ := Ex.succeeds
  exact ⟨out, h, C28_fastalloc_preserves_partial Ex.cx Ex.v Ex.envOk Ex.funcOk out h⟩

/-- A path around the loop, executed. -/
example : wrongOn Ex.cx [0, 0, 0, 0, 0, 1] = false := by decide +kernel

/-- Conflicting operands occur in it: instruction 5 has an early and a late use of
different registers. -/
example : ∃ o o', (Ex.cx.f.operands 5)[0]? = some o ∧ (Ex.cx.f.operands 5)[2]? = some o' ∧ Conflict o o' := by
  refine ⟨_, _, rfl, rfl, ?_⟩
  unfold Conflict HeldBefore HeldAfter
  decide +kernel

end Fast
end Regalloc
