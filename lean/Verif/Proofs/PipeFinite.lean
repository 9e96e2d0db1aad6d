import Verif.Spec.Pipeline
import Verif.Proofs.ApplyFinite

/-
Checks of `ProgramOk` and `RegsOk` for functions given by finite tables. Used for concrete
examples only.
-/
namespace Regalloc.Pipeline

open Apply

/-- The place is admitted, as a check. -/
def admitsB (env : MachineEnv) (c : OperandConstraint) (x : Place) : Bool :=
  match c, x with
  | .Any, _ => true
  | .Reg, .reg _ => true
  | .Stack, .reg _ => false
  | .Stack, _ => true
  | .FixedReg p, x => decide (x = Place.ofPReg env p)
  | .Reuse _, .reg _ => true
  | .Limit n, .reg p => decide (p.hwEnc < n)
  | _, _ => false

theorem admits_of {env : MachineEnv} {c : OperandConstraint} {x : Place} (h : admitsB env c x = true) : c.Admits env x := by
  cases c <;> cases x <;> simp_all [admitsB, OperandConstraint.Admits]

/-- Two operands of one instruction with the same register: a fixed register within the limit. -/
def limitB (env : MachineEnv) (o o' : Op) : Bool :=
  match o.constraint, o'.constraint with
  | .FixedReg p, .Limit n => decide (p ∈ env.fixedStackSlots) || decide (p.hwEnc < n)
  | _, _ => true

/-- Blocks within `n` steps of the entry. -/
def reached (d : Data) : Nat → List Nat
  | 0 => [0]
  | n + 1 => (reached d n ++ (reached d n).flatMap (fun b => (d.block b).succs)).eraseDups

/-- The checks for `ProgramOk` beyond `FuncOk`. -/
structure ProgB (d : Data) (env : MachineEnv) (place : Nat → Place) : Prop where
  reach : ∀ b, b < d.blocks.length → b ∈ reached d d.blocks.length
  tiled : ∀ j, j < d.insts.length → d.insideB j = true
  vregs : d.vregs.length ≤ VReg.MAX
  args : ∀ b ∈ d.blocks, ∀ l ∈ b.args, ∀ a ∈ l, a.vreg < d.vregs.length
  classes : ∀ v, v < d.vregs.length → (d.vr v).1.class? ≠ none
  one_def : ∀ q ∈ d.allOps, ∀ q' ∈ d.allOps, q.2.2.kind = .Def → q'.2.2.kind = .Def → q.2.2.vreg.vreg = q'.2.2.vreg.vreg →
    q.1 = q'.1 ∧ q.2.1 = q'.2.1
  layout : ∀ a, a < d.blocks.length → ∀ b, b < d.blocks.length → (d.block a).insns.2 = (d.block b).insns.1 →
    ∀ q ∈ d.defs, q.2 ≠ entryPt d.func b
  late : ∀ q ∈ d.allOps, Build.recordPoint d.func q.1 q.2.2 = ptAfter q.1 → admitsB env q.2.2.constraint (place q.2.2.vreg.vreg) = true
  limits : ∀ q ∈ d.allOps, ∀ q' ∈ d.allOps, q.1 = q'.1 → q.2.2.vreg.vreg = q'.2.2.vreg.vreg → limitB env q.2.2 q'.2.2 = true

theorem programOk_of {i : Input} {d : Data} {place : Nat → Place} (hf : i.f = d.func) (hv : i.vreg = fun v => (d.vr v).1)
    (B : FuncB d) (B' : FuncB' d) (P : ProgB d i.env place) : ProgramOk i := by
  obtain ⟨f, vreg, multi, env, size, byLast, ord, tie, total, fuel⟩ := i
  subst hf hv
  have F := funcOk_of B B'
  have hb : ∀ {b : Nat}, b < d.blocks.length → d.block b ∈ d.blocks := fun h => d.block_mem h
  constructor
  · exact { ready := F.ready, edges := F.edges, entry := F.entry, small := F.small, insts := F.insts,
            succs_nodup := F.succs_nodup, entry_params := F.entry_params, params_once := F.params_once,
            critical := F.critical, join_ops := F.join_ops, index := F.index, named := F.named,
            named_params := F.named_params, named_args := F.named_args, args_class := F.args_class, reuse := F.reuse,
            join_clobbers := F.join_clobbers, reuse_one := F.reuse_one }
  · have key : ∀ n b, b ∈ reached d n → Reaches d.func.succs d.func.entry b := by
      intro n
      induction n with
      | zero => intro b h; rw [List.mem_singleton.mp h]; exact Reaches.refl _ _
      | succ n ih =>
        intro b h
        unfold reached at h
        rw [List.mem_eraseDups, List.mem_append] at h
        rcases h with h | h
        · exact ih b h
        · obtain ⟨c, h1, h2⟩ := List.mem_flatMap.mp h
          exact (ih c h1).step h2
    exact fun b h => key _ b (P.reach b h)
  · intro j hj
    exact (d.inside_iff j).mp (P.tiled j hj)
  · exact P.vregs
  · intro b k h hk a ha
    have ha : a ∈ (d.block b).args.getD k [] := ha
    rw [List.getD_eq_getElem?_getD] at ha
    cases hg : (d.block b).args[k]? with
    | none => rw [hg] at ha; cases ha
    | some l =>
      rw [hg] at ha
      exact P.args _ (hb h) l (List.mem_of_getElem? hg) a ha
  · exact P.classes
  · intro j j' k k' o o' h1 h2 h3 h4 h5
    exact P.one_def _ ((d.opAt_iff B.insts _ _ _).mp h1) _ ((d.opAt_iff B.insts _ _ _).mp h2) h3 h4 h5
  · intro b v hvp p hd
    obtain ⟨x, h1, h2⟩ := List.mem_map.mp hvp
    have hlt : b < d.blocks.length := by
      rcases Nat.lt_or_ge b d.blocks.length with h | h
      · exact h
      · have h1 : x ∈ (d.block b).params := h1
        rw [d.block_ge h] at h1; cases h1
    exact B.params_def _ (hb hlt) x h1 _ ((d.defAt_iff B.insts _ _).mp hd) h2.symm
  · intro a b v h1 h2 h3 h4 _
    exact P.layout a h1 b h2 h3 _ ((d.defAt_iff B.insts _ _).mp h4) rfl
  · intro j v
    refine ⟨place v, ?_⟩
    intro k o ho hov hr
    subst hov
    exact admits_of (P.late _ ((d.opAt_iff B.insts _ _ _).mp ho) hr)
  · intro j k k' o o' p n h1 h2 h3 h4 h5 h6
    have := P.limits _ ((d.opAt_iff B.insts _ _ _).mp h1) _ ((d.opAt_iff B.insts _ _ _).mp h2) rfl h3
    unfold limitB at this
    dsimp only at this
    rw [h4, h6] at this
    simp only [Bool.or_eq_true, decide_eq_true_eq] at this
    rcases this with h | h
    · exact absurd h h5
    · exact h

/-- The register may be allocated, as a check. -/
def allocatableB (env : MachineEnv) (p : PReg) : Bool :=
  ResolveMoves.classes.any (fun c => (env.preferred c).contains p || (env.nonPreferred c).contains p)

theorem allocatable_iff {env : MachineEnv} {p : PReg} : allocatableB env p = true ↔ Allocatable env p := by
  unfold allocatableB Allocatable
  rw [List.any_eq_true]
  constructor
  · rintro ⟨c, -, h⟩
    exact ⟨c, by simpa using h⟩
  · rintro ⟨c, h⟩
    exact ⟨c, by cases c <;> simp [ResolveMoves.classes], by simpa using h⟩

/-- The register a constraint names. -/
def fixedIdx (o : Op) : List PReg :=
  match o.constraint with
  | .FixedReg p => [p]
  | _ => []

/-- The checks for `RegsOk`. -/
structure RegsB (d : Data) (i : Input) : Prop where
  disjoint : ∀ c ∈ ResolveMoves.classes, ∀ n : Fin 256, ¬ ((i.env.preferred c).contains ⟨UInt8.ofNat n.val⟩ = true ∧
    (i.env.nonPreferred c).contains ⟨UInt8.ofNat n.val⟩ = true)
  alloc_ok : ∀ c ∈ ResolveMoves.classes, ∀ n : Fin 256, (i.env.preferred c).contains ⟨UInt8.ofNat n.val⟩ = true ∨
    (i.env.nonPreferred c).contains ⟨UInt8.ofNat n.val⟩ = true →
    (⟨UInt8.ofNat n.val⟩ : PReg).class? = some c ∧ (⟨UInt8.ofNat n.val⟩ : PReg) ∉ i.env.fixedStackSlots
  scratch_ok : ∀ c ∈ ResolveMoves.classes, ∀ n : Fin 256, i.env.scratch c = some ⟨UInt8.ofNat n.val⟩ →
    (⟨UInt8.ofNat n.val⟩ : PReg).class? = some c ∧ (⟨UInt8.ofNat n.val⟩ : PReg) ∉ i.env.fixedStackSlots ∧
      allocatableB i.env ⟨UInt8.ofNat n.val⟩ = false
  invalid : PReg.invalid ∉ i.env.fixedStackSlots
  size_ok : ∀ c ∈ ResolveMoves.classes, Spill.isPowerOfTwo (i.size c) = true
  fixed_ok : ∀ q ∈ d.allOps, ∀ p ∈ fixedIdx q.2.2, p.class? = q.2.2.vreg.class? ∧ ∀ c ∈ ResolveMoves.classes, i.env.scratch c ≠ some p
  nonalloc : ∀ j, j < d.insts.length → ∀ o ∈ (d.inst j).ops, ∀ p ∈ fixedIdx o, o.asFixedNonallocatable = some p →
    allocatableB i.env p = false ∧ ∀ q ∈ d.allOps, p ∉ fixedIdx q.2.2

theorem mem_classes (c : RegClass) : c ∈ ResolveMoves.classes := by cases c <;> simp [ResolveMoves.classes]

theorem regsOk_of {i : Input} {d : Data} (hf : i.f = d.func) (B : FuncB d) (R : RegsB d i) : RegsOk i := by
  obtain ⟨f, vreg, multi, env, size, byLast, ord, tie, total, fuel⟩ := i
  subst hf
  have hfx : ∀ {o : Op} {p : PReg}, o.constraint = .FixedReg p → p ∈ fixedIdx o := by
    intro o p h
    unfold fixedIdx
    rw [h]
    simp
  constructor
  · intro c
    exact forall_preg (R.disjoint c (mem_classes c))
  · intro c
    exact forall_preg (R.alloc_ok c (mem_classes c))
  · intro c p h
    have := forall_preg (P := fun p => env.scratch c = some p → p.class? = some c ∧ p ∉ env.fixedStackSlots ∧ allocatableB env p = false)
      (R.scratch_ok c (mem_classes c)) p h
    refine ⟨this.1, this.2.1, fun ha => ?_⟩
    rw [allocatable_iff.mpr ha] at this
    exact absurd this.2.2 (by simp)
  · exact R.invalid
  · intro c
    obtain ⟨k, -, hk⟩ := Spill.isPowerOfTwo_iff.mp (R.size_ok c (mem_classes c))
    exact ⟨k, hk⟩
  · intro j k o p ho hc
    have := R.fixed_ok _ ((d.opAt_iff B.insts _ _ _).mp ho) p (hfx hc)
    exact ⟨this.1, fun c => this.2 c (mem_classes c)⟩
  · intro b hb j hj o ho p hn
    have hc : o.constraint = .FixedReg p := by
      unfold Op.asFixedNonallocatable at hn
      split at hn
      · split at hn
        · cases hn; assumption
        · cases hn
      · cases hn
    have hlt : j < d.insts.length := by
      rcases Nat.lt_or_ge j d.insts.length with h | h
      · exact h
      · have ho : o ∈ (d.inst j).ops := ho
        rw [d.inst_ge h] at ho; cases ho
    have := R.nonalloc j hlt o ho p (hfx hc) hn
    refine ⟨fun ha => ?_, ?_⟩
    · rw [allocatable_iff.mpr ha] at this
      exact absurd this.1 (by simp)
    · intro j' k' o' ho' hc'
      exact this.2 _ ((d.opAt_iff B.insts _ _ _).mp ho') (hfx hc')

/-! ### Whether the function asks for too much -/

theorem admits_iff {env : MachineEnv} {c : OperandConstraint} {x : Place} : admitsB env c x = true ↔ c.Admits env x := by
  cases c <;> cases x <;> simp [admitsB, OperandConstraint.Admits]

instance (f : Func) (j : Nat) (o : Op) (x : Nat) : Decidable (CountsAt f j o x) := by unfold CountsAt; infer_instance

/-- Checks of constraints. -/
def asksB (o : Op) : Bool := match o.constraint with | .Reg => true | .Reuse _ => true | .Limit _ => true | _ => false
def withinB (o : Op) (p : PReg) : Bool := match o.constraint with | .Limit n => decide (p.hwEnc < n) | _ => true
def smallB (o : Op) : Bool := match o.constraint with | .Limit n => decide (n ≤ PReg.MAX + 1) | _ => true
def reuseB (ops : List Op) (o : Op) : Bool :=
  match o.constraint with
  | .Reuse m => (match ops[m]? with | some r => decide (r.asFixedNonallocatable = none) | none => false)
  | _ => true

def sameB (o o' : Op) : Bool :=
  match o.constraint, o'.constraint with
  | .FixedReg p, .FixedReg p' => decide (p = p' ∧ o.kind = .Use ∧ o'.kind = .Use ∧ o.pos = .Early ∧ o'.pos = .Early)
  | _, _ => false

theorem asks_iff {o : Op} : asksB o = true ↔ AsksReg o := by
  unfold asksB AsksReg
  cases o.constraint <;> simp

/-- The checks for `Serviceable`, given a register `pick j k` for each operand that asks for
one, and operands `copied` that are known to be copied. -/
structure ServB (d : Data) (i : Input) (pick : Nat → Nat → PReg) (copied : List (Nat × Nat)) : Prop where
  reuse : ∀ j, j < d.insts.length → ∀ o ∈ (d.inst j).ops, reuseB (d.inst j).ops o = true
  fixed : ∀ j, j < d.insts.length → ∀ q ∈ (d.inst j).ops.zipIdx, ∀ q' ∈ (d.inst j).ops.zipIdx, sameB q.1 q'.1 = true → q.2 = q'.2
  stack : ∀ q ∈ d.allOps, ∀ q' ∈ d.allOps, q.1 = q'.1 → q.2.2.constraint = .Stack → q'.2.2.vreg.vreg = q.2.2.vreg.vreg →
    Build.recordPoint d.func q.1 q'.2.2 = Build.recordPoint d.func q.1 q.2.2 → q'.2.1 = q.2.1
  supply : ∀ q ∈ d.allOps, asksB q.2.2 = true → withinB q.2.2 (pick q.1 q.2.1) = true ∧ ∃ c ∈ ResolveMoves.classes,
    q.2.2.vreg.class? = some c ∧ ((i.env.preferred c).contains (pick q.1 q.2.1) = true ∨ (i.env.nonPreferred c).contains (pick q.1 q.2.1) = true)
  limit : ∀ q ∈ d.allOps, smallB q.2.2 = true
  apart : ∀ q ∈ d.allOps, ∀ q' ∈ d.allOps, q.1 = q'.1 → ∀ p ∈ fixedIdx q.2.2, p ∈ fixedIdx q'.2.2 → ∀ x ∈ [ptBefore q.1, ptAfter q.1],
    CountsAt d.func q.1 q.2.2 x ∧ CountsAt d.func q.1 q'.2.2 x ∧ ((q.1, q.2.1) ∈ copied → x = ptBefore q.1) ∧
    ((q.1, q'.2.1) ∈ copied → x = ptBefore q.1) → q.2.1 = q'.2.1
  clobber : ∀ q ∈ d.allOps, ∀ p ∈ fixedIdx q.2.2, (q.1, q.2.1) ∉ copied → CountsAt d.func q.1 q.2.2 (ptAfter q.1) → p ∉ (d.inst q.1).clobbers
  space : ∀ c ∈ ResolveMoves.classes, 2 * (d.vregs.length * (i.size c).toNat) +
    8 * ((i.size .Int).toNat + (i.size .Float).toNat + (i.size .Vector).toNat) + 2 ≤ 2 ^ 24

theorem serviceable_of {i : Input} {d : Data} {pick : Nat → Nat → PReg} {copied : List (Nat × Nat)} (hf : i.f = d.func) (B : FuncB d)
    (S : ServB d i pick copied) (hc : ∀ j k o, (j, k) ∈ copied → OpAt d.func j k o → ∀ p, o.constraint = .FixedReg p → CopiedTo d.func j o p) :
    Serviceable i := by
  obtain ⟨f, vreg, multi, env, size, byLast, ord, tie, total, fuel⟩ := i
  subst hf
  have hfx : ∀ {o : Op} {p : PReg}, o.constraint = .FixedReg p → p ∈ fixedIdx o := by
    intro o p h
    unfold fixedIdx
    rw [h]
    simp
  have hlt : ∀ {j : Nat} {o : Op}, o ∈ (d.inst j).ops → j < d.insts.length := by
    intro j o ho
    rcases Nat.lt_or_ge j d.insts.length with h | h
    · exact h
    · rw [d.inst_ge h] at ho; cases ho
  have hop : ∀ {j k o}, OpAt d.func j k o → (j, k, o) ∈ d.allOps := fun h => (d.opAt_iff B.insts _ _ _).mp h
  constructor
  · constructor
    · intro j m o ho hm
      have ho : o ∈ (d.inst j).ops := ho
      have := S.reuse j (hlt ho) o ho
      unfold reuseB at this
      rw [hm] at this
      dsimp only at this
      split at this
      · rename_i r h1
        exact ⟨r, h1, of_decide_eq_true this⟩
      · cases this
    · intro j k k' o o' p h1 h2 h3 h4 h5 h6 h7 h8
      have h1 : (d.inst j).ops[k]? = some o := h1
      have h2 : (d.inst j).ops[k']? = some o' := h2
      exact S.fixed j (hlt (List.mem_of_getElem? h1)) (o, k) (List.mem_zipIdx_iff_getElem?.mpr h1) (o', k')
        (List.mem_zipIdx_iff_getElem?.mpr h2) (by simp [sameB, h3, h4, h5, h6, h7, h8])
  · intro j k k' o o' h1 h2 h3 h4 h5
    exact S.stack _ (hop h1) _ (hop h2) rfl h3 h4 h5
  · intro j k o h1 h2
    obtain ⟨h3, c, -, h4, h5⟩ := S.supply _ (hop h1) (asks_iff.mpr h2)
    refine ⟨pick j k, ⟨c, h4, h5⟩, fun n hn => ?_⟩
    unfold withinB at h3
    dsimp only at h3
    rw [hn] at h3
    exact of_decide_eq_true h3
  · intro j k o n h1 h2
    have := S.limit _ (hop h1)
    unfold smallB at this
    dsimp only at this
    rw [h2] at this
    exact of_decide_eq_true this
  · intro j k k' o o' p x h1 h2 ⟨h3, h4, h5⟩ ⟨h6, h7, h8⟩
    refine S.apart _ (hop h1) _ (hop h2) rfl p (hfx h3) (hfx h6) x ?_ ⟨h4, h7, fun hm => h5 (hc _ _ _ hm h1 p h3),
      fun hm => h8 (hc _ _ _ hm h2 p h6)⟩
    have := h4.1
    simp only [ptBefore, ptAfter, List.mem_cons, List.not_mem_nil, or_false]
    omega
  · intro j k o p h1 ⟨h2, h3, h4⟩
    refine S.clobber _ (hop h1) p (hfx h2) (fun hm => ?_) h3
    have := h4 (hc _ _ _ hm h1 p h2)
    simp only [ptBefore, ptAfter] at this
    omega
  · intro c
    exact S.space c (mem_classes c)

/-- The register picked for each operand is not clobbered, nor one that another operand may have. -/
structure FreeB (d : Data) (i : Input) (pick : Nat → Nat → PReg) : Prop where
  clobber : ∀ q ∈ d.allOps, asksB q.2.2 = true → pick q.1 q.2.1 ∉ (d.inst q.1).clobbers
  others : ∀ q ∈ d.allOps, asksB q.2.2 = true → ∀ q' ∈ d.allOps, q'.1 = q.1 → q'.2.1 ≠ q.2.1 → q'.2.2.constraint ≠ .Any →
    admitsB i.env q'.2.2.constraint (Place.ofPReg i.env (pick q.1 q.2.1)) = false

theorem not_overcommitted_of {i : Input} {d : Data} {pick : Nat → Nat → PReg} {copied : List (Nat × Nat)} (hf : i.f = d.func) (B : FuncB d)
    (S : ServB d i pick copied) (F : FreeB d i pick) : ¬ Overcommitted i := by
  obtain ⟨f, vreg, multi, env, size, byLast, ord, tie, total, fuel⟩ := i
  subst hf
  have hop : ∀ {j k o}, OpAt d.func j k o → (j, k, o) ∈ d.allOps := fun h => (d.opAt_iff B.insts _ _ _).mp h
  rintro ⟨j, k, o, h1, h2, taken, h3, -⟩
  obtain ⟨g3, c, -, g4, g5⟩ := S.supply _ (hop h1) (asks_iff.mpr h2)
  have hm : MayHave ⟨d.func, vreg, multi, env, size, byLast, ord, tie, total, fuel⟩ o (pick j k) := by
    refine ⟨⟨c, g4, g5⟩, fun n hn => ?_⟩
    unfold withinB at g3
    dsimp only at g3
    rw [hn] at g3
    exact of_decide_eq_true g3
  have := h3 _ hm
  split at this
  · exact F.clobber _ (hop h1) (asks_iff.mpr h2) this.1
  · obtain ⟨h4, o', h5, h6, h7, -⟩ := this
    have := F.others _ (hop h1) (asks_iff.mpr h2) _ (hop h5) rfl h4 h6
    dsimp only at this
    have h8 := admits_iff.mpr h7
    rw [this] at h8
    cases h8

end Regalloc.Pipeline
