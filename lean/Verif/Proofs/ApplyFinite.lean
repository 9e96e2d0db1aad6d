import Verif.Proofs.ApplyTop

/-
Functions and assignments given by finite tables, for which the requirements of C38 can be
checked by evaluation. Used for concrete examples only.
-/
namespace Regalloc.Apply

/-- A block: its instructions, successors, predecessors, parameters, the arguments for each
successor, and the registers live into it. -/
structure BlockData where
  insns : Nat × Nat
  succs : List Nat := []
  preds : List Nat := []
  params : List VReg := []
  args : List (List VReg) := []
  live : List Nat := []

/-- An instruction. -/
structure InstData where
  ops : List Op := []
  clobbers : List PReg := []
  ret : Bool := false
  branch : Bool := false
  allocs : List Allocation := []

/-- Everything the pass reads. -/
structure Data where
  blocks : List BlockData
  insts : List InstData
  vregs : List (VReg × List FRange)
  ins : List In := []
  outs : List Out := []
  fixups : List Fixup := []

def Data.block (d : Data) (b : Nat) : BlockData := d.blocks.getD b ⟨(0, 0), [], [], [], [], []⟩
def Data.inst (d : Data) (i : Nat) : InstData := d.insts.getD i ⟨[], [], false, false, []⟩
def Data.vr (d : Data) (v : Nat) : VReg × List FRange := d.vregs.getD v (VReg.invalid, [])

def Data.func (d : Data) : Func where
  numInsts := d.insts.length
  numBlocks := d.blocks.length
  entry := 0
  insns := fun b => (d.block b).insns
  succs := fun b => (d.block b).succs
  preds := fun b => (d.block b).preds
  params := fun b => (d.block b).params
  isRet := fun i => (d.inst i).ret
  isBranch := fun i => (d.inst i).branch
  args := fun b _ k => (d.block b).args.getD k []
  operands := fun i => (d.inst i).ops
  clobbers := fun i => (d.inst i).clobbers
  numVregs := d.vregs.length

def Data.env (d : Data) : Env where
  f := d.func
  numVregs := d.vregs.length
  vreg := fun v => (d.vr v).1
  ranges := fun v => (d.vr v).2
  insnBlock := fun i => (d.blocks.findIdx? (fun b => decide (b.insns.1 ≤ i ∧ i < b.insns.2))).getD d.blocks.length
  liveIn := fun b v => decide (v ∈ (d.block b).live)
  ins := d.ins
  outs := d.outs
  fixups := d.fixups
  allocs := fun i k => (d.inst i).allocs.getD k Allocation.none

theorem Data.block_ge (d : Data) {b : Nat} (h : d.blocks.length ≤ b) : d.block b = ⟨(0, 0), [], [], [], [], []⟩ := by
  unfold Data.block
  rw [List.getD_eq_getElem?_getD, List.getElem?_eq_none h, Option.getD_none]

theorem Data.inst_ge (d : Data) {i : Nat} (h : d.insts.length ≤ i) : d.inst i = ⟨[], [], false, false, []⟩ := by
  unfold Data.inst
  rw [List.getD_eq_getElem?_getD, List.getElem?_eq_none h, Option.getD_none]

theorem Data.vr_ge (d : Data) {v : Nat} (h : d.vregs.length ≤ v) : d.vr v = (VReg.invalid, []) := by
  unfold Data.vr
  rw [List.getD_eq_getElem?_getD, List.getElem?_eq_none h, Option.getD_none]

/-! ### Checks -/

instance (r : FRange) (p : Nat) : Decidable (r.Has p) := by unfold FRange.Has; infer_instance

/-- Operands of the instruction with their numbers. -/
def Data.opsAt (d : Data) (i : Nat) : List (Nat × Op) :=
  ((d.inst i).ops.zipIdx.map (fun p => (p.2, p.1))).filter (fun p => decide (p.2.asFixedNonallocatable = none))

/-- Instructions that lie in a block. -/
def Data.insideB (d : Data) (i : Nat) : Bool := d.blocks.any (fun b => decide (b.insns.1 ≤ i ∧ i < b.insns.2))

/-- The input the operand reuses, if any. -/
def reuseIdx (o : Op) : List Nat :=
  match o.constraint with
  | .Reuse j => [j]
  | _ => []

/-- All operands of instructions in blocks. -/
def Data.allOps (d : Data) : List (Nat × Nat × Op) :=
  ((List.range d.insts.length).filter d.insideB).flatMap (fun i => (d.opsAt i).map (fun p => (i, p.1, p.2)))

theorem getElem?_block (d : Data) {b : Nat} (h : b < d.blocks.length) : d.blocks[b]? = some (d.block b) := by
  unfold Data.block
  rw [List.getD_eq_getElem?_getD, List.getElem?_eq_getElem h, Option.getD_some]

theorem Data.inside_iff (d : Data) (i : Nat) : d.insideB i = true ↔ ∃ b, b < d.func.numBlocks ∧ i ∈ d.func.blockInsts b := by
  unfold Data.insideB
  rw [List.any_eq_true]
  constructor
  · rintro ⟨bd, h1, h2⟩
    obtain ⟨b, hb⟩ := List.mem_iff_getElem?.mp h1
    obtain ⟨hlt, _⟩ := List.getElem?_eq_some_iff.mp hb
    refine ⟨b, hlt, ?_⟩
    rw [getElem?_block d hlt] at hb
    cases hb
    unfold Func.blockInsts
    rw [List.mem_range'_1]
    have h2 : (d.block b).insns.1 ≤ i ∧ i < (d.block b).insns.2 := by simpa using h2
    show (d.block b).insns.1 ≤ i ∧ i < (d.block b).insns.1 + ((d.block b).insns.2 - (d.block b).insns.1)
    omega
  · rintro ⟨b, hb, hi⟩
    refine ⟨d.block b, List.mem_of_getElem? (getElem?_block d hb), ?_⟩
    unfold Func.blockInsts at hi
    rw [List.mem_range'_1] at hi
    have hi : (d.block b).insns.1 ≤ i ∧ i < (d.block b).insns.1 + ((d.block b).insns.2 - (d.block b).insns.1) := hi
    have : (d.block b).insns.1 ≤ i ∧ i < (d.block b).insns.2 := by omega
    simpa using this

theorem Data.opAt_iff (d : Data) (hins : ∀ b ∈ d.blocks, b.insns.2 ≤ d.insts.length) (i k : Nat) (o : Op) :
    OpAt d.func i k o ↔ (i, k, o) ∈ d.allOps := by
  unfold Data.allOps Data.opsAt OpAt
  rw [← d.inside_iff]
  simp only [List.mem_flatMap, List.mem_filter, List.mem_range, List.mem_map, Prod.mk.injEq, Prod.exists, decide_eq_true_eq]
  constructor
  · rintro ⟨h1, h2, h3⟩
    have hlt : i < d.insts.length := by
      obtain ⟨bd, g1, g2⟩ := List.any_eq_true.mp h1
      have := hins bd g1
      have g2 : bd.insns.1 ≤ i ∧ i < bd.insns.2 := by simpa using g2
      omega
    refine ⟨i, ⟨hlt, h1⟩, k, o, ⟨⟨o, k, ?_, rfl, rfl⟩, h3⟩, rfl, rfl, rfl⟩
    exact List.mem_zipIdx_iff_getElem?.mpr h2
  · rintro ⟨i', ⟨_, h1⟩, k', o', ⟨⟨o2, k2, h2, rfl, rfl⟩, h3⟩, rfl, rfl, rfl⟩
    exact ⟨h1, List.mem_zipIdx_iff_getElem?.mp h2, h3⟩

/-- Definitions with their points. -/
def Data.defs (d : Data) : List (Nat × Nat) :=
  (d.allOps.filter (fun q => decide (q.2.2.kind = .Def))).map (fun q => (q.2.2.vreg.vreg, Build.defPoint q.1 q.2.2))

theorem Data.defAt_iff (d : Data) (hins : ∀ b ∈ d.blocks, b.insns.2 ≤ d.insts.length) (v p : Nat) : DefAt d.func v p ↔ (v, p) ∈ d.defs := by
  unfold Data.defs
  rw [List.mem_map]
  constructor
  · rintro ⟨b, hb, i, hi, o, ho, h1, h2, h3, h4⟩
    obtain ⟨k, hk⟩ := List.mem_iff_getElem?.mp ho
    refine ⟨(i, k, o), List.mem_filter.mpr ⟨(d.opAt_iff hins i k o).mp ⟨⟨b, hb, hi⟩, hk, h1⟩, by simpa using h2⟩, ?_⟩
    rw [← h3, h4]
  · rintro ⟨⟨i, k, o⟩, h1, h2⟩
    obtain ⟨h3, h4⟩ := List.mem_filter.mp h1
    obtain ⟨⟨b, hb, hi⟩, h5, h6⟩ := (d.opAt_iff hins i k o).mpr h3
    cases h2
    exact ⟨b, hb, i, hi, o, List.mem_of_getElem? h5, h6, by simpa using h4, rfl, rfl⟩

/-- The checks for `Accepted`. -/
structure FuncB (d : Data) : Prop where
  pos : 0 < d.blocks.length
  insts : ∀ b ∈ d.blocks, b.insns.2 ≤ d.insts.length
  small : d.insts.length ≤ 2 ^ 30
  edges : edgesMatchB d.func = true
  nonempty : ∀ b ∈ d.blocks, b.insns.1 < b.insns.2
  ordered : d.blocks.Pairwise (fun b c => b.insns.2 ≤ c.insns.1)
  branches : ∀ b ∈ d.blocks, b.succs ≠ [] → (d.inst (b.insns.2 - 1)).branch = true
  arity : ∀ b ∈ d.blocks, ∀ p ∈ b.succs.zipIdx, (b.args.getD p.2 []).length = (d.block p.1).params.length
  once : ∀ i, i < d.insts.length → (d.opsAt i).Pairwise (fun p q => p.2.vreg.vreg = q.2.vreg.vreg → p.2.kind = .Use ∧ q.2.kind = .Use)
  params : ∀ b ∈ d.blocks, (b.params.map VReg.vreg).Nodup
  params_def : ∀ b ∈ d.blocks, ∀ v ∈ b.params, ∀ q ∈ d.defs, q.1 ≠ v.vreg
  succs_nodup : ∀ b ∈ d.blocks, b.succs.Nodup
  entry_params : (d.block 0).params = []
  params_once : d.blocks.Pairwise (fun b c => ∀ v ∈ b.params, ∀ w ∈ c.params, v.vreg ≠ w.vreg)
  index : ∀ v, v < d.vregs.length → (d.vr v).1.vreg = v
  named : ∀ i, i < d.insts.length → ∀ q ∈ d.opsAt i, q.2.vreg = (d.vr q.2.vreg.vreg).1 ∧ q.2.vreg.vreg < d.vregs.length
  named_params : ∀ b ∈ d.blocks, ∀ p ∈ b.params, p = (d.vr p.vreg).1 ∧ p.vreg < d.vregs.length
  named_args : ∀ b ∈ d.blocks, ∀ l ∈ b.args, ∀ a ∈ l, a = (d.vr a.vreg).1
  args_class : ∀ b ∈ d.blocks, ∀ p ∈ b.succs.zipIdx, ∀ m ∈ ((d.block p.1).params).zip (b.args.getD p.2 []), m.1.class? = m.2.class?
  reuse : ∀ q ∈ d.allOps, ∀ j ∈ reuseIdx q.2.2, q.2.2.kind = .Def ∧ q.2.2.pos = .Late ∧
    ∃ q' ∈ d.allOps, q'.1 = q.1 ∧ q'.2.1 = j ∧ q'.2.2.kind = .Use ∧ q'.2.2.pos = .Early ∧ q'.2.2.vreg.class? = q.2.2.vreg.class?
  critical : ∀ b ∈ d.blocks, ∀ c ∈ b.succs, 1 < Cfg.inEdges d.func c → b.succs = [c] ∧ (d.inst (b.insns.2 - 1)).ret = false
  join_ops : ∀ b ∈ d.blocks, ∀ c ∈ b.succs, 1 < Cfg.inEdges d.func c → (d.inst (b.insns.2 - 1)).ops = []

/-- The checks for the rest of `FuncOk`. -/
structure FuncB' (d : Data) : Prop where
  join_clobbers : ∀ b ∈ d.blocks, ∀ c ∈ b.succs, 1 < Cfg.inEdges d.func c → (d.inst (b.insns.2 - 1)).clobbers = []
  reuse_one : ∀ q ∈ d.allOps, ∀ q' ∈ d.allOps, q.1 = q'.1 → reuseIdx q.2.2 ≠ [] → reuseIdx q'.2.2 ≠ [] → q.2.1 = q'.2.1

section
variable {d : Data}

theorem Data.block_mem (d : Data) {b : Nat} (h : b < d.blocks.length) : d.block b ∈ d.blocks := List.mem_of_getElem? (getElem?_block d h)

theorem Data.block_pair {R : BlockData → BlockData → Prop} (h : d.blocks.Pairwise R) {b c : Nat} (hbc : b < c) (hc : c < d.blocks.length) :
    R (d.block b) (d.block c) := by
  have := List.pairwise_iff_getElem.mp h b c (by omega) hc hbc
  have h1 := getElem?_block d (b := b) (by omega)
  have h2 := getElem?_block d (b := c) hc
  rw [List.getElem?_eq_getElem (by omega)] at h1
  rw [List.getElem?_eq_getElem (by omega)] at h2
  rw [← Option.some.inj h1, ← Option.some.inj h2]
  exact this

theorem Data.ops_get (d : Data) {i k : Nat} {o : Op} (h : (d.func.operands i)[k]? = some o) (hn : o.asFixedNonallocatable = none) :
    i < d.insts.length ∧ (k, o) ∈ d.opsAt i := by
  have hlt : i < d.insts.length := by
    rcases Nat.lt_or_ge i d.insts.length with h1 | h1
    · exact h1
    · have h : (d.inst i).ops[k]? = some o := h
      rw [d.inst_ge h1] at h
      cases h
  refine ⟨hlt, ?_⟩
  unfold Data.opsAt
  exact List.mem_filter.mpr ⟨List.mem_map.mpr ⟨(o, k), List.mem_zipIdx_iff_getElem?.mpr h, rfl⟩, by simpa using hn⟩

theorem accepted_of (B : FuncB d) : Accepted d.env := by
  have hb : ∀ {b : Nat}, b < d.blocks.length → d.block b ∈ d.blocks := fun h => d.block_mem h
  have hsm : ∀ {b c : Nat}, c ∈ (d.block b).succs → b < d.blocks.length := by
    intro b c h
    rcases Nat.lt_or_ge b d.blocks.length with h1 | h1
    · exact h1
    · rw [d.block_ge h1] at h; cases h
  have hpm : ∀ {b : Nat} {p : VReg}, p ∈ (d.block b).params → b < d.blocks.length := by
    intro b c h
    rcases Nat.lt_or_ge b d.blocks.length with h1 | h1
    · exact h1
    · rw [d.block_ge h1] at h; cases h
  constructor
  · constructor
    · intro b h; exact B.nonempty _ (hb h)
    · intro b c h1 h2; exact Data.block_pair B.ordered h1 h2
    · intro b h
      have hlt : b < d.blocks.length := by
        rcases Nat.lt_or_ge b d.blocks.length with h1 | h1
        · exact h1
        · exact absurd (by show (d.block b).succs = []; rw [d.block_ge h1]) h
      exact B.branches _ (hb hlt) h
    · intro b k c h
      have hlt := hsm (List.mem_of_getElem? h)
      exact B.arity _ (hb hlt) (c, k) (List.mem_zipIdx_iff_getElem?.mpr h)
    · intro i j k o o' h1 h2 hne h3 h4 h5
      obtain ⟨hlt, g1⟩ := d.ops_get h1 h3
      obtain ⟨_, g2⟩ := d.ops_get h2 h4
      exact (pairwise_of_ne (B.once i hlt) (fun _ _ h e => (h e.symm).symm) g1 g2 (fun e => hne (by cases e; rfl)) h5).1
    · intro b
      rcases Nat.lt_or_ge b d.blocks.length with h1 | h1
      · exact B.params _ (hb h1)
      · show ((d.block b).params.map _).Nodup
        rw [d.block_ge h1]
        exact List.nodup_nil
    · intro b v hvp p hd
      have hlt := hpm hvp
      have : DefAt d.func v.vreg p := ⟨b, hlt, hd⟩
      exact B.params_def _ (hb hlt) v hvp _ ((d.defAt_iff B.insts _ _).mp this) rfl
  · exact EdgesMatch.of_decide B.edges
  · exact B.pos
  · intro b h; exact Nat.le_trans (B.insts _ (hb h)) B.small
  · intro b h; exact B.insts _ (hb h)
  · intro b
    rcases Nat.lt_or_ge b d.blocks.length with h1 | h1
    · exact B.succs_nodup _ (hb h1)
    · show (d.block b).succs.Nodup
      rw [d.block_ge h1]
      exact List.nodup_nil
  · exact B.entry_params
  · intro b c v h1 h2
    obtain ⟨p, p1, p2⟩ := List.mem_map.mp h1
    obtain ⟨q, q1, q2⟩ := List.mem_map.mp h2
    rcases Nat.lt_trichotomy b c with h | h | h
    · exact absurd (p2.trans q2.symm) (Data.block_pair B.params_once h (hpm q1) p p1 q q1)
    · exact h
    · exact absurd (q2.trans p2.symm) (Data.block_pair B.params_once h (hpm p1) q q1 p p1)
  · intro b c h1 h2; exact B.critical _ (hb (hsm h1)) c h1 h2
  · intro b c h1 h2; exact B.join_ops _ (hb (hsm h1)) c h1 h2
  · exact B.index
  · intro i o ho hn
    obtain ⟨k, hk⟩ := List.mem_iff_getElem?.mp ho
    obtain ⟨h1, h2⟩ := d.ops_get hk hn
    exact B.named i h1 _ h2
  · intro b p hp; exact B.named_params _ (hb (hpm hp)) p hp
  · intro b k a ha
    have ha : a ∈ (d.block b).args.getD k [] := ha
    rw [List.getD_eq_getElem?_getD] at ha
    cases hg : (d.block b).args[k]? with
    | none => rw [hg] at ha; cases ha
    | some l =>
      rw [hg] at ha
      rcases Nat.lt_or_ge b d.blocks.length with h1 | h1
      · exact B.named_args _ (hb h1) l (List.mem_of_getElem? hg) a ha
      · rw [d.block_ge h1] at hg; cases hg
  · intro b k c h m hm
    exact B.args_class _ (hb (hsm (List.mem_of_getElem? h))) (c, k) (List.mem_zipIdx_iff_getElem?.mpr h) m hm
  · intro i k j o ho hc
    have h1 := (d.opAt_iff B.insts i k o).mp ho
    obtain ⟨h2, h3, ⟨i', k', o'⟩, h4, rfl, rfl, h6⟩ := B.reuse _ h1 j (by unfold reuseIdx; rw [hc]; simp)
    exact ⟨h2, h3, o', (d.opAt_iff B.insts _ _ _).mpr h4, h6⟩

theorem funcOk_of (B : FuncB d) (B' : FuncB' d) : FuncOk d.env := by
  have hsm : ∀ {b c : Nat}, c ∈ (d.block b).succs → b < d.blocks.length := by
    intro b c h
    rcases Nat.lt_or_ge b d.blocks.length with h1 | h1
    · exact h1
    · rw [d.block_ge h1] at h; cases h
  refine ⟨accepted_of B, ?_, ?_⟩
  · intro b c h1 h2; exact B'.join_clobbers _ (d.block_mem (hsm h1)) c h1 h2
  · intro i k k' j j' o o' ho ho' hc hc'
    exact B'.reuse_one _ ((d.opAt_iff B.insts i k o).mp ho) _ ((d.opAt_iff B.insts i k' o').mp ho') rfl
      (by unfold reuseIdx; rw [hc]; simp) (by unfold reuseIdx; rw [hc']; simp)
end

/-! ### Assignments -/

/-- All ranges. -/
def Data.allRanges (d : Data) : List (Nat × FRange) := (List.range d.vregs.length).flatMap (fun v => (d.vr v).2.map (fun r => (v, r)))

theorem Data.range_iff (d : Data) (v : Nat) (r : FRange) : r ∈ d.env.ranges v ↔ (v, r) ∈ d.allRanges := by
  unfold Data.allRanges
  simp only [List.mem_flatMap, List.mem_range, List.mem_map, Prod.mk.injEq]
  constructor
  · intro h
    have h : r ∈ (d.vr v).2 := h
    refine ⟨v, ?_, r, h, rfl, rfl⟩
    rcases Nat.lt_or_ge v d.vregs.length with h1 | h1
    · exact h1
    · rw [d.vr_ge h1] at h; cases h
  · rintro ⟨v', _, r', h, rfl, rfl⟩
    exact h

/-- The checks for a fixup. -/
structure FixupB (d : Data) (e : ResolveMoves.MoveEnv) (fx : Fixup) : Prop where
  op : ∃ q ∈ d.allOps, ∃ q' ∈ d.allOps, fx.pos = 2 * q.1 ∧ q'.1 = q.1 ∧ q.2.1 = fx.toSlot ∧ q'.2.1 = fx.fromSlot ∧ q.2.2.kind = .Use ∧
    q.2.2.pos = .Early ∧ q'.2.2.kind = .Use ∧ q.2.2.vreg.vreg = fx.vreg ∧ q'.2.2.vreg.vreg = fx.vreg
  cls : fx.preg.class? = (d.vr fx.vreg).1.class?
  scratch : e.machine.scratch .Int ≠ some fx.preg ∧ e.machine.scratch .Float ≠ some fx.preg ∧ e.machine.scratch .Vector ≠ some fx.preg
  recorded : ∃ m ∈ e.maps fx.preg, m.1.fr ≤ fx.pos ∧ fx.pos < m.1.to
  free : ∀ p ∈ d.allRanges, p.2.Has fx.pos → p.2.alloc ≠ Allocation.reg fx.preg
  reuse : ∀ q ∈ d.allOps, fx.pos = 2 * q.1 → ∀ j ∈ reuseIdx q.2.2, ∀ q' ∈ d.allOps, q'.1 = q.1 → q'.2.1 = j →
    ∀ p ∈ d.allRanges, p.1 = q.2.2.vreg.vreg → p.2.Has (2 * q.1 + 1) → p.2.alloc = Allocation.reg fx.preg → q'.2.2.vreg.vreg = fx.vreg
  initial : fx.level = .Initial → fx.fromSlot = fx.toSlot
  secondary : fx.level = .Secondary → ∀ fy ∈ d.fixups, fy.level = .Secondary → fy.pos = fx.pos → fy.toSlot ≠ fx.fromSlot

/-- The checks for a valid assignment. -/
structure ValidB (d : Data) (e : ResolveMoves.MoveEnv) (num : Nat) : Prop where
  sorted : ∀ v, v < d.vregs.length → (d.vr v).2.Pairwise (fun r r' => r.range.fr ≤ r'.range.fr)
  nonempty : ∀ p ∈ d.allRanges, p.2.range.fr < p.2.range.to
  inside : ∀ p ∈ d.allRanges, ∃ b ∈ d.blocks, 2 * b.insns.1 ≤ p.2.range.fr ∧ p.2.range.fr < 2 * b.insns.2
  marked : ∀ p ∈ d.allRanges, (p.2.startsAtDef = true ↔ (p.1, p.2.range.fr) ∈ d.defs)
  begins : ∀ p ∈ d.allRanges, p.2.startsAtDef = false → (∃ b ∈ d.blocks, p.2.range.fr = 2 * b.insns.1) ∨
    (p.2.range.fr % 2 = 0 ∧ ∃ q ∈ (d.vr p.1).2, q.range.fr < p.2.range.fr ∧ p.2.range.fr ≤ q.range.to)
  entered : ∀ p ∈ d.allRanges, ∀ b ∈ d.blocks, p.2.Has (2 * b.insns.1) →
    p.1 ∈ b.live ∨ p.1 ∈ b.params.map VReg.vreg ∨ (p.1, 2 * b.insns.1) ∈ d.defs
  live_param : ∀ b ∈ d.blocks, ∀ v ∈ b.live, v ∉ b.params.map VReg.vreg
  entry_live : (d.block 0).live = []
  overlap : ∀ q ∈ d.allRanges, ∀ r ∈ (d.vr q.1).2, q.2.range.fr < r.range.fr → r.range.fr < q.2.range.to →
    ∀ b ∈ d.blocks, r.Has (2 * b.insns.1) → r.range.fr = 2 * b.insns.1
  recorded : ∀ q ∈ d.allOps, ∃ r ∈ (d.vr q.2.2.vreg.vreg).2, ∃ u ∈ r.uses, u.slot = q.2.1 ∧ u.pos = Build.recordPoint d.func q.1 q.2.2
  records : ∀ p ∈ d.allRanges, ∀ u ∈ p.2.uses, p.2.Has u.pos ∧ ∃ q ∈ d.allOps, q.2.1 = u.slot ∧ q.2.2.vreg.vreg = p.1 ∧
    u.pos = Build.recordPoint d.func q.1 q.2.2 ∧ reuseIdx u.op = reuseIdx q.2.2
  once : ∀ p ∈ d.allRanges, ∀ u ∈ p.2.uses, ∀ r' ∈ (d.vr p.1).2, ∀ u' ∈ r'.uses, u.pos / 2 = u'.pos / 2 → u.slot = u'.slot → p.2 = r'
  defs : ∀ q ∈ d.allOps, q.2.2.kind = .Def → ∀ r ∈ (d.vr q.2.2.vreg.vreg).2, r.Has (Build.defPoint q.1 q.2.2) →
    2 * (q.1 + 1) ≤ r.range.to ∧ ∃ u ∈ r.uses, u.slot = q.2.1 ∧ u.pos = Build.recordPoint d.func q.1 q.2.2
  apart : ∀ p ∈ d.allRanges, ∀ q ∈ d.allRanges, p.1 ≠ q.1 → p.2.range.fr < q.2.range.to → q.2.range.fr < p.2.range.to → p.2.alloc ≠ q.2.alloc
  clobbers : ∀ i, i < d.insts.length → ∀ c ∈ (d.inst i).clobbers, ∀ p ∈ d.allRanges, p.2.Has (2 * i + 1) → p.2.alloc ≠ Allocation.reg c
  nonalloc : ∀ i, i < d.insts.length → ∀ q ∈ (d.inst i).ops.zipIdx, ∀ p ∈ q.1.asFixedNonallocatable.toList,
    (d.inst i).allocs.getD q.2 Allocation.none = Allocation.reg p ∧ ∀ r ∈ d.allRanges, r.2.alloc ≠ Allocation.reg p
  nonalloc_name : ∀ i, i < d.insts.length → ∀ o ∈ (d.inst i).ops, o.asFixedNonallocatable ≠ none → ∀ v, v < d.vregs.length → o.vreg ≠ (d.vr v).1
  location : ∀ q ∈ d.allRanges,
    (∃ p ∈ q.2.alloc.asReg.toList, q.2.alloc = Allocation.reg p ∧ p.class? = (d.vr q.1).1.class? ∧
      (e.machine.scratch .Int ≠ some p ∧ e.machine.scratch .Float ≠ some p ∧ e.machine.scratch .Vector ≠ some p) ∧
      ∀ pt, pt < q.2.range.to → q.2.range.fr ≤ pt → ∃ m ∈ e.maps p, m.1.fr ≤ pt ∧ pt < m.1.to) ∨
    (q.2.alloc.asReg = none ∧ ∃ s ∈ q.2.alloc.asStack.toList, s.index < num)
  class_known : ∀ q ∈ d.allRanges, (d.vr q.1).1.class? ≠ none
  class_same : ∀ p ∈ d.allRanges, ∀ q ∈ d.allRanges, p.2.alloc = q.2.alloc → (d.vr p.1).1.class? = (d.vr q.1).1.class?
  ins1 : ∀ q ∈ d.ins, q.toBlock < d.blocks.length ∧ q.fromBlock ∈ (d.block q.toBlock).preds ∧ q.toVreg ∈ (d.block q.toBlock).params.map VReg.vreg
  ins2 : ∀ b, b < d.blocks.length → ∀ a ∈ (d.block b).preds, ∀ v ∈ (d.block b).params, (⟨a, b, v.vreg⟩ : In) ∈ d.ins
  ins_sorted : d.ins.Pairwise (fun a b => pairLt (b.toVreg, b.toBlock) (a.toVreg, a.toBlock) = false)
  outs : ∀ q ∈ d.outs, ∃ k ∈ (d.block q.fromBlock).succs.zipIdx, k.1 = q.toBlock ∧
    ∃ m ∈ (d.block q.toBlock).params.zip ((d.block q.fromBlock).args.getD k.2 []), m.1.vreg = q.toVreg ∧ m.2.vreg = q.fromVreg
  fixups : ∀ fx ∈ d.fixups, FixupB d e fx
  fixups_order : d.fixups.Pairwise (fun a b => a.level = .Secondary → b.level = .Secondary)
  fixups_slots : d.fixups.Pairwise (fun a b => a.pos = b.pos → a.toSlot ≠ b.toSlot)
  fixups_regs : ∀ fx ∈ d.fixups, ∀ fy ∈ d.fixups, fx.pos = fy.pos → fx.preg = fy.preg → fx = fy

section
variable {d : Data} {e : ResolveMoves.MoveEnv} {num : Nat}

theorem not_scratch {p : PReg} (h : e.machine.scratch .Int ≠ some p ∧ e.machine.scratch .Float ≠ some p ∧ e.machine.scratch .Vector ≠ some p) :
    ∀ c, e.machine.scratch c ≠ some p := by
  intro c
  cases c
  · exact h.1
  · exact h.2.1
  · exact h.2.2

theorem reuseIdx_iff (o : Op) (j : Nat) : j ∈ reuseIdx o ↔ o.constraint = .Reuse j := by
  unfold reuseIdx
  cases o.constraint <;> simp [eq_comm]

theorem fixupOk_of (B : FuncB d) {fx : Fixup} (F : FixupB d e fx) : FixupOk d.env e fx := by
  constructor
  · obtain ⟨⟨i, k, o⟩, h1, ⟨i', k', o'⟩, h2, h3, h4, h5, h6, h7⟩ := F.op
    dsimp only at h3 h4 h5 h6 h7
    subst h4 h5 h6
    exact ⟨i', o, o', h3, (d.opAt_iff B.insts _ _ _).mpr h1, (d.opAt_iff B.insts _ _ _).mpr h2, h7⟩
  · exact F.cls
  · exact not_scratch F.scratch
  · exact F.recorded
  · intro v r hr h; exact F.free (v, r) ((d.range_iff v r).mp hr) h
  · rintro i k j o o' h1 h2 h3 h4 ⟨r, h5, h6, h7⟩
    exact F.reuse _ ((d.opAt_iff B.insts _ _ _).mp h2) h1 j ((reuseIdx_iff o j).mpr h3) _ ((d.opAt_iff B.insts _ _ _).mp h4) rfl rfl
      _ ((d.range_iff _ r).mp h5) rfl h6 h7
  · exact F.initial
  · exact F.secondary

set_option maxHeartbeats 1000000 in
theorem valid_of (B : FuncB d) (W : ValidB d e num) : Valid d.env e num := by
  have hR : ∀ {v r}, r ∈ d.env.ranges v → (v, r) ∈ d.allRanges := fun h => (d.range_iff _ _).mp h
  have hblk : ∀ {b : Nat}, b < d.blocks.length → d.block b ∈ d.blocks := fun h => d.block_mem h
  have hop : ∀ {i k o}, OpAt d.func i k o → (i, k, o) ∈ d.allOps := fun h => (d.opAt_iff B.insts _ _ _).mp h
  have hget : ∀ {bd : BlockData}, bd ∈ d.blocks → ∃ b, b < d.blocks.length ∧ d.block b = bd := by
    intro bd h
    obtain ⟨b, hb⟩ := List.mem_iff_getElem?.mp h
    obtain ⟨hlt, _⟩ := List.getElem?_eq_some_iff.mp hb
    rw [getElem?_block d hlt] at hb
    exact ⟨b, hlt, Option.some.inj hb⟩
  have hinst : ∀ {b i}, b < d.blocks.length → i ∈ d.func.blockInsts b → i < d.insts.length := by
    intro b i hb hi
    have := B.insts _ (hblk hb)
    unfold Func.blockInsts at hi
    rw [List.mem_range'_1] at hi
    have hi : (d.block b).insns.1 ≤ i ∧ i < (d.block b).insns.1 + ((d.block b).insns.2 - (d.block b).insns.1) := hi
    omega
  constructor
  · intro b hb i
    show (d.blocks.findIdx? _).getD d.blocks.length = b ↔ (d.block b).insns.1 ≤ i ∧ i < (d.block b).insns.2
    have huniq : ∀ b c, b < d.blocks.length → c < d.blocks.length → (d.block b).insns.1 ≤ i → i < (d.block b).insns.2 →
        (d.block c).insns.1 ≤ i → i < (d.block c).insns.2 → b = c := by
      intro b c hb hc h1 h2 h3 h4
      rcases Nat.lt_trichotomy b c with h | h | h
      · have := Data.block_pair B.ordered h hc; omega
      · exact h
      · have := Data.block_pair B.ordered h hb; omega
    cases hfi : d.blocks.findIdx? (fun b => decide (b.insns.1 ≤ i ∧ i < b.insns.2)) with
    | none =>
      rw [Option.getD_none]
      constructor
      · intro h; exact absurd hb (by show ¬ b < d.blocks.length; omega)
      · intro h
        rw [List.findIdx?_eq_none_iff] at hfi
        have := hfi _ (hblk hb)
        rw [decide_eq_false_iff_not] at this
        exact absurd h this
    | some c =>
      rw [Option.getD_some]
      obtain ⟨hc, hc2, _⟩ := List.findIdx?_eq_some_iff_getElem.mp hfi
      have hce : d.blocks[c] = d.block c := by
        have := getElem?_block d hc
        rw [List.getElem?_eq_getElem hc] at this
        exact Option.some.inj this
      rw [hce, decide_eq_true_iff] at hc2
      constructor
      · rintro rfl; exact hc2
      · rintro ⟨h1, h2⟩
        exact huniq c b hc hb hc2.1 hc2.2 h1 h2
  · intro v
    rcases Nat.lt_or_ge v d.vregs.length with h1 | h1
    · exact W.sorted v h1
    · show (d.vr v).2.Pairwise _
      rw [d.vr_ge h1]
      exact List.Pairwise.nil
  · intro v h
    show (d.vr v).2 = []
    rw [d.vr_ge h]
  · intro v r hr; exact W.nonempty _ (hR hr)
  · intro v r hr
    obtain ⟨bd, h1, h2⟩ := W.inside _ (hR hr)
    obtain ⟨b, hb, rfl⟩ := hget h1
    exact ⟨b, hb, h2⟩
  · intro v r hr
    rw [show d.env.f = d.func from rfl, d.defAt_iff B.insts]
    exact W.marked _ (hR hr)
  · intro v r hr hs
    rcases W.begins _ (hR hr) hs with ⟨bd, h1, h2⟩ | h
    · obtain ⟨b, hb, rfl⟩ := hget h1
      exact .inl ⟨b, hb, h2⟩
    · exact .inr h
  · intro v r hr b hb _ hhas
    rcases W.entered (v, r) (hR hr) _ (hblk hb) hhas with h | h | h
    · exact .inl (by show decide (v ∈ (d.block b).live) = true; simpa using h)
    · exact .inr (.inl h)
    · exact .inr (.inr ((d.defAt_iff B.insts _ _).mpr h))
  · intro b v _ _ h
    have h : v ∈ (d.block b).live := by
      have h : decide (v ∈ (d.block b).live) = true := h
      simpa using h
    rcases Nat.lt_or_ge b d.blocks.length with h1 | h1
    · exact W.live_param _ (hblk h1) v h
    · rw [d.block_ge h1] at h; cases h
  · intro v _
    show decide (v ∈ (d.block 0).live) = false
    rw [W.entry_live]
    simp
  · intro v q hq r hr h1 h2 b hb h3
    exact W.overlap (v, q) (hR hq) r hr h1 h2 _ (hblk hb) h3
  · intro i k o ho; exact W.recorded (i, k, o) (hop ho)
  · intro v r hr u hu
    obtain ⟨h1, ⟨i, k, o⟩, h2, h3, h4, h5, h6⟩ := W.records (v, r) (hR hr) u hu
    dsimp only at h3
    subst h3
    refine ⟨h1, i, o, (d.opAt_iff B.insts _ _ _).mpr h2, h4, h5, ?_⟩
    intro j
    rw [← reuseIdx_iff, ← reuseIdx_iff, h6]
  · intro v r hr u hu r' hr' u' hu' h1 h2
    exact W.once (v, r) (hR hr) u hu r' hr' u' hu' h1 h2
  · intro i k o ho hk r hr h; exact W.defs (i, k, o) (hop ho) hk r hr h
  · intro v v' p hne r hr r' hr' h1 h2
    exact W.apart _ (hR hr) _ (hR hr') hne (by have := h1.1; have := h2.2; dsimp only; omega) (by have := h1.2; have := h2.1; dsimp only; omega)
  · intro b hb i hi p hp v r hr h
    exact W.clobbers i (hinst hb hi) p hp _ (hR hr) h
  · intro b hb i hi k o p ho hp
    obtain ⟨h1, h2⟩ := W.nonalloc i (hinst hb hi) (o, k) (List.mem_zipIdx_iff_getElem?.mpr ho) p (by rw [hp]; simp)
    exact ⟨h1, fun v r hr => h2 _ (hR hr)⟩
  · intro i o ho hn v hvl
    have hlt : i < d.insts.length := by
      rcases Nat.lt_or_ge i d.insts.length with h1 | h1
      · exact h1
      · have ho : o ∈ (d.inst i).ops := ho
        rw [d.inst_ge h1] at ho; cases ho
    exact W.nonalloc_name i hlt o ho hn v hvl
  · intro v r hr
    rcases W.location _ (hR hr) with ⟨p, _, h2, h3, h4, h5⟩ | ⟨h1, s, h2, h3⟩
    · exact .inl ⟨p, h2, h3, not_scratch h4, fun pt hpt => h5 pt hpt.2 hpt.1⟩
    · exact .inr ⟨s, h1, by simpa using h2, h3⟩
  · intro v r hr; exact W.class_known _ (hR hr)
  · intro v v' r hr r' hr' h; exact W.class_same _ (hR hr) _ (hR hr') h
  · intro q
    constructor
    · intro hq
      obtain ⟨h1, h2⟩ := W.ins1 q hq
      exact ⟨_, h1, rfl, h2⟩
    · rintro ⟨b, h1, rfl, h2, h3⟩
      obtain ⟨v, h4, h5⟩ := List.mem_map.mp h3
      have := W.ins2 _ h1 _ h2 v h4
      rw [h5] at this
      exact this
  · exact W.ins_sorted
  · intro q hq
    obtain ⟨⟨c, k⟩, h1, h2, h3⟩ := W.outs q hq
    dsimp only at h2
    subst h2
    exact ⟨k, List.mem_zipIdx_iff_getElem?.mp h1, h3⟩
  · intro fx hfx; exact fixupOk_of B (W.fixups fx hfx)
  · exact W.fixups_order
  · exact W.fixups_slots
  · exact W.fixups_regs
end

/-! ### A machine with four integer registers -/

def Data.moves (d : Data) : List InsertedMove := match apply d.env with | some p => p.1 | none => []
def Data.allocs (d : Data) : Nat → Nat → Allocation := match apply d.env with | some p => p.2 | none => fun _ _ => Allocation.none

theorem Data.apply_eq {d : Data} (h : (apply d.env).isSome = true) : apply d.env = some (d.moves, d.allocs) := by
  unfold Data.moves Data.allocs
  cases hx : apply d.env with
  | none => rw [hx] at h; cases h
  | some p => rfl

def Data.sorted (d : Data) : List InsertedMove := isort (fun a b => decide (a.pp.key ≤ b.pp.key)) d.moves

/-- Registers 0 to 3 with the ranges of points in which they are in use. -/
def Data.machine (d : Data) (busy : List (List (Nat × Nat))) : ResolveMoves.MoveEnv where
  f := d.func
  getAlloc := d.allocs
  insnBlock := d.env.insnBlock
  machine := ⟨fun c => if c = .Int then (List.range 4).foldl (fun s k => s.add (PReg.new k .Int)) PRegSet.empty else PRegSet.empty,
    fun _ => PRegSet.empty, fun _ => none, []⟩
  maps p := if p.class? = some .Int then (busy.getD p.hwEnc []).map (fun q => (⟨q.1, q.2⟩, none)) else []
  isStackReg _ := false
  victim _ := PReg.new 0 .Int
  size _ := 1
  byLast := false

theorem forall_preg {P : PReg → Prop} (h : ∀ n : Fin 256, P ⟨UInt8.ofNat n.val⟩) (p : PReg) : P p := by
  have := h ⟨p.bits.toNat, p.bits.toNat_lt⟩
  simpa using this

theorem Data.machineOk (d : Data) {busy : List (List (Nat × Nat))}
    (h : ∀ l ∈ busy, SortedM (l.map (fun q => ((⟨q.1, q.2⟩ : RKey), (none : Option Nat))))) :
    ResolveMoves.MachineOk (d.machine busy) := by
  refine ⟨?_, ?_, ?_, ?_, ?_, ?_⟩
  · rintro c p ⟨_, hp⟩
    have key2 : ∀ p : PReg, PRegSet.empty.contains p = false := forall_preg (by decide +kernel)
    have hp : PRegSet.empty.contains p = true := hp
    rw [key2] at hp
    cases hp
  · intro c
    have key : ∀ p : PReg, ((List.range 4).foldl (fun s k => s.add (PReg.new k .Int)) PRegSet.empty).contains p = true → p.class? = some .Int :=
      forall_preg (by decide +kernel)
    have key2 : ∀ p : PReg, PRegSet.empty.contains p = false := forall_preg (by decide +kernel)
    intro p hp
    refine ⟨?_, rfl⟩
    rcases hp with hp | hp
    · have hp : (if c = .Int then (List.range 4).foldl (fun s k => s.add (PReg.new k .Int)) PRegSet.empty else PRegSet.empty).contains p = true := hp
      split at hp
      · next hc => rw [hc]; exact key p hp
      · rw [key2] at hp; cases hp
    · have hp : PRegSet.empty.contains p = true := hp
      rw [key2] at hp; cases hp
  · intro c p h; cases h
  · intro c; rfl
  · intro p
    show RangesSorted (if p.class? = some .Int then _ else [])
    rw [rangesSorted_iff]
    split
    · rw [List.getD_eq_getElem?_getD]
      cases hg : busy[p.hwEnc]? with
      | none => exact ⟨fun e he => absurd he (by simp), by simp⟩
      | some l => exact h l (List.mem_of_getElem? hg)
    · exact ⟨fun e he => absurd he (by simp), by simp⟩
  · intro c; exact ⟨0, rfl⟩

end Regalloc.Apply
