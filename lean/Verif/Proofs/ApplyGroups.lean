import Verif.Proofs.ApplyAll
import Verif.Proofs.FastBasic

/-
The moves inserted at one point with one priority can be resolved together.
-/
namespace Regalloc.Apply

open ResolveMoves

theorem pnt_toNat {n : Nat} (h : n < 2 ^ 32) : (pnt n).bits.toNat = n := by
  unfold pnt
  exact UInt32.toNat_ofNat_of_lt' h

theorem pnt_inj {n m : Nat} (hn : n < 2 ^ 32) (hm : m < 2 ^ 32) (h : pnt n = pnt m) : n = m := by
  rw [← pnt_toNat hn, ← pnt_toNat hm, h]

theorem range_lt {x : Env} {e : MoveEnv} {num : Nat} (hv : Valid x e num) {v : Nat} {r : FRange} (hr : r ∈ x.ranges v) :
    v < x.numVregs := by
  rcases Nat.lt_or_ge v x.numVregs with h | h
  · exact h
  · rw [hv.only v h] at hr; cases hr

theorem recordPoint_or (f : Func) (i : Nat) (o : Op) : Build.recordPoint f i o = ptBefore i ∨ Build.recordPoint f i o = ptAfter i := by
  unfold Build.recordPoint Build.usePoint Build.defPoint
  split <;> split <;> simp

theorem recordPoint_div (f : Func) (i : Nat) (o : Op) : Build.recordPoint f i o / 2 = i := by
  rcases recordPoint_or f i o with h | h <;> rw [h]
  · show 2 * i / 2 = i; omega
  · show (2 * i + 1) / 2 = i; omega

theorem defPoint_or (i : Nat) (o : Op) : Build.defPoint i o = ptBefore i ∨ Build.defPoint i o = ptAfter i := by
  unfold Build.defPoint
  split <;> simp

theorem defPoint_div (i : Nat) (o : Op) : Build.defPoint i o / 2 = i := by
  rcases defPoint_or i o with h | h <;> rw [h]
  · show 2 * i / 2 = i; omega
  · show (2 * i + 1) / 2 = i; omega

theorem OpAt.eq {f : Func} {i k : Nat} {o o' : Op} (h : OpAt f i k o) (h' : OpAt f i k o') : o = o' := by
  have := h.2.1
  rw [h'.2.1] at this
  exact (Option.some.inj this).symm

/-- A point inside some block is small. -/
theorem inst_small {x : Env} (hf : FuncOk x) {i : Nat} (h : ∃ b, b < x.f.numBlocks ∧ i ∈ x.f.blockInsts b) : i < 2 ^ 30 := by
  obtain ⟨b, hb, hi⟩ := h
  have := hf.small b hb
  unfold Func.blockInsts at hi
  rw [List.mem_range'_1] at hi
  omega

/-- Where the moves of an edge go. -/
theorem edge_point {x : Env} {a c p : Nat} {t : Bool} (h : Cfg.chooseMoveLocation x.f a c = some (p, t)) :
    (t = true ∧ p = ptBefore (x.f.lastInst a) ∧ 1 < Cfg.inEdges x.f c ∧ (x.f.succs a).length ≤ 1) ∨
    (t = false ∧ p = entryPt x.f c ∧ Cfg.inEdges x.f c ≤ 1) := by
  unfold Cfg.chooseMoveLocation at h
  have hle : (x.f.succs a).length ≤ (x.f.succs a).length + (if x.f.isRet (x.f.lastInst a) then 1 else 0) := Nat.le_add_right _ _
  revert h hle
  generalize (x.f.succs a).length + (if x.f.isRet (x.f.lastInst a) then 1 else 0) = outs
  intro h hle
  dsimp only at h
  split at h
  · rename_i h1
    cases h
    exact .inl ⟨rfl, rfl, h1.1, Nat.le_trans hle h1.2⟩
  · split at h
    · rename_i h2
      cases h
      exact .inr ⟨rfl, rfl, h2⟩
    · cases h

/-- Where the moves of an edge go determines the edge. -/
theorem edge_unique {x : Env} (hf : FuncOk x) {a c a' c' p : Nat} {t : Bool} (ha : c < x.f.numBlocks) (ha' : c' < x.f.numBlocks)
    (hp : a ∈ x.f.preds c) (hp' : a' ∈ x.f.preds c') (h : Cfg.chooseMoveLocation x.f a c = some (p, t))
    (h' : Cfg.chooseMoveLocation x.f a' c' = some (p, t)) : a = a' ∧ c = c' := by
  have hb := hf.edges.predLt a c ha hp
  have hb' := hf.edges.predLt a' c' ha' hp'
  have hs := (hf.edges.iff a c hb ha).mp hp
  have hs' := (hf.edges.iff a' c' hb' ha').mp hp'
  have one : ∀ {l : List Nat} {y z : Nat}, l.length ≤ 1 → y ∈ l → z ∈ l → y = z := by
    intro l y z hl hy hz
    match l, hl with
    | [w], _ => rw [List.mem_singleton.mp hy, List.mem_singleton.mp hz]
    | [], _ => cases hy
  rcases edge_point h with ⟨h1, h2, h3, h4⟩ | ⟨h1, h2, h3⟩ <;> rcases edge_point h' with ⟨g1, g2, g3, g4⟩ | ⟨g1, g2, g3⟩
  · have e1 : a = a' := by
      apply exit_inj hf hb hb'
      show 2 * _ + 1 = 2 * _ + 1
      have : 2 * x.f.lastInst a = 2 * x.f.lastInst a' := h2.symm.trans g2
      omega
    subst e1
    exact ⟨rfl, one h4 hs hs'⟩
  · rw [h1] at g1; cases g1
  · rw [h1] at g1; cases g1
  · have e1 : c = c' := entry_inj hf ha ha' (h2.symm.trans g2)
    subst e1
    unfold Cfg.inEdges at h3
    exact ⟨one (by omega) hp hp', rfl⟩

section
variable {x : Env} {e : ResolveMoves.MoveEnv} {num : Nat} (hf : FuncOk x) (hv : Valid x e num)
include hf hv

/-- A range that starts after an instruction starts at a definition. -/
theorem odd_start {v : Nat} {r : FRange} (hr : r ∈ x.ranges v) (h : r.range.fr % 2 = 1) : DefAt x.f v r.range.fr := by
  rw [← hv.marked v r hr]
  cases hs : r.startsAtDef with
  | true => rfl
  | false =>
    rcases hv.begins v r hr hs with ⟨b, _, h1⟩ | ⟨h1, _⟩
    · rw [h1] at h
      have h : 2 * (x.f.insns b).1 % 2 = 1 := h
      omega
    · omega

/-- Registers an instruction uses are not defined by it. -/
theorem not_def_of_use {i k : Nat} {o : Op} (ho : OpAt x.f i k o) (hk : o.kind = .Use) {p : Nat} (hp : p / 2 = i) :
    ¬ DefAt x.f o.vreg.vreg p := by
  rintro ⟨b, hb, i', hi', o', ho', h1, h2, h3, h4⟩
  have : i' = i := by rw [← hp, h4, defPoint_div]
  subst this
  obtain ⟨k', hk'⟩ := List.mem_iff_getElem?.mp ho'
  by_cases hkk : k' = k
  · subst hkk
    rw [ho.2.1] at hk'
    cases hk'
    rw [hk] at h2
    cases h2
  · have := hf.ready.once i' k' k o' o hk' ho.2.1 hkk h1 ho.2.2 h3
    rw [this] at h2
    cases h2

/-- A range at the end of an instruction that does not define the register is there before. -/
theorem has_before {v i : Nat} {r : FRange} (hr : r ∈ x.ranges v) (h : r.Has (ptAfter i)) (hd : ¬ DefAt x.f v (ptAfter i)) :
    r.Has (ptBefore i) := by
  have h1 : r.range.fr ≤ 2 * i + 1 := h.1
  have h2 : 2 * i + 1 < r.range.to := h.2
  have h3 : r.range.fr ≠ 2 * i + 1 := by
    intro h3
    have := odd_start hf hv hr (by omega)
    rw [h3] at this
    exact hd this
  exact ⟨show _ ≤ 2 * i by omega, show 2 * i < _ by omega⟩

theorem has_use {v i k : Nat} {o : Op} {r : FRange} (ho : OpAt x.f i k o) (hk : o.kind = .Use) (hov : o.vreg.vreg = v)
    (hr : r ∈ x.ranges v) (h : r.Has (Build.recordPoint x.f i o)) : r.Has (ptBefore i) := by
  rcases recordPoint_or x.f i o with h1 | h1
  · rw [h1] at h; exact h
  · rw [h1] at h
    exact has_before hf hv hr h (hov ▸ not_def_of_use hf hv ho hk (show (2 * i + 1) / 2 = i by omega))

variable {ms : List InsertedMove} {allocs al1 al2 : Nat → Nat → Allocation} {srcs psrcs : Nat → Nat → Option Allocation}
  {pdests : List PDest} (D : Done x ms allocs srcs psrcs pdests al1 al2)
include D

/-- The first location of an operand is that of a range. -/
theorem al1_op {i k : Nat} {o : Op} (ho : OpAt x.f i k o) : ∃ r ∈ x.ranges o.vreg.vreg, ∃ u ∈ r.uses, u.slot = k ∧
    u.pos = Build.recordPoint x.f i o ∧ r.Has (Build.recordPoint x.f i o) ∧ al1 i k = r.alloc := by
  rcases D.alloc1 i k with ⟨_, h1⟩ | ⟨v, r, hr, ⟨u, hu, h1, h2⟩, h3⟩
  · exfalso
    obtain ⟨r, hr, u, hu, h2, h3⟩ := hv.recorded i k o ho
    exact h1 ⟨_, r, hr, u, hu, by rw [h3, recordPoint_div], h2⟩
  · obtain ⟨h4, i', o', h5, h6, h7, _⟩ := hv.records v r hr u hu
    have : i' = i := by rw [← h1, h7, recordPoint_div]
    subst this
    rw [h2] at h5
    have := ho.eq h5
    subst this
    subst h6
    exact ⟨r, hr, u, hu, h2, h7, h7 ▸ h4, h3⟩

omit hf in
theorem al1_nonalloc {i k : Nat} {o : Op} {p : PReg} (hi : ∃ b, b < x.f.numBlocks ∧ i ∈ x.f.blockInsts b) (ho : (x.f.operands i)[k]? = some o)
    (hp : o.asFixedNonallocatable = some p) : al1 i k = Allocation.reg p := by
  obtain ⟨b, hb, hi⟩ := hi
  rcases D.alloc1 i k with ⟨h1, _⟩ | ⟨v, r, hr, ⟨u, hu, h1, h2⟩, h3⟩
  · rw [h1]
    exact (hv.nonalloc b hb i hi k o p ho hp).1
  · exfalso
    obtain ⟨h4, i', o', h5, h6, h7, _⟩ := hv.records v r hr u hu
    have : i' = i := by rw [← h1, h7, recordPoint_div]
    subst this
    rw [h2] at h5
    have := h5.2.1
    rw [ho] at this
    cases this
    have := h5.2.2
    rw [hp] at this
    cases this

omit hf D in
/-- The fixup of an operand belongs to its register. -/
theorem fixup_op {fx : Fixup} (hfx : fx ∈ x.fixups) {i : Nat} (hi : fx.pos = ptBefore i) : ∃ o o', OpAt x.f i fx.toSlot o ∧
    OpAt x.f i fx.fromSlot o' ∧ o.kind = .Use ∧ o.pos = .Early ∧ o'.kind = .Use ∧ o.vreg.vreg = fx.vreg ∧ o'.vreg.vreg = fx.vreg := by
  obtain ⟨i', o, o', h1, h2⟩ := (hv.fixups fx hfx).op
  have h3 : 2 * i = 2 * i' := hi.symm.trans h1
  have : i' = i := by omega
  subst this
  exact ⟨o, o', h2⟩

/-- The location of an operand before reused inputs are looked at. -/
theorem al2_op {i k : Nat} {o : Op} (ho : OpAt x.f i k o) :
    (∃ fx ∈ x.fixups, fx.pos = ptBefore i ∧ fx.toSlot = k ∧ al2 i k = Allocation.reg fx.preg ∧ fx.vreg = o.vreg.vreg ∧ o.kind = .Use ∧
      o.pos = .Early) ∨
    (∃ r ∈ x.ranges o.vreg.vreg, ∃ u ∈ r.uses, u.slot = k ∧ u.pos = Build.recordPoint x.f i o ∧ r.Has (Build.recordPoint x.f i o) ∧
      al2 i k = r.alloc) := by
  rcases D.alloc2 i k with ⟨fx, h1, h2, h3, h4⟩ | ⟨h1, h2⟩
  · obtain ⟨o1, o2, h5, _, h6, h7, _, h8, _⟩ := fixup_op hv h1 h2
    rw [h3] at h5
    have := ho.eq h5
    subst this
    exact .inl ⟨fx, h1, h2, h3, h4, h8.symm, h6, h7⟩
  · rw [h2]
    exact .inr (al1_op hf hv D ho)

/-- Definitions are not touched by fixups. -/
theorem al2_def {i k : Nat} {o : Op} (ho : OpAt x.f i k o) (hk : o.kind = .Def) :
    ∃ r ∈ x.ranges o.vreg.vreg, ∃ u ∈ r.uses, u.slot = k ∧ u.pos = Build.defPoint i o ∧ r.Has (Build.defPoint i o) ∧ al2 i k = r.alloc := by
  rcases al2_op hf hv D ho with ⟨_, _, _, _, _, _, h, _⟩ | h
  · rw [hk] at h; cases h
  · have : Build.recordPoint x.f i o = Build.defPoint i o := by unfold Build.recordPoint; rw [hk]
    rw [this] at h
    exact h

/-- Definitions keep their location. -/
theorem allocs_def {i k : Nat} {o : Op} (ho : OpAt x.f i k o) (hk : o.kind = .Def) : allocs i k = al2 i k := by
  rcases D.alloc3 i k with ⟨k', o', h1, h2, _⟩ | ⟨_, h1⟩
  · obtain ⟨_, _, o2, h3, h4, _⟩ := hf.reuse i k' k o' h1 h2
    have := ho.eq h3
    subst this
    rw [hk] at h4
    cases h4
  · exact h1

/-- The source of a fixup holds its register. -/
theorem fixSrc_val {fx : Fixup} (hfx : fx ∈ x.fixups) {s : Allocation} (hs : FixSrc x al1 fx s) :
    (∃ fy ∈ x.fixups, fx.level = .Secondary ∧ fy.level = .Initial ∧ fy.pos = fx.pos ∧ fy.vreg = fx.vreg ∧ s = Allocation.reg fy.preg) ∨
    ∃ r ∈ x.ranges fx.vreg, r.Has fx.pos ∧ s = r.alloc := by
  obtain ⟨i, _, _, hi, _⟩ := (hv.fixups fx hfx).op
  obtain ⟨o, o', h1, h2, h3, h4, h5, h6, h7⟩ := fixup_op hv hfx hi
  have hdiv : fx.pos / 2 = i := by rw [hi]; show 2 * i / 2 = i; omega
  rcases hs with ⟨fy, g1, g2, g3, g4, g5, g6⟩ | ⟨_, g1⟩
  · refine .inl ⟨fy, g1, g2, g3, g4, ?_, g6⟩
    obtain ⟨q, q', k1, _, _, _, _, k2, _⟩ := fixup_op hv g1 (g4.trans hi)
    rw [g5] at k1
    have := h2.eq k1
    subst this
    rw [← k2, h7]
  · right
    obtain ⟨r, k1, u, k2, k3, k4, k5, k6⟩ := al1_op hf hv D h2
    rw [h7] at k1
    refine ⟨r, k1, ?_, by rw [g1, hdiv, k6]⟩
    rw [hi]
    exact has_use hf hv h2 h5 h7 k1 k5

omit hf hv D in
/-- A place where a value of class `c` may be. -/
def Loc (x : Env) (e : ResolveMoves.MoveEnv) (c : Option RegClass) (a : Allocation) : Prop :=
  (∃ v, ∃ r ∈ x.ranges v, r.alloc = a ∧ (x.vreg v).class? = c) ∨
  (∃ p, a = Allocation.reg p ∧ p.class? = c ∧ ∀ c, e.machine.scratch c ≠ some p)

omit hf D in
theorem Loc.facts {c : Option RegClass} {a : Allocation} (h : Loc x e c a) : ResolveMoves.Real a ∧ (∀ p, a = Allocation.reg p → p.class? = c) ∧
    (∀ c p, e.machine.scratch c = some p → a ≠ Allocation.reg p) ∧ ∀ s, a.asStack = some s → s.index < num := by
  have hreg : ∀ p, p.class? = c → (∀ c, e.machine.scratch c ≠ some p) → ResolveMoves.Real (Allocation.reg p) ∧
      (∀ p', Allocation.reg p = Allocation.reg p' → p'.class? = c) ∧
      (∀ c p', e.machine.scratch c = some p' → Allocation.reg p ≠ Allocation.reg p') ∧
      ∀ s, (Allocation.reg p).asStack = some s → s.index < num := by
    intro p hp hs
    refine ⟨.inr ⟨p, rfl⟩, ?_, ?_, ?_⟩
    · intro p' h
      rw [← Fast.reg_inj h]
      exact hp
    · intro c p' h1 h2
      rw [← Fast.reg_inj h2] at h1
      exact hs c h1
    · intro s h
      rw [(C05_alloc_reg p).2.2.1] at h
      cases h
  rcases h with ⟨v, r, hr, rfl, rfl⟩ | ⟨p, rfl, hp, hs⟩
  · rcases hv.location v r hr with ⟨p, h1, h2, h3, _⟩ | ⟨s, h1, h2, h3⟩
    · rw [h1]
      exact hreg p h2 h3
    · refine ⟨?_, ?_, ?_, ?_⟩
      · left
        unfold Allocation.isStack
        unfold Allocation.asStack at h2
        split at h2
        · rename_i h4; rw [h4]; rfl
        · cases h2
      · intro p h
        rw [h, (C05_alloc_reg p).2.1] at h1
        cases h1
      · intro c p _ h
        rw [h, (C05_alloc_reg p).2.1] at h1
        cases h1
      · intro s' h
        rw [h2] at h
        cases h
        exact h3
  · exact hreg p hp hs

omit hf D in
theorem Loc.class_eq {c c' : Option RegClass} {a : Allocation} (h : Loc x e c a) (h' : Loc x e c' a) : c = c' := by
  have h1 := (Loc.facts hv h).2.1
  have h2 := (Loc.facts hv h').2.1
  rcases h with ⟨v, r, hr, h3, rfl⟩ | ⟨p, h3, h4, _⟩
  · rcases h' with ⟨v', r', hr', h5, rfl⟩ | ⟨p', h5, h6, _⟩
    · exact hv.class_same v v' r hr r' hr' (h3.trans h5.symm)
    · rw [← h6]
      exact (h1 p' h5).symm
  · rw [← h4]
    exact h2 p h3

omit hf hv D in
/-- A move between places for the class of its register. -/
def MoveOk (x : Env) (e : ResolveMoves.MoveEnv) (m : InsertedMove) : Prop :=
  m.vreg.class? ≠ none ∧ Loc x e m.vreg.class? m.src ∧ Loc x e m.vreg.class? m.dst

/-- A move on an edge: from `a` to `c`, for register `w` into range `r`. -/
structure EdgeFact (x : Env) (srcs psrcs : Nat → Nat → Option Allocation) (m : InsertedMove) (a c w : Nat) (r : FRange) : Prop where
  to_lt : c < x.f.numBlocks
  pred : a ∈ x.f.preds c
  range : r ∈ x.ranges w
  has : r.Has (entryPt x.f c)
  dst : m.dst = r.alloc
  vreg : m.vreg = x.vreg w
  src : (w ∈ (x.f.params c).map VReg.vreg ∧ psrcs a w = some m.src) ∨ (x.liveIn c w = true ∧ srcs w a = some m.src)
  place : ∃ p t, Cfg.chooseMoveLocation x.f a c = some (p, t) ∧
    m.pp = ⟨(if t then InsertMovePrio.OutEdgeMoves else .InEdgeMoves).toU32, pnt p⟩

/-- All moves, by kind. -/
theorem move_kinds {m : InsertedMove} (hm : m ∈ ms) :
    (∃ a c w r, EdgeFact x srcs psrcs m a c w r) ∨ (∃ v, ∃ r ∈ x.ranges v, RegMove x v r m) ∨
    (∃ fx ∈ x.fixups, FixMove x al1 fx m) ∨ ∃ i, ReuseMove x al2 i m := by
  rcases (D.moves m).mp hm with h | ⟨v, r, hr, d, s, ⟨h1, h2, h3, h4, h5, h6⟩, h7, _, p, t, h9, h10⟩ | ⟨d, hd, s, h1, _, p, t, h2, h3⟩ | h | h
  · exact .inr (.inl h)
  · refine .inl ⟨d.fromBlock, d.toBlock, v, r, h1, h4, hr, h2, ?_, ?_, .inr ⟨h3, ?_⟩, p, t, h9, ?_⟩
    · rw [h10]; exact h6
    · rw [h10]
    · rw [h10]; exact h7
    · rw [h10]
  · obtain ⟨v, r, hr, i, hi, h4, rfl, h6⟩ := D.pdestOk d hd
    obtain ⟨b, g1, g2, g3, g4⟩ := (hv.ins i).mp hi
    subst g2
    subst h4
    refine .inl ⟨i.fromBlock, i.toBlock, i.toVreg, r, g1, g3, hr, h6, ?_, ?_, .inl ⟨g4, ?_⟩, p, t, h2, ?_⟩
    · rw [h3]
    · rw [h3]
    · rw [h3]; exact h1
    · rw [h3]
  · exact .inr (.inr (.inl h))
  · exact .inr (.inr (.inr h))

/-- The source of a move on an edge. -/
theorem psrc_val {a c w : Nat} (hc : c < x.f.numBlocks) (hp : a ∈ x.f.preds c) (hw : w ∈ (x.f.params c).map VReg.vreg) {s : Allocation}
    (h : psrcs a w = some s) : ∃ v, ∃ r ∈ x.ranges v, r.Has (exitPt x.f a) ∧ s = r.alloc ∧
      ∃ k : Nat, (x.f.succs a)[k]? = some c ∧ (x.vreg w, x.vreg v) ∈ (x.f.params c).zip (x.f.args a (x.f.lastInst a) k) := by
  obtain ⟨v, r, hr, h1, h2, h3, o, ho, h4, h5, h6⟩ := D.psrcOk a w s h
  obtain ⟨k, h7, m, hm, h8, h9⟩ := hv.outs o ho
  subst h4 h5 h6
  have hm1 := (List.of_mem_zip hm).1
  have hm2 := (List.of_mem_zip hm).2
  have e1 := (hf.named_params _ _ hm1).1
  have e2 := hf.named_args _ _ _ hm2
  rw [h8] at e1
  rw [h9] at e2
  have hcc : o.toBlock = c := hf.params_once o.toBlock c o.toVreg (List.mem_map.mpr ⟨m.1, hm1, h8⟩) hw
  refine ⟨o.fromVreg, r, hr, h2, h3, k, hcc ▸ h7, ?_⟩
  rw [← e1, ← e2, ← hcc]
  exact hm

theorem EdgeFact.ok {m : InsertedMove} {a c w : Nat} {r : FRange} (E : EdgeFact x srcs psrcs m a c w r) : MoveOk x e m := by
  refine ⟨?_, ?_, ?_⟩
  · rw [E.vreg]; exact hv.class_known w r E.range
  · rcases E.src with ⟨h1, h2⟩ | ⟨h1, h2⟩
    · obtain ⟨v, r', h3, h4, h5, k, h6, h7⟩ := psrc_val hf hv D E.to_lt E.pred h1 h2
      refine .inl ⟨v, r', h3, h5.symm, ?_⟩
      rw [E.vreg]
      exact (hf.args_class a k c h6 _ h7).symm
    · obtain ⟨r', h3, h4, h5, h6⟩ := D.srcOk w a _ h2
      exact .inl ⟨w, r', h3, h6.symm, by rw [E.vreg]⟩
  · exact .inl ⟨w, r, E.range, E.dst.symm, by rw [E.vreg]⟩

theorem move_ok {m : InsertedMove} (hm : m ∈ ms) : MoveOk x e m := by
  rcases move_kinds hf hv D hm with ⟨a, c, w, r, E⟩ | ⟨v, r, hr, q, h1, _, _, _, _, _, rfl⟩ | ⟨fx, hfx, s, h1, _, rfl⟩ |
      ⟨i, k, j, o, o', ho, hc, ho', _, rfl⟩
  · exact E.ok hf hv D
  · exact ⟨hv.class_known v r hr, .inl ⟨v, q, (prevOf_spec h1).1, rfl, rfl⟩, .inl ⟨v, r, hr, rfl, rfl⟩⟩
  · refine ⟨?_, ?_, .inr ⟨fx.preg, rfl, (hv.fixups fx hfx).cls, (hv.fixups fx hfx).scratch⟩⟩
    · obtain ⟨i, o, o', h2, h3, h4, h5, h6, h7, h8, h9⟩ := (hv.fixups fx hfx).op
      obtain ⟨r, k1, _⟩ := al1_op hf hv D h3
      rw [h8] at k1
      exact hv.class_known _ r k1
    · rcases fixSrc_val hf hv D hfx h1 with ⟨fy, h2, _, _, _, h3, rfl⟩ | ⟨r, h2, _, rfl⟩
      · refine .inr ⟨fy.preg, rfl, ?_, (hv.fixups fy h2).scratch⟩
        rw [(hv.fixups fy h2).cls, h3]
      · exact .inl ⟨_, r, h2, rfl, rfl⟩
  · obtain ⟨h1, h2, o2, h3, h4, h5, h6⟩ := hf.reuse i k j o ho hc
    have := ho'.eq h3
    subst this
    have hn := hf.named i o' (List.mem_of_getElem? ho'.2.1) ho'.2.2
    have hn2 := hf.named i o (List.mem_of_getElem? ho.2.1) ho.2.2
    refine ⟨?_, ?_, ?_⟩
    · obtain ⟨r, k1, _⟩ := al1_op hf hv D ho'
      have := hv.class_known _ r k1
      rw [← hn.1] at this
      exact this
    · rcases al2_op hf hv D ho' with ⟨fx, g1, _, _, g2, g3, _⟩ | ⟨r, g1, _, _, _, _, _, g2⟩
      · refine .inr ⟨fx.preg, g2, ?_, (hv.fixups fx g1).scratch⟩
        rw [(hv.fixups fx g1).cls, g3, ← hn.1]
      · exact .inl ⟨_, r, g1, g2.symm, by rw [← hn.1]⟩
    · obtain ⟨r, g1, _, _, _, _, _, g2⟩ := al2_def hf hv D ho h1
      exact .inl ⟨_, r, g1, g2.symm, by rw [← hn2.1]; exact h6.symm⟩

omit D in
theorem regMove_point {v : Nat} {r : FRange} (hr : r ∈ x.ranges v) : r.range.fr < 2 ^ 32 := by
  obtain ⟨b, hb, h⟩ := hv.inside v r hr
  have := hf.small b hb
  have h : r.range.fr < 2 * (x.f.insns b).2 := h.2
  omega

omit hv D in
theorem edge_small {a c p : Nat} {t : Bool} (hc : c < x.f.numBlocks) (ha : a ∈ x.f.preds c)
    (h : Cfg.chooseMoveLocation x.f a c = some (p, t)) : p < 2 ^ 32 := by
  have hb := hf.edges.predLt a c hc ha
  rcases edge_point h with ⟨_, h1, _⟩ | ⟨_, h1, _⟩
  · have := hf.small a hb
    have := (lastInst_eq hf hb).1
    have h1 : p = 2 * x.f.lastInst a := h1
    omega
  · have := hf.small c hc
    have := hf.ready.nonempty c hc
    have h1 : p = 2 * (x.f.insns c).1 := h1
    omega

omit hf D in
/-- Two ranges at one point with the same location belong to one register. -/
theorem same_reg {v v' p : Nat} {r r' : FRange} (hr : r ∈ x.ranges v) (hr' : r' ∈ x.ranges v') (h : r.Has p) (h' : r'.Has p)
    (ha : r.alloc = r'.alloc) : v = v' := by
  by_cases hvv : v = v'
  · exact hvv
  · exact absurd ha (hv.apart v v' p hvv r hr r' hr' h h')

theorem moves_writers {m m' : InsertedMove} (hm : m ∈ ms) (hm' : m' ∈ ms) (hpp : m.pp = m'.pp) (hd : m.dst = m'.dst) :
    m.src = m'.src ∧ m.vreg = m'.vreg := by
  have fixprio : ∀ l : Level, l.prio.toU32 = 2 ∨ l.prio.toU32 = 3 := by intro l; cases l <;> simp [Level.prio, InsertMovePrio.toU32]
  have edgeprio : ∀ t : Bool, (if t then InsertMovePrio.OutEdgeMoves else .InEdgeMoves).toU32 = 0 ∨
    (if t then InsertMovePrio.OutEdgeMoves else .InEdgeMoves).toU32 = 5 := by intro t; cases t <;> simp [InsertMovePrio.toU32]
  have k : ∀ {m : InsertedMove}, m ∈ ms → ((m.pp.prio = 0 ∨ m.pp.prio = 5) ∧ (∃ a c w r, EdgeFact x srcs psrcs m a c w r)) ∨
      (m.pp.prio = 1 ∧ ∃ v, ∃ r ∈ x.ranges v, RegMove x v r m) ∨
      ((m.pp.prio = 2 ∨ m.pp.prio = 3) ∧ ∃ fx ∈ x.fixups, FixMove x al1 fx m) ∨ (m.pp.prio = 4 ∧ ∃ i, ReuseMove x al2 i m) := by
    intro m hm
    rcases move_kinds hf hv D hm with ⟨a, c, w, r, E⟩ | ⟨v, r, hr, h⟩ | ⟨fx, hfx, h⟩ | ⟨i, h⟩
    · refine .inl ⟨?_, a, c, w, r, E⟩
      obtain ⟨p, t, _, h⟩ := E.place
      rw [h]; exact edgeprio t
    · refine .inr (.inl ⟨?_, v, r, hr, h⟩)
      obtain ⟨q, _, _, _, _, _, _, rfl⟩ := h
      rfl
    · refine .inr (.inr (.inl ⟨?_, fx, hfx, h⟩))
      obtain ⟨s, _, _, rfl⟩ := h
      exact fixprio _
    · refine .inr (.inr (.inr ⟨?_, i, h⟩))
      obtain ⟨_, _, _, _, _, _, _, _, rfl⟩ := h
      rfl
  have hprio : m.pp.prio = m'.pp.prio := by rw [hpp]
  rcases k hm with ⟨hp, a, c, w, r, E⟩ | ⟨hp, v, r, hr, R⟩ | ⟨hp, fx, hfx, F⟩ | ⟨hp, i, U⟩
  · rcases k hm' with ⟨hp', a', c', w', r', E'⟩ | ⟨hp', _⟩ | ⟨hp', _⟩ | ⟨hp', _⟩
    · obtain ⟨p, t, h1, h2⟩ := E.place
      obtain ⟨p', t', h1', h2'⟩ := E'.place
      rw [hpp, h2'] at h2
      have ht : t = t' := by
        cases t <;> cases t' <;> simp [InsertMovePrio.toU32] at h2 <;> rfl
      subst ht
      have hpt : p' = p := by
        have h3 : pnt p' = pnt p := (PosWithPrio.mk.inj h2).2
        exact pnt_inj (edge_small hf E'.to_lt E'.pred h1') (edge_small hf E.to_lt E.pred h1) h3
      subst hpt
      obtain ⟨rfl, rfl⟩ := edge_unique hf E.to_lt E'.to_lt E.pred E'.pred h1 h1'
      have hw : w = w' := same_reg hv E.range E'.range E.has E'.has (E.dst.symm.trans (hd.trans E'.dst))
      subst hw
      refine ⟨?_, by rw [E.vreg, E'.vreg]⟩
      rcases E.src with ⟨g1, g2⟩ | ⟨g1, g2⟩ <;> rcases E'.src with ⟨g3, g4⟩ | ⟨g3, g4⟩
      · rw [g2] at g4; exact Option.some.inj g4
      · exact absurd g1 (hv.live_param c w E.to_lt (range_lt hv E.range) g3)
      · exact absurd g3 (hv.live_param c w E.to_lt (range_lt hv E.range) g1)
      · rw [g2] at g4; exact Option.some.inj g4
    all_goals (exfalso; rw [hprio] at hp; revert hp hp'; generalize m'.pp.prio = z; rintro (rfl | rfl) h <;> simp at h)
  · rcases k hm' with ⟨hp', _⟩ | ⟨hp', v', r', hr', R'⟩ | ⟨hp', _⟩ | ⟨hp', _⟩
    on_goal 2 =>
      obtain ⟨q, h1, h2, h3, h4, h5, h6, rfl⟩ := R
      obtain ⟨q', h1', h2', h3', h4', h5', h6', rfl⟩ := R'
      have hpt : r.range.fr = r'.range.fr :=
        pnt_inj (regMove_point hf hv hr) (regMove_point hf hv hr') (PosWithPrio.mk.inj hpp).2
      have hvv : v = v' := same_reg hv hr hr' (p := r.range.fr) ⟨Nat.le_refl _, hv.nonempty v r hr⟩
        ⟨by rw [hpt]; exact Nat.le_refl _, by rw [hpt]; exact hv.nonempty v' r' hr'⟩ hd
      subst hvv
      rw [hpt, h1'] at h1
      cases h1
      exact ⟨rfl, rfl⟩
    all_goals (exfalso; rw [hprio] at hp; revert hp hp'; generalize m'.pp.prio = z; rintro rfl h; simp at h)
  · rcases k hm' with ⟨hp', _⟩ | ⟨hp', _⟩ | ⟨hp', fx', hfx', F'⟩ | ⟨hp', _⟩
    on_goal 3 =>
      obtain ⟨s, h1, _, rfl⟩ := F
      obtain ⟨s', h1', _, rfl⟩ := F'
      have hpos : fx.pos = fx'.pos := by
        obtain ⟨i, o, _, g1, g2, _⟩ := (hv.fixups fx hfx).op
        obtain ⟨i', o', _, g1', g2', _⟩ := (hv.fixups fx' hfx').op
        have := inst_small hf g2.1
        have := inst_small hf g2'.1
        have g1 : fx.pos = 2 * i := g1
        have g1' : fx'.pos = 2 * i' := g1'
        exact pnt_inj (by omega) (by omega) (PosWithPrio.mk.inj hpp).2
      have hff := hv.fixups_regs fx hfx fx' hfx' hpos (Fast.reg_inj hd)
      subst hff
      refine ⟨?_, rfl⟩
      rcases h1 with ⟨fy, a1, a2, a3, a4, a5, rfl⟩ | ⟨a1, rfl⟩ <;> rcases h1' with ⟨fy', b1, b2, b3, b4, b5, rfl⟩ | ⟨b1, rfl⟩
      · have : fy = fy' := by
          by_contra hne
          exact pairwise_of_ne hv.fixups_slots (fun a b h hp hs => h hp.symm hs.symm) a1 b1 hne (a4.trans b4.symm) (a5.trans b5.symm)
        rw [this]
      · exact absurd ⟨fy, a1, a2, a3, a4, a5⟩ b1
      · exact absurd ⟨fy', b1, b2, b3, b4, b5⟩ a1
      · rfl
    all_goals (exfalso; rw [hprio] at hp; revert hp hp'; generalize m'.pp.prio = z; rintro (rfl | rfl) h <;> simp at h)
  · rcases k hm' with ⟨hp', _⟩ | ⟨hp', _⟩ | ⟨hp', _⟩ | ⟨hp', i', U'⟩
    on_goal 4 =>
      obtain ⟨k, j, o, o', h1, h2, h3, h4, rfl⟩ := U
      obtain ⟨k', j', q, q', h1', h2', h3', h4', rfl⟩ := U'
      have hii : i = i' := by
        have := inst_small hf h1.1
        have := inst_small hf h1'.1
        have : 2 * i = 2 * i' := pnt_inj (by show 2 * i < _; omega) (by show 2 * i' < _; omega) (PosWithPrio.mk.inj hpp).2
        omega
      subst hii
      have hkk := hf.reuse_one i k k' j j' o q h1 h1' h2 h2'
      subst hkk
      have := h1.eq h1'
      subst this
      rw [h2] at h2'
      cases h2'
      have := h3.eq h3'
      subst this
      exact ⟨rfl, rfl⟩
    all_goals (exfalso; rw [hprio] at hp; revert hp hp'; generalize m'.pp.prio = z; rintro rfl h; simp at h)

/-- The moves of one point and priority can be resolved together. -/
theorem moves_groupOk (pp : PosWithPrio) : GroupOk e num (ms.filter (fun m => decide (m.pp = pp))) := by
  have hm : ∀ {m}, m ∈ ms.filter (fun m => decide (m.pp = pp)) → m ∈ ms ∧ m.pp = pp := by
    intro m h
    obtain ⟨h1, h2⟩ := List.mem_filter.mp h
    exact ⟨h1, by simpa using h2⟩
  have ht : ∀ {a}, Touches (ms.filter (fun m => decide (m.pp = pp))) a → ∃ c, Loc x e c a := by
    rintro a ⟨m, h1, h2⟩
    obtain ⟨_, h3, h4⟩ := move_ok hf hv D (hm h1).1
    rcases h2 with rfl | rfl
    · exact ⟨_, h3⟩
    · exact ⟨_, h4⟩
  constructor
  · intro m h m' h' hd
    exact moves_writers hf hv D (hm h).1 (hm h').1 ((hm h).2.trans (hm h').2.symm) hd
  · intro a h
    obtain ⟨c, h⟩ := ht h
    exact (Loc.facts hv h).1
  · intro m h
    obtain ⟨h1, h2, h3⟩ := move_ok hf hv D (hm h).1
    refine ⟨h1, ?_⟩
    rintro p (h | h)
    · exact (Loc.facts hv h2).2.1 p h
    · exact (Loc.facts hv h3).2.1 p h
  · intro c p h1 h2
    obtain ⟨c', h2⟩ := ht h2
    exact (Loc.facts hv h2).2.2.1 c p h1 rfl
  · intro a s h1 h2
    obtain ⟨c', h1⟩ := ht h1
    exact (Loc.facts hv h1).2.2.2 s h2
  · intro m h m' h' hne
    obtain ⟨_, h2, h3⟩ := move_ok hf hv D (hm h).1
    obtain ⟨_, h2', h3'⟩ := move_ok hf hv D (hm h').1
    refine ⟨fun he => ?_, fun he => ?_⟩
    · rw [he] at h2
      exact hne (Loc.class_eq hv h2 h3')
    · rw [he] at h3
      exact hne (Loc.class_eq hv h3 h3')
end

end Regalloc.Apply
