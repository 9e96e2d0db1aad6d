import Verif.Proofs.ApplyExec

/-
The moves of one point bring every value to where its range wants it.
-/
namespace Regalloc.Apply

open Exec ResolveMoves

variable {Val : Type}

section
variable {x : Env} {e : ResolveMoves.MoveEnv} {num : Nat} (hf : FuncOk x) (hv : Valid x e num)
include hf hv

omit hf in
/-- The location of a range is not spare at its points. -/
theorem not_spare_range {v q : Nat} {r : FRange} (hr : r ∈ x.ranges v) (h : r.Has q) (g : List InsertedMove) : ¬ Spare e num q g r.alloc := by
  rintro (⟨c, p, h1, h2⟩ | ⟨c, p, _, h2, h3, _⟩ | ⟨s, h2, h3⟩)
  · rcases hv.location v r hr with ⟨p', g1, _, g2, _⟩ | ⟨s, g1, _⟩
    · rw [g1] at h2
      have := Fast.reg_inj h2
      subst this
      exact g2 c h1
    · rw [h2, (C05_alloc_reg p).2.1] at g1
      cases g1
  · rcases hv.location v r hr with ⟨p', g1, _, _, g2⟩ | ⟨s, g1, _⟩
    · rw [g1] at h2
      have := Fast.reg_inj h2
      subst this
      obtain ⟨m, hm, hc⟩ := g2 q h
      exact h3 m hm hc
    · rw [h2, (C05_alloc_reg p).2.1] at g1
      cases g1
  · rcases hv.location v r hr with ⟨p', g1, _⟩ | ⟨s', _, g1, g2⟩
    · rw [g1, (C05_alloc_reg p').2.2.1] at h2
      cases h2
    · rw [g1] at h2
      cases h2
      omega

omit hf in
/-- Nor is the register of a fixup. -/
theorem not_spare_fix {fx : Fixup} (hfx : fx ∈ x.fixups) (g : List InsertedMove) : ¬ Spare e num fx.pos g (Allocation.reg fx.preg) := by
  have F := hv.fixups fx hfx
  rintro (⟨c, p, h1, h2⟩ | ⟨c, p, _, h2, h3, _⟩ | ⟨s, h2, h3⟩)
  · have := Fast.reg_inj h2
    rw [← this] at h1
    exact F.scratch c h1
  · have := Fast.reg_inj h2
    obtain ⟨m, hm, hc⟩ := F.recorded
    rw [this] at hm
    exact h3 m hm hc
  · rw [(C05_alloc_reg fx.preg).2.2.1] at h2
    cases h2

theorem start_iff {b i : Nat} (hb : b < x.f.numBlocks) (hi : i ∈ x.f.blockInsts b) : isStart x (2 * i) = true ↔ i = (x.f.insns b).1 := by
  unfold Func.blockInsts at hi
  rw [List.mem_range'_1] at hi
  have h1 := (hv.blocks b hb i).mpr ⟨hi.1, by omega⟩
  unfold isStart
  rw [show 2 * i / 2 = i by omega, h1, decide_eq_true_iff]
  show 2 * _ = 2 * i ↔ _
  omega

variable {ms : List InsertedMove} {allocs al1 al2 : Nat → Nat → Allocation} {srcs psrcs : Nat → Nat → Option Allocation}
  {pdests : List PDest} (D : Done x ms allocs srcs psrcs pdests al1 al2)
include D

/-- The kinds of moves, with their priorities. -/
theorem move_prio {m : InsertedMove} (hm : m ∈ ms) :
    ((m.pp.prio = 0 ∨ m.pp.prio = 5) ∧ (∃ a c w r, EdgeFact x srcs psrcs m a c w r)) ∨
      (m.pp.prio = 1 ∧ ∃ v, ∃ r ∈ x.ranges v, RegMove x v r m) ∨
      ((m.pp.prio = 2 ∨ m.pp.prio = 3) ∧ ∃ fx ∈ x.fixups, FixMove x al1 fx m) ∨ (m.pp.prio = 4 ∧ ∃ i, ReuseMove x al2 i m) := by
  have fixprio : ∀ l : Level, l.prio.toU32 = 2 ∨ l.prio.toU32 = 3 := by intro l; cases l <;> simp [Level.prio, InsertMovePrio.toU32]
  have edgeprio : ∀ t : Bool, (if t then InsertMovePrio.OutEdgeMoves else .InEdgeMoves).toU32 = 0 ∨
    (if t then InsertMovePrio.OutEdgeMoves else .InEdgeMoves).toU32 = 5 := by intro t; cases t <;> simp [InsertMovePrio.toU32]
  rcases move_kinds hf hv D hm with ⟨a, c, w, r, E⟩ | ⟨v, r, hr, h⟩ | ⟨fx, hfx, h⟩ | ⟨i, h⟩
  · refine .inl ⟨?_, a, c, w, r, E⟩
    obtain ⟨p, t, _, h⟩ := E.place
    rw [h]; exact edgeprio t
  · refine .inr (.inl ⟨?_, v, r, hr, h⟩)
    obtain ⟨q, _, _, _, _, _, _, rfl⟩ := h
    rfl
  · refine .inr (.inr (.inl ⟨?_, fx, hfx, h⟩))
    obtain ⟨s, _, _, rfl⟩ := h
    exact fixprio fx.level
  · refine .inr (.inr (.inr ⟨?_, i, h⟩))
    obtain ⟨k, j, o, o', _, _, _, _, rfl⟩ := h
    rfl

theorem prio_lt {m : InsertedMove} (hm : m ∈ ms) : m.pp.prio.toNat < 6 := by
  rcases move_prio hf hv D hm with ⟨h | h, _⟩ | ⟨h, _⟩ | ⟨h | h, _⟩ | ⟨h, _⟩ <;> rw [h] <;> decide

/-- Moves at a point with a given priority. -/
theorem regular_at {m : InsertedMove} (hm : m ∈ ms) {q : Nat} (h : m.pp = ⟨InsertMovePrio.Regular.toU32, pnt q⟩) :
    ∃ v, ∃ r ∈ x.ranges v, RegMove x v r m := by
  have h : m.pp.prio = 1 := by rw [h]; rfl
  rcases move_prio hf hv D hm with ⟨h' | h', _⟩ | ⟨_, g⟩ | ⟨h' | h', _⟩ | ⟨h', _⟩
  · rw [h] at h'; exact absurd h' (by decide)
  · rw [h] at h'; exact absurd h' (by decide)
  · exact g
  · rw [h] at h'; exact absurd h' (by decide)
  · rw [h] at h'; exact absurd h' (by decide)
  · rw [h] at h'; exact absurd h' (by decide)

theorem edge_at {m : InsertedMove} (hm : m ∈ ms) {t : Bool} {q : Nat}
    (h : m.pp = ⟨(if t then InsertMovePrio.OutEdgeMoves else .InEdgeMoves).toU32, pnt q⟩) (hq : q < 2 ^ 32) :
    ∃ a c w r, EdgeFact x srcs psrcs m a c w r ∧ Cfg.chooseMoveLocation x.f a c = some (q, t) := by
  have hp : m.pp.prio = 0 ∨ m.pp.prio = 5 := by rw [h]; cases t <;> simp [InsertMovePrio.toU32]
  have key : ∃ a c w r, EdgeFact x srcs psrcs m a c w r := by
    rcases move_prio hf hv D hm with ⟨_, g⟩ | ⟨h', _⟩ | ⟨h' | h', _⟩ | ⟨h', _⟩
    · exact g
    all_goals (rw [h'] at hp; exact absurd hp (by decide))
  obtain ⟨a, c, w, r, E⟩ := key
  obtain ⟨p, t', h1, h2⟩ := E.place
  rw [h] at h2
  simp only [PosWithPrio.mk.injEq] at h2
  have ht : t = t' := by
    have := h2.1
    revert this
    cases t <;> cases t' <;> decide
  subst ht
  have := pnt_inj hq (edge_small hf E.to_lt E.pred h1) h2.2
  subst this
  exact ⟨a, c, w, r, E, h1⟩

theorem fix_at {m : InsertedMove} (hm : m ∈ ms) {l : Level} {q : Nat} (h : m.pp = ⟨l.prio.toU32, pnt q⟩) (hq : q < 2 ^ 32) :
    ∃ fx ∈ x.fixups, fx.pos = q ∧ fx.level = l ∧ FixMove x al1 fx m := by
  have hp : m.pp.prio = 2 ∨ m.pp.prio = 3 := by rw [h]; cases l <;> simp [Level.prio, InsertMovePrio.toU32]
  have key : ∃ fx ∈ x.fixups, FixMove x al1 fx m := by
    rcases move_prio hf hv D hm with ⟨h' | h', _⟩ | ⟨h', _⟩ | ⟨_, g⟩ | ⟨h', _⟩
    · rw [h'] at hp; exact absurd hp (by decide)
    · rw [h'] at hp; exact absurd hp (by decide)
    · rw [h'] at hp; exact absurd hp (by decide)
    · exact g
    · rw [h'] at hp; exact absurd hp (by decide)
  obtain ⟨fx, hfx, F⟩ := key
  have F' := F
  obtain ⟨s, h1, h2, h3⟩ := F
  rw [h3] at h
  simp only [PosWithPrio.mk.injEq] at h
  obtain ⟨i, o, _, g1, g2, _⟩ := (hv.fixups fx hfx).op
  have hsm := inst_small hf g2.1
  have : fx.pos = q := pnt_inj (by rw [g1]; show 2 * i < _; omega) hq h.2
  refine ⟨fx, hfx, this, ?_, F'⟩
  have := h.1
  revert this
  cases fx.level <;> cases l <;> decide

theorem reuse_at {m : InsertedMove} (hm : m ∈ ms) {i : Nat} (hi : i < 2 ^ 30)
    (h : m.pp = ⟨InsertMovePrio.ReusedInput.toU32, pnt (2 * i)⟩) : ReuseMove x al2 i m := by
  have hp : m.pp.prio = 4 := by rw [h]; rfl
  have key : ∃ i, ReuseMove x al2 i m := by
    rcases move_prio hf hv D hm with ⟨h' | h', _⟩ | ⟨h', _⟩ | ⟨h' | h', _⟩ | ⟨_, g⟩
    · rw [h'] at hp; exact absurd hp (by decide)
    · rw [h'] at hp; exact absurd hp (by decide)
    · rw [h'] at hp; exact absurd hp (by decide)
    · rw [h'] at hp; exact absurd hp (by decide)
    · rw [h'] at hp; exact absurd hp (by decide)
    · exact g
  obtain ⟨i', R⟩ := key
  have R' := R
  obtain ⟨k, j, o, o', h1, h2, h3, h4, h5⟩ := R
  rw [h5] at h
  simp only [PosWithPrio.mk.injEq] at h
  have hsm := inst_small hf h1.1
  have := pnt_inj (show 2 * i' < _ by omega) (by omega) h.2
  have this : 2 * i' = 2 * i := this
  have : i' = i := by omega
  subst this
  exact R'

/-! ### Moves between the ranges of a register -/

/-- The ranges that contain a point hold their values, except if defined there. -/
def Held (x : Env) (q : Nat) (σ : Allocation → Val) (Q : Nat → Val → Prop) : Prop :=
  ∀ v, ∀ r ∈ x.ranges v, r.Has q → ¬ DefAt x.f v q → Q v (σ r.alloc)

theorem stage_regular {q : Nat} (hq : q < 2 ^ 32) (heven : q % 2 = 0) {σ σ' : Allocation → Val} {Q : Nat → Val → Prop}
    (h0 : ∀ v, ∀ r ∈ x.ranges v, r.range.fr < q → q ≤ r.range.to → (q < r.range.to ∨ isStart x q = false) → ¬ DefAt x.f v q →
      Q v (σ r.alloc))
    (h1 : ∀ v, ∀ r ∈ x.ranges v, r.range.fr = q → isStart x q = true → ¬ DefAt x.f v q →
      (¬ ∃ p ∈ x.ranges v, p.range.fr < q ∧ q < p.range.to) → Q v (σ r.alloc))
    (S : Stage e num ms .Regular q σ σ') : Held x q σ' Q := by
  intro v r hr hhas hnd
  by_cases hex : ∃ m ∈ ms, m.pp = ⟨InsertMovePrio.Regular.toU32, pnt q⟩ ∧ m.dst = r.alloc
  · obtain ⟨m, hm, hpp, hdst⟩ := hex
    rw [← hdst, S.moved m hm hpp]
    obtain ⟨v', r', hr', R⟩ := regular_at hf hv D hm hpp
    obtain ⟨q', g1, g2, g3, g4, g5, g6, rfl⟩ := R
    simp only [PosWithPrio.mk.injEq] at hpp
    have hfr : r'.range.fr = q := pnt_inj (regMove_point hf hv hr') hq hpp.2
    have hvv : v' = v := same_reg hv hr' hr (p := q) ⟨by omega, by have := hv.nonempty v' r' hr'; omega⟩ hhas hdst
    subst hvv
    obtain ⟨k1, k2, _⟩ := prevOf_spec g1
    rw [hfr] at k2 g2 g3
    exact h0 v' q' k1 k2 g2 g3 hnd
  · have hkeep : σ' r.alloc = σ r.alloc := S.kept r.alloc (fun m hm hpp hd => hex ⟨m, hm, hpp, hd⟩) (not_spare_range hv hr hhas _)
    rw [hkeep]
    rcases Nat.lt_or_ge r.range.fr q with hlt | hge
    · exact h0 v r hr hlt (Nat.le_of_lt hhas.2) (.inl hhas.2) hnd
    · have hfr : r.range.fr = q := Nat.le_antisymm hhas.1 hge
      have hsd : r.startsAtDef = false := by
        cases hs : r.startsAtDef with
        | false => rfl
        | true =>
          have := (hv.marked v r hr).mp hs
          rw [hfr] at this
          exact absurd this hnd
      by_cases hp : ∃ p ∈ x.ranges v, p.range.fr < q ∧ q ≤ p.range.to ∧ (q < p.range.to ∨ isStart x q = false)
      · obtain ⟨p, hp1, hp2, hp3, hp4⟩ := hp
        obtain ⟨q0, hq0⟩ := prevOf_exists hp1 (hfr ▸ hp2 : p.range.fr < r.range.fr)
        obtain ⟨k1, k2, k3⟩ := prevOf_spec hq0
        have k4 := k3 p hp1 (by omega)
        have k5 : q < q0.range.to ∨ isStart x q = false := by
          rcases hp4 with h | h
          · left; omega
          · exact .inr h
        have halloc : q0.alloc = r.alloc := by
          by_cases hne : q0.alloc = r.alloc
          · exact hne
          · exfalso
            apply hex
            refine ⟨⟨⟨InsertMovePrio.Regular.toU32, pnt r.range.fr⟩, q0.alloc, r.alloc, x.vreg v⟩, ?_, by rw [hfr], rfl⟩
            exact (D.moves _).mpr (.inl ⟨v, r, hr, q0, hq0, by omega, by rw [hfr]; exact k5, hsd, by omega, hne, rfl⟩)
        rw [← halloc]
        exact h0 v q0 k1 (by omega) (by omega) k5 hnd
      · have hno : ¬ ∃ p ∈ x.ranges v, p.range.fr < q ∧ q < p.range.to :=
          fun ⟨p, p1, p2, p3⟩ => hp ⟨p, p1, p2, Nat.le_of_lt p3, .inl p3⟩
        have hst : isStart x q = true := by
          rcases hv.begins v r hr hsd with ⟨b, hb, h2⟩ | ⟨_, p, p1, p2, p3⟩
          · have hi : (x.f.insns b).1 ∈ x.f.blockInsts b := by
              unfold Func.blockInsts
              rw [List.mem_range'_1]
              have := hf.ready.nonempty b hb
              omega
            rw [← hfr, h2]
            exact (start_iff hf hv hb hi).mpr rfl
          · cases hs : isStart x q with
            | true => rfl
            | false => exact absurd ⟨p, p1, by omega, by omega, .inr hs⟩ hp
        exact h1 v r hr hfr hst hnd hno

/-! ### Fixups -/

/-- The fixups of a level at a point have been done. -/
def Fixed (x : Env) (l : Level) (q : Nat) (σ : Allocation → Val) (Q : Nat → Val → Prop) : Prop :=
  ∀ fx ∈ x.fixups, fx.pos = q → fx.level = l → Q fx.vreg (σ (Allocation.reg fx.preg))

theorem stage_fix_held {l : Level} {q : Nat} (hq : q < 2 ^ 32) {σ σ' : Allocation → Val} {Q : Nat → Val → Prop} (h : Held x q σ Q)
    (S : Stage e num ms l.prio q σ σ') : Held x q σ' Q := by
  intro v r hr hhas hnd
  rw [S.kept r.alloc ?_ (not_spare_range hv hr hhas _)]
  · exact h v r hr hhas hnd
  · intro m hm hpp hd
    obtain ⟨fx, hfx, h1, _, s, _, _, rfl⟩ := fix_at hf hv D hm hpp hq
    exact (hv.fixups fx hfx).free v r hr (h1 ▸ hhas) hd.symm

theorem fix_undefined {fx : Fixup} (hfx : fx ∈ x.fixups) : ¬ DefAt x.f fx.vreg fx.pos := by
  obtain ⟨i, o, _, g1, g2, _, g3, _, _, g4, _⟩ := (hv.fixups fx hfx).op
  rw [← g4]
  exact not_def_of_use hf hv g2 g3 (by rw [g1]; show 2 * i / 2 = i; omega)

theorem fixSrc_exists (al : Nat → Nat → Allocation) (fx : Fixup) : ∃ s, FixSrc x al fx s := by
  by_cases h : ∃ fy ∈ x.fixups, fx.level = .Secondary ∧ fy.level = .Initial ∧ fy.pos = fx.pos ∧ fy.toSlot = fx.fromSlot
  · obtain ⟨fy, h1, h2, h3, h4, h5⟩ := h
    exact ⟨_, .inl ⟨fy, h1, h2, h3, h4, h5, rfl⟩⟩
  · exact ⟨_, .inr ⟨h, rfl⟩⟩

theorem stage_fixed {l : Level} {q : Nat} {σ σ' : Allocation → Val} {Q : Nat → Val → Prop} (h : Held x q σ Q)
    (hi : l = .Secondary → Fixed x .Initial q σ Q) (S : Stage e num ms l.prio q σ σ') : Fixed x l q σ' Q := by
  intro fx hfx hpos hl
  obtain ⟨s, hs⟩ := fixSrc_exists hf hv D al1 fx
  have hne : s ≠ Allocation.reg fx.preg := by
    intro hse
    rcases fixSrc_val hf hv D hfx hs with ⟨fy, g1, g2, g3, g4, g5, g6⟩ | ⟨r, g1, g2, g3⟩
    · rw [hse] at g6
      have := Fast.reg_inj g6
      have := hv.fixups_regs fx hfx fy g1 g4.symm this
      rw [this, g3] at g2
      cases g2
    · exact (hv.fixups fx hfx).free _ r g1 g2 (g3.symm.trans hse)
  have hm : (⟨⟨l.prio.toU32, pnt q⟩, s, Allocation.reg fx.preg, x.vreg fx.vreg⟩ : InsertedMove) ∈ ms := by
    refine (D.moves _).mpr (.inr (.inr (.inr (.inl ⟨fx, hfx, s, hs, hne, ?_⟩))))
    rw [hl, hpos]
  have := S.moved _ hm rfl
  dsimp only at this
  rw [this]
  rcases fixSrc_val hf hv D hfx hs with ⟨fy, g1, g2, g3, g4, g5, g6⟩ | ⟨r, g1, g2, g3⟩
  · rw [g6, ← g5]
    exact hi (hl.symm.trans g2) fy g1 (g4.trans hpos) g3
  · rw [g3]
    exact h _ r g1 (hpos ▸ g2) (hpos ▸ fix_undefined hf hv D hfx)

theorem stage_fixed_kept {q : Nat} (hq : q < 2 ^ 32) {σ σ' : Allocation → Val} {Q : Nat → Val → Prop} (h : Fixed x .Initial q σ Q)
    (S : Stage e num ms Level.Secondary.prio q σ σ') : Fixed x .Initial q σ' Q := by
  intro fx hfx hpos hl
  rw [S.kept _ ?_ (hpos ▸ not_spare_fix hv hfx _)]
  · exact h fx hfx hpos hl
  · intro m hm hpp hd
    obtain ⟨fy, hfy, h1, h2, s, _, _, rfl⟩ := fix_at hf hv D hm hpp hq
    have := hv.fixups_regs fy hfy fx hfx (h1.trans hpos.symm) (Fast.reg_inj hd)
    rw [this, hl] at h2
    cases h2

/-! ### Reused inputs -/

omit hv D in
theorem reusedReg_eq {i k j : Nat} {o o' : Op} (ho : OpAt x.f i k o) (hc : o.constraint = .Reuse j) (ho' : OpAt x.f i j o') :
    Build.reusedReg (x.f.operands i) = some o'.vreg := by
  unfold Build.reusedReg
  cases hfs : (x.f.operands i).findSome? (fun o => match o.constraint with | .Reuse j => some j | _ => none) with
  | none =>
    exfalso
    rw [List.findSome?_eq_none_iff] at hfs
    have := hfs o (List.mem_of_getElem? ho.2.1)
    rw [hc] at this
    cases this
  | some j2 =>
    obtain ⟨o2, hm, h2⟩ := List.exists_of_findSome?_eq_some hfs
    obtain ⟨k2, hk2⟩ := List.mem_iff_getElem?.mp hm
    have hc2 : o2.constraint = .Reuse j2 := by
      revert h2
      cases o2.constraint <;> simp
    have hkk := hf.reuse_one i k k2 j j2 o o2 ho ⟨ho.1, hk2, reuse_nonalloc hc2⟩ hc hc2
    subst hkk
    rw [ho.2.1] at hk2
    cases hk2
    rw [hc] at hc2
    cases hc2
    simp only [Option.bind_some, ho'.2.1, Option.map_some]

theorem al2_value {i k : Nat} {o : Op} (ho : OpAt x.f i k o) (hk : o.kind = .Use) {σ : Allocation → Val} {Q : Nat → Val → Prop}
    (hh : Held x (ptBefore i) σ Q) (hfix : ∀ l, Fixed x l (ptBefore i) σ Q) : Q o.vreg.vreg (σ (al2 i k)) := by
  rcases al2_op hf hv D ho with ⟨fx, h1, h2, h3, h4, h5, _⟩ | ⟨r, h1, _, _, _, _, h2, h3⟩
  · rw [h4, ← h5]
    exact hfix fx.level fx h1 h2 rfl
  · rw [h3]
    exact hh _ r h1 (has_use hf hv ho hk rfl h1 h2) (not_def_of_use hf hv ho hk (show 2 * i / 2 = i by omega))

/-- Neither is a location that holds an input. -/
theorem al2_not_spare {i k : Nat} {o : Op} (ho : OpAt x.f i k o) (hk : o.kind = .Use) (g : List InsertedMove) :
    ¬ Spare e num (ptBefore i) g (al2 i k) := by
  rcases al2_op hf hv D ho with ⟨fx, h1, h2, h3, h4, h5, _⟩ | ⟨r, h1, _, _, _, _, h2, h3⟩
  · rw [h4, ← h2]
    exact not_spare_fix hv h1 g
  · rw [h3]
    exact not_spare_range hv h1 (has_use hf hv ho hk rfl h1 h2) g

theorem stage_reuse {i : Nat} (hin : ∃ b, b < x.f.numBlocks ∧ i ∈ x.f.blockInsts b) {σ σ' : Allocation → Val} {Q : Nat → Val → Prop}
    (hh : Held x (ptBefore i) σ Q) (hfix : ∀ l, Fixed x l (ptBefore i) σ Q) (S : Stage e num ms .ReusedInput (ptBefore i) σ σ') :
    Pre x allocs i σ' Q := by
  have hsm := inst_small hf hin
  constructor
  · intro l o ho hk
    by_cases hr : ∃ k j ok, OpAt x.f i k ok ∧ ok.constraint = .Reuse j
    · obtain ⟨k, j, ok, hok, hc⟩ := hr
      obtain ⟨hkd, hkp, oj, hoj, hjk, hjp, _⟩ := hf.reuse i k j ok hok hc
      -- the value arrives in the output's place
      have hmoved : Q oj.vreg.vreg (σ' (al2 i k)) := by
        by_cases heq : al2 i j = al2 i k
        · rw [← heq, S.none]
          · exact al2_value hf hv D hoj hjk hh hfix
          · intro m hm hpp
            obtain ⟨k2, j2, o2, o2', g1, g2, g3, g4, _⟩ := reuse_at hf hv D hm hsm hpp
            have := hf.reuse_one i k k2 j j2 ok o2 hok g1 hc g2
            subst this
            have := hok.eq g1
            subst this
            rw [hc] at g2
            cases g2
            exact g4 heq
        · have hm : (⟨⟨InsertMovePrio.ReusedInput.toU32, pnt (ptBefore i)⟩, al2 i j, al2 i k, oj.vreg⟩ : InsertedMove) ∈ ms :=
            (D.moves _).mpr (.inr (.inr (.inr (.inr ⟨i, k, j, ok, oj, hok, hc, hoj, heq, rfl⟩))))
          have := S.moved _ hm rfl
          dsimp only at this
          rw [this]
          exact al2_value hf hv D hoj hjk hh hfix
      by_cases hlj : l = j
      · subst hlj
        have := ho.eq hoj
        subst this
        rcases D.alloc3 i l with ⟨k2, o2, g1, g2, g3⟩ | ⟨g1, _⟩
        · have := hf.reuse_one i k k2 l l ok o2 hok g1 hc g2
          subst this
          rw [g3]
          exact hmoved
        · exact absurd ⟨k, ok, hok, hc⟩ g1
      · have hal : allocs i l = al2 i l := by
          rcases D.alloc3 i l with ⟨k2, o2, g1, g2, g3⟩ | ⟨_, g1⟩
          · have := hf.reuse_one i k k2 j l ok o2 hok g1 hc g2
            subst this
            have := hok.eq g1
            subst this
            rw [hc] at g2
            cases g2
            exact absurd rfl hlj
          · exact g1
        rw [hal]
        by_cases heq : al2 i l = al2 i k
        · -- both are the same value
          rw [heq]
          obtain ⟨rk, k1, _, _, _, _, k2, k3⟩ := al2_def hf hv D hok hkd
          have hdp : Build.defPoint i ok = ptAfter i := by unfold Build.defPoint; rw [if_pos hkp]
          rw [hdp] at k2
          have hsame : oj.vreg.vreg = o.vreg.vreg := by
            rcases al2_op hf hv D ho with ⟨fx, h1, h2, h3, h4, h5, _⟩ | ⟨r, h1, _, _, _, _, h2, h3⟩
            · rw [← h5]
              exact (hv.fixups fx h1).reuse i k j ok oj h2 hok hc hoj ⟨rk, k1, k2, by rw [← k3, ← heq, h4]⟩
            · by_cases hvv : oj.vreg.vreg = o.vreg.vreg
              · exact hvv
              · exfalso
                have hrp : Build.recordPoint x.f i o = ptAfter i := by
                  unfold Build.recordPoint Build.usePoint
                  rw [hk]
                  dsimp only
                  rw [if_pos (.inr ⟨oj.vreg, reusedReg_eq hf hok hc hoj, fun e => hvv (by rw [e])⟩)]
                rw [hrp] at h2
                have := same_reg hv h1 k1 h2 k2 (by rw [← h3, heq, k3])
                have hnd := not_def_of_use hf hv ho hk (p := ptAfter i) (show (2 * i + 1) / 2 = i by omega)
                obtain ⟨b, hb, hi⟩ := hin
                exact hnd ⟨b, hb, i, hi, ok, List.mem_of_getElem? hok.2.1, hok.2.2, hkd, this.symm, hdp.symm⟩
          rw [← hsame]
          exact hmoved
        · rw [S.kept _ ?_ (al2_not_spare hf hv D ho hk _)]
          · exact al2_value hf hv D ho hk hh hfix
          · intro m hm hpp hd
            obtain ⟨k2, j2, o2, o2', g1, g2, g3, g4, rfl⟩ := reuse_at hf hv D hm hsm hpp
            have := hf.reuse_one i k k2 j j2 ok o2 hok g1 hc g2
            subst this
            exact heq hd.symm
    · have hal : allocs i l = al2 i l := by
        rcases D.alloc3 i l with ⟨k2, o2, g1, g2, g3⟩ | ⟨_, g1⟩
        · exact absurd ⟨k2, l, o2, g1, g2⟩ hr
        · exact g1
      rw [hal, S.none]
      · exact al2_value hf hv D ho hk hh hfix
      · intro m hm hpp
        obtain ⟨k2, j2, o2, o2', g1, g2, g3, g4, _⟩ := reuse_at hf hv D hm hsm hpp
        exact hr ⟨k2, j2, o2, g1, g2⟩
  · intro v r hr hhas hnd hnd2
    have hb := has_before hf hv hr hhas hnd2
    rw [S.kept _ ?_ (not_spare_range hv hr hb _)]
    · exact hh v r hr hb hnd
    · intro m hm hpp hd
      obtain ⟨k, j, ok, oj, hok, hc, _, _, rfl⟩ := reuse_at hf hv D hm hsm hpp
      obtain ⟨hkd, hkp, _⟩ := hf.reuse i k j ok hok hc
      obtain ⟨rk, k1, _, _, _, _, k2, k3⟩ := al2_def hf hv D hok hkd
      have hdp : Build.defPoint i ok = ptAfter i := by unfold Build.defPoint; rw [if_pos hkp]
      rw [hdp] at k2
      have := same_reg hv hr k1 hhas k2 (by rw [← k3]; exact hd.symm)
      obtain ⟨b, hb, hi⟩ := hin
      exact hnd2 ⟨b, hb, i, hi, ok, List.mem_of_getElem? hok.2.1, hok.2.2, hkd, this.symm, hdp.symm⟩

/-- From the arrival of values before an instruction to the ranges and fixups. -/
theorem stages_held {b i : Nat} (hb : b < x.f.numBlocks) (hi : i ∈ x.f.blockInsts b) {σ0 σ1 σ2 σ3 : Allocation → Val} {Q : Nat → Val → Prop}
    (h0 : ∀ v, ∀ r ∈ x.ranges v, r.range.fr < 2 * i → 2 * i ≤ r.range.to → (2 * i < r.range.to ∨ isStart x (2 * i) = false) →
      ¬ DefAt x.f v (2 * i) → Q v (σ0 r.alloc))
    (h1 : ∀ v, ∀ r ∈ x.ranges v, r.range.fr = 2 * i → isStart x (2 * i) = true → ¬ DefAt x.f v (2 * i) →
      (¬ ∃ p ∈ x.ranges v, p.range.fr < 2 * i ∧ 2 * i < p.range.to) → Q v (σ0 r.alloc))
    (S1 : Stage e num ms .Regular (2 * i) σ0 σ1) (S2 : Stage e num ms .MultiFixedRegInitial (2 * i) σ1 σ2)
    (S3 : Stage e num ms .MultiFixedRegSecondary (2 * i) σ2 σ3) :
    Held x (2 * i) σ3 Q ∧ ∀ l, Fixed x l (2 * i) σ3 Q := by
  have hsm := inst_small hf ⟨b, hb, hi⟩
  have hq : 2 * i < 2 ^ 32 := by omega
  have H1 := stage_regular hf hv D hq (by omega) h0 h1 S1
  have H2 := stage_fix_held hf hv D (l := .Initial) hq H1 S2
  have F2 := stage_fixed hf hv D (l := .Initial) H1 (fun h => by cases h) S2
  have H3 := stage_fix_held hf hv D (l := .Secondary) hq H2 S3
  have F3 := stage_fixed hf hv D (l := .Secondary) H2 (fun _ => F2) S3
  have F3' := stage_fixed_kept hf hv D hq F2 S3
  exact ⟨H3, fun l => by cases l; exact F3'; exact F3⟩
end

end Regalloc.Apply
