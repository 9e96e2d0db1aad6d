import Verif.Proofs.ApplyVreg

namespace Regalloc.Apply

/-- A move on the edge from `a` to `c`. -/
def EMove (x : Env) (v : VReg) (a c : Nat) (src dst : Allocation) (m : InsertedMove) : Prop :=
  src ≠ dst ∧ ∃ p tail, Cfg.chooseMoveLocation x.f a c = some (p, tail) ∧
    m = ⟨⟨(if tail then InsertMovePrio.OutEdgeMoves else .InEdgeMoves).toU32, pnt p⟩, src, dst, v⟩

theorem edgeMove_spec {x : Env} {ms ms' : List InsertedMove} {a c : Nat} {src dst : Allocation} {v : VReg}
    (h : edgeMove x ms a c src dst v = some ms') : ∀ m, m ∈ ms' ↔ m ∈ ms ∨ EMove x v a c src dst m := by
  unfold edgeMove at h
  cases hc : Cfg.chooseMoveLocation x.f a c with
  | none => rw [hc] at h; cases h
  | some pt =>
    rw [hc] at h
    dsimp only at h
    intro m
    rw [push_spec h]
    refine or_congr Iff.rfl ?_
    constructor
    · rintro ⟨h1, h2⟩
      exact ⟨h1, pt.1, pt.2, hc, h2⟩
    · rintro ⟨h1, p, t, h2, h3⟩
      rw [hc] at h2
      cases h2
      exact ⟨h1, h3⟩

/-- A move for a register that is live along an edge into range `r`. -/
def InterMove (x : Env) (srcs : Nat → Nat → Option Allocation) (v : Nat) (r : FRange) (m : InsertedMove) : Prop :=
  ∃ d s, IsDest x v r d ∧ srcs v d.fromBlock = some s ∧ EMove x (x.vreg v) d.fromBlock d.toBlock s d.alloc m

theorem dests_fold {x : Env} {v : Nat} {srcs : Nat → Option Allocation} : ∀ (ds : List Dest) (ms ms' : List InsertedMove),
    ds.foldlM (destMove x v srcs) ms = some ms' →
    (∀ d ∈ ds, srcs d.fromBlock ≠ none) ∧
    ∀ m, m ∈ ms' ↔ m ∈ ms ∨ ∃ d ∈ ds, ∃ s, srcs d.fromBlock = some s ∧ EMove x (x.vreg v) d.fromBlock d.toBlock s d.alloc m := by
  intro ds
  induction ds with
  | nil => intro ms ms' h; cases h; simp
  | cons d ds ih =>
    intro ms ms' h
    rw [List.foldlM_cons] at h
    unfold destMove at h
    cases hs : srcs d.fromBlock with
    | none => rw [hs] at h; cases h
    | some s =>
      rw [hs] at h
      dsimp only at h
      cases he : edgeMove x ms d.fromBlock d.toBlock s d.alloc (x.vreg v) with
      | none => rw [he] at h; cases h
      | some ms2 =>
        rw [he] at h
        obtain ⟨h1, h2⟩ := ih ms2 ms' h
        refine ⟨?_, ?_⟩
        · intro d' hd'
          rcases List.mem_cons.mp hd' with rfl | hd'
          · rw [hs]; simp
          · exact h1 d' hd'
        · intro m
          rw [h2, edgeMove_spec he, or_assoc]
          refine or_congr Iff.rfl ?_
          constructor
          · rintro (h3 | ⟨d', h3, h4⟩)
            · exact ⟨d, List.mem_cons_self, s, hs, h3⟩
            · exact ⟨d', List.mem_cons_of_mem _ h3, h4⟩
          · rintro ⟨d', h3, s', h4, h5⟩
            rcases List.mem_cons.mp h3 with rfl | h3
            · rw [hs] at h4
              cases h4
              exact .inl h5
            · exact .inr ⟨d', h3, s', h4, h5⟩

theorem params_fold {x : Env} {ps : Nat → Nat → Option Allocation} : ∀ (ds : List PDest) (ms ms' : List InsertedMove),
    ds.foldlM (paramMove x ps) ms = some ms' →
    (∀ d ∈ ds, ps d.fromBlock d.toVreg ≠ none) ∧
    ∀ m, m ∈ ms' ↔ m ∈ ms ∨ ∃ d ∈ ds, ∃ s, ps d.fromBlock d.toVreg = some s ∧
      EMove x (x.vreg d.toVreg) d.fromBlock d.toBlock s d.alloc m := by
  intro ds
  induction ds with
  | nil => intro ms ms' h; cases h; simp
  | cons d ds ih =>
    intro ms ms' h
    rw [List.foldlM_cons] at h
    unfold paramMove at h
    cases hs : ps d.fromBlock d.toVreg with
    | none => rw [hs] at h; cases h
    | some s =>
      rw [hs] at h
      dsimp only at h
      cases he : edgeMove x ms d.fromBlock d.toBlock s d.alloc (x.vreg d.toVreg) with
      | none => rw [he] at h; cases h
      | some ms2 =>
        rw [he] at h
        obtain ⟨h1, h2⟩ := ih ms2 ms' h
        refine ⟨?_, ?_⟩
        · intro d' hd'
          rcases List.mem_cons.mp hd' with rfl | hd'
          · rw [hs]; simp
          · exact h1 d' hd'
        · intro m
          rw [h2, edgeMove_spec he, or_assoc]
          refine or_congr Iff.rfl ?_
          constructor
          · rintro (h3 | ⟨d', h3, h4⟩)
            · exact ⟨d, List.mem_cons_self, s, hs, h3⟩
            · exact ⟨d', List.mem_cons_of_mem _ h3, h4⟩
          · rintro ⟨d', h3, s', h4, h5⟩
            rcases List.mem_cons.mp h3 with rfl | h3
            · rw [hs] at h4
              cases h4
              exact .inl h5
            · exact .inr ⟨d', h3, s', h4, h5⟩

/-- Range `r` records operand `k` of instruction `i`. -/
def Records (r : FRange) (i k : Nat) : Prop := ∃ u ∈ r.uses, u.pos / 2 = i ∧ u.slot = k

/-- After the registers `vs`. -/
structure VInv (x : Env) (srcs : Nat → Nat → Option Allocation) (vs : List Nat) (st : St) : Prop where
  moves : ∀ m, m ∈ st.moves ↔ ∃ v ∈ vs, ∃ r ∈ x.ranges v, RegMove x v r m ∨ InterMove x srcs v r m
  srcOk : ∀ v b a, srcs v b = some a → ∃ r ∈ x.ranges v, b < x.f.numBlocks ∧ r.Has (exitPt x.f b) ∧ a = r.alloc
  have_ : ∀ v ∈ vs, ∀ r ∈ x.ranges v, ∀ d, IsDest x v r d → srcs v d.fromBlock ≠ none
  dests : st.dests = []
  psrcs : ∀ b w a, st.psrcs b w = some a → ∃ v, ∃ r ∈ x.ranges v, b < x.f.numBlocks ∧ r.Has (exitPt x.f b) ∧ a = r.alloc ∧
    ∃ o ∈ x.outs, o.fromVreg = v ∧ o.fromBlock = b ∧ o.toVreg = w
  pdests : ∀ d ∈ st.pdests, ∃ v, ∃ r ∈ x.ranges v, ∃ i ∈ x.ins, i.toVreg = v ∧ d = ⟨i.fromBlock, i.toBlock, v, r.alloc⟩ ∧
    r.Has (entryPt x.f i.toBlock)
  full : ∀ v ∈ vs, ∀ r ∈ x.ranges v, ∀ i ∈ x.ins, i.toVreg = v → r.Has (entryPt x.f i.toBlock) →
    (⟨i.fromBlock, i.toBlock, v, r.alloc⟩ : PDest) ∈ st.pdests ∨
    ∃ q ∈ x.ranges v, q.range.fr < r.range.fr ∧ r.range.fr = entryPt x.f i.toBlock ∧ r.range.fr < q.range.to
  allocs : ∀ i k, (st.allocs i k = x.allocs i k ∧ ¬ ∃ v ∈ vs, ∃ r ∈ x.ranges v, Records r i k) ∨
    ∃ v ∈ vs, ∃ r ∈ x.ranges v, Records r i k ∧ st.allocs i k = r.alloc
  reuse : ∀ i, i ∈ st.reuse ↔ ∃ v ∈ vs, ∃ r ∈ x.ranges v, ∃ u ∈ r.uses, u.pos / 2 = i ∧ ∃ j, u.op.constraint = .Reuse j
  outs : ∀ o ∈ st.outs, o ∈ x.outs
  ins : Suf x.ins (fun i => ∃ v ∈ vs, i.toVreg ≤ v) st.buf.prevIns

section
variable {x : Env} {e : ResolveMoves.MoveEnv} {num : Nat} (hf : FuncOk x) (hv : Valid x e num)
include hf hv

theorem procVreg_inv {srcs : Nat → Nat → Option Allocation} {vs : List Nat} {v : Nat} {st st' : St} (hlt : ∀ w ∈ vs, w < v)
    (h : VInv x srcs vs st) (hst : procVreg x st v = some st') : ∃ srcs', VInv x srcs' (vs ++ [v]) st' := by
  have hnv : v ∉ vs := fun h => absurd (hlt v h) (Nat.lt_irrefl _)
  unfold procVreg at hst
  split at hst
  · rename_i h1
    have h1 : x.ranges v = [] := by simpa using h1
    cases hst
    refine ⟨srcs, ?_⟩
    have hsplit : ∀ P : Nat → FRange → Prop, (∃ w ∈ vs ++ [v], ∃ r ∈ x.ranges w, P w r) ↔ ∃ w ∈ vs, ∃ r ∈ x.ranges w, P w r := by
      intro P
      constructor
      · rintro ⟨w, h2, r, h3, h4⟩
        rcases List.mem_append.mp h2 with h2 | h2
        · exact ⟨w, h2, r, h3, h4⟩
        · rw [List.mem_singleton.mp h2, h1] at h3
          cases h3
      · rintro ⟨w, h2, h3⟩
        exact ⟨w, List.mem_append_left _ h2, h3⟩
    constructor
    · intro m; rw [h.moves, hsplit]
    · exact h.srcOk
    · intro w hw r hr
      rcases List.mem_append.mp hw with h2 | h2
      · exact h.have_ w h2 r hr
      · rw [List.mem_singleton.mp h2, h1] at hr; cases hr
    · exact h.dests
    · exact h.psrcs
    · exact h.pdests
    · intro w hw r hr
      rcases List.mem_append.mp hw with h2 | h2
      · exact h.full w h2 r hr
      · rw [List.mem_singleton.mp h2, h1] at hr; cases hr
    · intro i k
      rw [hsplit, hsplit]
      exact h.allocs i k
    · intro i; rw [h.reuse, hsplit]
    · exact h.outs
    · exact h.ins.mono (fun i _ ⟨w, h2, h3⟩ => ⟨w, List.mem_append_left _ h2, h3⟩)
  · rename_i hne
    split at hst
    · cases hst
    · rename_i st2 h2
      split at hst
      · cases hst
      · rename_i ms h3
        cases hst
        have h0 : RInv x v { st with srcs := fun _ => none, buf := Prev.new st.buf.prevIns } []
            { st with srcs := fun _ => none, buf := Prev.new st.buf.prevIns } := by
          refine ⟨by simp, by simp, by simp, fun _ _ _ h => .inl h, fun _ h => .inl h, fun _ h => h, by simp, ?_, by simp,
            h.outs, ?_⟩
          · intro i k
            exact .inl ⟨rfl, by simp⟩
          · refine ⟨rfl, by simp, fun _ => rfl, ?_, ?_⟩
            · refine h.ins.mono ?_
              rintro i _ ⟨w, h4, h5⟩
              have := hlt w h4
              exact .inl (by omega)
            · refine h.ins.mono ?_
              rintro i _ ⟨w, h4, h5⟩
              have := hlt w h4
              exact .inl (by omega)
        have hI := foldlM_prefix (P := RInv x v { st with srcs := fun _ => none, buf := Prev.new st.buf.prevIns }) (x.ranges v)
          (fun l r rest s s' hl hp hg => step_inv hf hv hl hp hg) (x.ranges v) [] _ st2 rfl h0 h2
        obtain ⟨d1, d2⟩ := dests_fold _ _ _ h3
        have hd : ∀ d, d ∈ st2.dests ↔ ∃ r ∈ x.ranges v, IsDest x v r d := by
          intro d
          rw [hI.dests]
          dsimp only
          rw [h.dests]
          simp
        refine ⟨fun w b => if w = v then st2.srcs b else srcs w b, ?_⟩
        have hsplit : ∀ P : Nat → FRange → Prop, (∃ w ∈ vs ++ [v], ∃ r ∈ x.ranges w, P w r) ↔
            (∃ w ∈ vs, ∃ r ∈ x.ranges w, P w r) ∨ ∃ r ∈ x.ranges v, P v r := by
          intro P
          simp only [List.mem_append, List.mem_singleton, or_and_right, exists_or, exists_eq_left]
        constructor
        · intro m
          dsimp only
          rw [hsplit, d2, hI.moves]
          dsimp only
          rw [h.moves, or_assoc]
          refine or_congr ?_ ?_
          · constructor
            · rintro ⟨w, h4, r, h5, h6⟩
              refine ⟨w, h4, r, h5, h6.imp_right ?_⟩
              rintro ⟨d, s, h7, h8, h9⟩
              refine ⟨d, s, h7, ?_, h9⟩
              dsimp only
              rw [if_neg (fun (he : w = v) => hnv (he ▸ h4))]
              exact h8
            · rintro ⟨w, h4, r, h5, h6⟩
              refine ⟨w, h4, r, h5, h6.imp_right ?_⟩
              rintro ⟨d, s, h7, h8, h9⟩
              refine ⟨d, s, h7, ?_, h9⟩
              dsimp only at h8
              rw [if_neg (fun (he : w = v) => hnv (he ▸ h4))] at h8
              exact h8
          · constructor
            · rintro (⟨r, h4, h5⟩ | ⟨d, h4, s, h5, h6⟩)
              · exact ⟨r, h4, .inl h5⟩
              · obtain ⟨r, h7, h8⟩ := (hd d).mp h4
                exact ⟨r, h7, .inr ⟨d, s, h8, by dsimp only; rw [if_pos rfl]; exact h5, h6⟩⟩
            · rintro ⟨r, h4, h5 | ⟨d, s, h6, h7, h8⟩⟩
              · exact .inl ⟨r, h4, h5⟩
              · dsimp only at h7
                rw [if_pos rfl] at h7
                exact .inr ⟨d, (hd d).mpr ⟨r, h4, h6⟩, s, h7, h8⟩
        · intro w b a hwb
          split at hwb
          · rename_i h4
            subst h4
            exact hI.srcs b a hwb
          · exact h.srcOk w b a hwb
        · intro w hw r hr d hdd
          split
          · rename_i h4
            subst h4
            exact d1 d ((hd d).mpr ⟨r, hr, hdd⟩)
          · rename_i h4
            rcases List.mem_append.mp hw with h5 | h5
            · exact h.have_ w h5 r hr d hdd
            · exact absurd (List.mem_singleton.mp h5) h4
        · rfl
        · intro b w a hb
          rcases hI.psrcs b w a hb with h4 | ⟨r, h4, h5⟩
          · exact h.psrcs b w a h4
          · exact ⟨v, r, h4, h5⟩
        · intro d hdd
          rcases hI.pdests d hdd with h4 | ⟨r, h4, i, h5⟩
          · exact h.pdests d h4
          · exact ⟨v, r, h4, i, h5⟩
        · intro w hw r hr i hi h4 h5
          rcases List.mem_append.mp hw with h6 | h6
          · rcases h.full w h6 r hr i hi h4 h5 with h7 | h7
            · exact .inl (hI.keep _ h7)
            · exact .inr h7
          · rw [List.mem_singleton] at h6
            subst h6
            exact hI.full r hr i hi h4 h5
        · intro i k
          dsimp only
          rw [hsplit, hsplit]
          rcases hI.allocs i k with ⟨h4, h5⟩ | ⟨r, h4, h5, h6⟩
          · rw [h4]
            dsimp only
            rcases h.allocs i k with ⟨h6, h7⟩ | h6
            · exact .inl ⟨h6, fun h8 => h8.elim h7 h5⟩
            · exact .inr (.inl h6)
          · exact .inr (.inr ⟨r, h4, h5, h6⟩)
        · intro i
          dsimp only
          rw [hI.reuse]
          dsimp only
          rw [h.reuse, hsplit]
        · exact hI.outs
        · refine hI.buf.prevIns.mono ?_
          rintro i _ (h4 | ⟨h4, _⟩)
          · exact ⟨v, by simp, by omega⟩
          · exact ⟨v, by simp, by omega⟩

theorem vregs_inv {st : St} (h : (List.range x.numVregs).foldlM (procVreg x) (start x) = some st) :
    ∃ srcs, VInv x srcs (List.range x.numVregs) st := by
  refine foldlM_prefix (P := fun vs st => ∃ srcs, VInv x srcs vs st) (List.range x.numVregs) ?_ _ [] (start x) st rfl ?_ h
  · rintro l v rest s s' hl ⟨srcs, hi⟩ hg
    refine procVreg_inv hf hv ?_ hi hg
    have hp := List.pairwise_lt_range (n := x.numVregs)
    rw [hl, List.pairwise_append] at hp
    exact fun w hw => hp.2.2 w hw v List.mem_cons_self
  · refine ⟨fun _ _ => none, ?_⟩
    refine ⟨by simp [start], by simp, by simp, rfl, by simp [start], by simp [start], by simp, ?_, by simp [start], fun _ h => h, ?_⟩
    · intro i k
      exact .inl ⟨rfl, by simp⟩
    · exact ⟨[], rfl, by simp⟩

end

theorem pairwise_of_ne {α : Type} {R : α → α → Prop} {l : List α} (h : l.Pairwise R) (hs : ∀ a b, R a b → R b a) {a b : α}
    (ha : a ∈ l) (hb : b ∈ l) (hne : a ≠ b) : R a b := by
  induction l with
  | nil => cases ha
  | cons c l ih =>
    rw [List.pairwise_cons] at h
    rcases List.mem_cons.mp ha with ha | ha <;> rcases List.mem_cons.mp hb with hb | hb
    · exact absurd (ha.trans hb.symm) hne
    · rw [ha]; exact h.1 b hb
    · rw [hb]; exact hs _ _ (h.1 a ha)
    · exact ih h.2 ha hb

/-! ### Fixups -/

/-- Where a fixup finds its value. -/
def FixSrc (x : Env) (al : Nat → Nat → Allocation) (fx : Fixup) (s : Allocation) : Prop :=
  (∃ fy ∈ x.fixups, fx.level = .Secondary ∧ fy.level = .Initial ∧ fy.pos = fx.pos ∧ fy.toSlot = fx.fromSlot ∧ s = Allocation.reg fy.preg) ∨
  ((¬ ∃ fy ∈ x.fixups, fx.level = .Secondary ∧ fy.level = .Initial ∧ fy.pos = fx.pos ∧ fy.toSlot = fx.fromSlot) ∧
    s = al (fx.pos / 2) fx.fromSlot)

/-- The move of a fixup. -/
def FixMove (x : Env) (al : Nat → Nat → Allocation) (fx : Fixup) (m : InsertedMove) : Prop :=
  ∃ s, FixSrc x al fx s ∧ s ≠ Allocation.reg fx.preg ∧
    m = ⟨⟨fx.level.prio.toU32, pnt fx.pos⟩, s, Allocation.reg fx.preg, x.vreg fx.vreg⟩

section
variable {x : Env} {e : ResolveMoves.MoveEnv} {num : Nat} (hv : Valid x e num)
include hv

theorem fixups_fold {ma ma' : MA} (h : x.fixups.foldlM (fixupMove x) ma = some ma') :
    (∀ m, m ∈ ma'.1 ↔ m ∈ ma.1 ∨ ∃ fx ∈ x.fixups, FixMove x ma.2 fx m) ∧
    ∀ i k, (∃ fx ∈ x.fixups, fx.pos = ptBefore i ∧ fx.toSlot = k ∧ ma'.2 i k = Allocation.reg fx.preg) ∨
      ((¬ ∃ fx ∈ x.fixups, fx.pos = ptBefore i ∧ fx.toSlot = k) ∧ ma'.2 i k = ma.2 i k) := by
  refine foldlM_prefix (P := fun l ma' => (∀ m, m ∈ ma'.1 ↔ m ∈ ma.1 ∨ ∃ fx ∈ l, FixMove x ma.2 fx m) ∧
    ∀ i k, (∃ fx ∈ l, fx.pos = ptBefore i ∧ fx.toSlot = k ∧ ma'.2 i k = Allocation.reg fx.preg) ∨
      ((¬ ∃ fx ∈ l, fx.pos = ptBefore i ∧ fx.toSlot = k) ∧ ma'.2 i k = ma.2 i k)) x.fixups ?_ _ [] ma ma' rfl ?_ h
  · rintro l fx rest s s' hl ⟨i1, i2⟩ hg
    have hfx : fx ∈ x.fixups := by rw [hl]; simp
    obtain ⟨i0, o0, o0', hpos, _⟩ := (hv.fixups fx hfx).op
    have hpos2 : ∀ i, fx.pos = ptBefore i ↔ i = i0 := by
      intro i
      rw [hpos]
      show 2 * _ = 2 * _ ↔ _
      omega
    have hdiv : fx.pos / 2 = i0 := by rw [hpos]; show 2 * i0 / 2 = i0; omega
    have hord := hv.fixups_order
    rw [hl, List.pairwise_append, List.pairwise_cons] at hord
    have hslot := hv.fixups_slots
    rw [hl, List.pairwise_append] at hslot
    have hsrc : FixSrc x ma.2 fx (s.2 (fx.pos / 2) fx.fromSlot) := by
      rw [hdiv]
      rcases i2 i0 fx.fromSlot with ⟨fy, h1, h2, h3, h4⟩ | ⟨h1, h2⟩
      · have hfy : fy ∈ x.fixups := by rw [hl]; exact List.mem_append_left _ h1
        have hsec : fx.level = .Secondary := by
          cases hlev : fx.level with
          | Secondary => rfl
          | Initial =>
            have := (hv.fixups fx hfx).initial hlev
            exact absurd (h3.trans this) (hslot.2.2 fy h1 fx List.mem_cons_self (h2.trans hpos.symm))
        refine .inl ⟨fy, hfy, hsec, ?_, h2.trans hpos.symm, h3, h4⟩
        cases hlev : fy.level with
        | Initial => rfl
        | Secondary => exact absurd h3 ((hv.fixups fx hfx).secondary hsec fy hfy hlev (h2.trans hpos.symm))
      · refine .inr ⟨?_, by rw [h2, hdiv]⟩
        rintro ⟨fy, h3, h4, h5, h6, h7⟩
        rw [hl] at h3
        rcases List.mem_append.mp h3 with h3 | h3
        · exact h1 ⟨fy, h3, h6.trans hpos, h7⟩
        · rcases List.mem_cons.mp h3 with rfl | h3
          · rw [h4] at h5; cases h5
          · have := hord.2.1.1 fy h3 h4
            rw [this] at h5
            cases h5
    unfold fixupMove at hg
    cases hp : InsertedMoves.push s.1 (pnt fx.pos) fx.level.prio (s.2 (fx.pos / 2) fx.fromSlot) (Allocation.reg fx.preg)
        (x.vreg fx.vreg) with
    | none => rw [hp] at hg; cases hg
    | some ms =>
      rw [hp] at hg
      have hg := Option.some.inj hg
      subst hg
      refine ⟨?_, ?_⟩
      · intro m
        dsimp only
        rw [push_spec hp, i1, or_assoc]
        refine or_congr Iff.rfl ?_
        simp only [List.mem_append, List.mem_singleton, or_and_right, exists_or, exists_eq_left]
        refine or_congr Iff.rfl ?_
        constructor
        · rintro ⟨h1, h2⟩
          exact ⟨_, hsrc, h1, h2⟩
        · rintro ⟨z, h1, h2, h3⟩
          have : z = s.2 (fx.pos / 2) fx.fromSlot := by
            rcases h1 with ⟨fy, h4, h5, h6, h7, h8, h9⟩ | ⟨h4, h5⟩ <;> rcases hsrc with ⟨fz, k4, k5, k6, k7, k8, k9⟩ | ⟨k4, k5⟩
            · rw [h9, k9]
              by_cases hne : fy = fz
              · rw [hne]
              · exfalso
                exact pairwise_of_ne hv.fixups_slots (fun a b h h1 h2 => h h1.symm h2.symm) h4 k4 hne (h7.trans k7.symm)
                  (h8.trans k8.symm)
            · exact absurd ⟨fy, h4, h5, h6, h7, h8⟩ k4
            · exact absurd ⟨fz, k4, k5, k6, k7, k8⟩ h4
            · rw [h5, k5]
          rw [this] at h2 h3
          exact ⟨h2, h3⟩
      · intro i k
        dsimp only
        unfold setAlloc
        rw [hdiv]
        simp only [List.mem_append, List.mem_singleton, or_and_right, exists_or, exists_eq_left]
        by_cases hc : i = i0 ∧ k = fx.toSlot
        · rw [if_pos hc]
          exact .inl (.inr ⟨(hpos2 i).mpr hc.1, hc.2.symm, rfl⟩)
        · rw [if_neg hc]
          rcases i2 i k with h1 | ⟨h1, h2⟩
          · exact .inl (.inl h1)
          · refine .inr ⟨?_, h2⟩
            rintro (h3 | ⟨h3, h4⟩)
            · exact h1 h3
            · exact hc ⟨(hpos2 i).mp h3, h4.symm⟩
  · refine ⟨by simp, fun i k => .inr ⟨by simp, rfl⟩⟩

end

/-! ### Reused inputs -/

/-- The move into an output that reuses an input of instruction `i`. -/
def ReuseMove (x : Env) (al : Nat → Nat → Allocation) (i : Nat) (m : InsertedMove) : Prop :=
  ∃ k j o o', OpAt x.f i k o ∧ o.constraint = .Reuse j ∧ OpAt x.f i j o' ∧ al i j ≠ al i k ∧
    m = ⟨⟨InsertMovePrio.ReusedInput.toU32, pnt (ptBefore i)⟩, al i j, al i k, o'.vreg⟩

theorem reuseOps_skip (x : Env) (i : Nat) : ∀ (l : List (Op × Nat)) (acc acc' : MA × List Nat),
    (∀ ok ∈ l, ∀ j, ok.1.constraint ≠ .Reuse j) → l.foldlM (reuseOp x i) acc = some acc' → acc' = acc := by
  intro l
  induction l with
  | nil => intro acc acc' _ h; cases h; rfl
  | cons ok l ih =>
    intro acc acc' hn h
    rw [List.foldlM_cons] at h
    have h1 : reuseOp x i acc ok = some acc := by
      unfold reuseOp
      have := hn ok List.mem_cons_self
      cases hc : ok.1.constraint with
      | Reuse j => exact absurd hc (this j)
      | _ => rfl
    rw [h1] at h
    exact ih acc acc' (fun ok' h' => hn ok' (List.mem_cons_of_mem _ h')) h

theorem reuse_nonalloc {o : Op} {j : Nat} (h : o.constraint = .Reuse j) : o.asFixedNonallocatable = none := by
  unfold Op.asFixedNonallocatable
  rw [h]

section
variable {x : Env} {e : ResolveMoves.MoveEnv} {num : Nat} (hf : FuncOk x)
include hf

/-- One instruction that reuses an input. -/
theorem reuseInst_spec {ma ma' : MA} {i k j : Nat} {o o' : Op} (ho : OpAt x.f i k o) (hc : o.constraint = .Reuse j) (ho' : OpAt x.f i j o')
    (h : reuseInst x ma i = some ma') :
    (∀ m, m ∈ ma'.1 ↔ m ∈ ma.1 ∨ (ma.2 i j ≠ ma.2 i k ∧
      m = ⟨⟨InsertMovePrio.ReusedInput.toU32, pnt (ptBefore i)⟩, ma.2 i j, ma.2 i k, o'.vreg⟩)) ∧
    ∀ i' l, ma'.2 i' l = if i' = i ∧ l = j then ma.2 i k else ma.2 i' l := by
  unfold reuseInst at h
  rw [Option.map_eq_some_iff] at h
  obtain ⟨acc, h, rfl⟩ := h
  have hk := ho.2.1
  have hz : (x.f.operands i).zipIdx[k]? = some (o, k) := by simp [List.getElem?_zipIdx, hk]
  have hlt := (List.getElem?_eq_some_iff.mp hz).1
  have hsplit : (x.f.operands i).zipIdx = (x.f.operands i).zipIdx.take k ++ (o, k) :: (x.f.operands i).zipIdx.drop (k + 1) := by
    rw [← (List.getElem?_eq_some_iff.mp hz).2, ← List.drop_eq_getElem_cons hlt]
    exact (List.take_append_drop ..).symm
  have hother : ∀ (n : Nat) (q : Op × Nat), (x.f.operands i).zipIdx[n]? = some q → n ≠ k → ∀ j', q.1.constraint ≠ .Reuse j' := by
    intro n q hq hne j' hj'
    rw [List.getElem?_zipIdx, Option.map_eq_some_iff] at hq
    obtain ⟨o2, h1, h2⟩ := hq
    subst h2
    exact hne (hf.reuse_one i n k j' j o2 o ⟨ho.1, h1, reuse_nonalloc hj'⟩ ho hj' hc)
  rw [hsplit, List.foldlM_append] at h
  cases h1 : ((x.f.operands i).zipIdx.take k).foldlM (reuseOp x i) (ma, []) with
  | none => rw [h1] at h; cases h
  | some a1 =>
    rw [h1] at h
    have e1 := reuseOps_skip x i _ _ _ (by
      intro ok hok
      obtain ⟨n, hn⟩ := List.mem_iff_getElem?.mp hok
      rw [List.getElem?_take] at hn
      split at hn
      · exact hother n ok hn (by omega)
      · cases hn) h1
    subst e1
    have h : List.foldlM (reuseOp x i) (ma, []) ((o, k) :: (x.f.operands i).zipIdx.drop (k + 1)) = some acc := h
    rw [List.foldlM_cons] at h
    cases h2 : reuseOp x i (ma, []) (o, k) with
    | none => rw [h2] at h; cases h
    | some a2 =>
      rw [h2] at h
      have e2 := reuseOps_skip x i _ _ _ (by
        intro ok hok
        obtain ⟨n, hn⟩ := List.mem_iff_getElem?.mp hok
        rw [List.getElem?_drop] at hn
        exact hother _ ok hn (by omega)) h
      subst e2
      unfold reuseOp at h2
      dsimp only at h2
      rw [hc] at h2
      dsimp only at h2
      split at h2
      · cases h2
      · split at h2
        · rename_i heq
          have h2 := Option.some.inj h2
          subst h2
          refine ⟨fun m => ⟨.inl, fun h => h.elim id (fun h => absurd heq h.1)⟩, ?_⟩
          intro i' l
          dsimp only
          split
          · rename_i h3
            rw [h3.1, h3.2]
            exact heq
          · rfl
        · rename_i hne
          rw [ho'.2.1] at h2
          dsimp only at h2
          cases hp : InsertedMoves.push ma.1 (pnt (ptBefore i)) .ReusedInput (ma.2 i j) (ma.2 i k) o'.vreg with
          | none => rw [hp] at h2; cases h2
          | some ms =>
            rw [hp] at h2
            have h2 := Option.some.inj h2
            subst h2
            refine ⟨?_, ?_⟩
            · intro m
              exact push_spec hp m
            · intro i' l
              rfl

theorem reuses_fold (is : List Nat) (his : ∀ i ∈ is, ∃ k j o, OpAt x.f i k o ∧ o.constraint = .Reuse j) {ma ma' : MA}
    (h : is.foldlM (reuseInst x) ma = some ma') :
    (∀ m, m ∈ ma'.1 ↔ m ∈ ma.1 ∨ ∃ i ∈ is, ReuseMove x ma.2 i m) ∧
    ∀ i l, (∃ k o, i ∈ is ∧ OpAt x.f i k o ∧ o.constraint = .Reuse l ∧ ma'.2 i l = ma.2 i k) ∨
      ((¬ ∃ k o, i ∈ is ∧ OpAt x.f i k o ∧ o.constraint = .Reuse l) ∧ ma'.2 i l = ma.2 i l) := by
  refine foldlM_prefix (P := fun is ma' => (∀ m, m ∈ ma'.1 ↔ m ∈ ma.1 ∨ ∃ i ∈ is, ReuseMove x ma.2 i m) ∧
    ∀ i l, (∃ k o, i ∈ is ∧ OpAt x.f i k o ∧ o.constraint = .Reuse l ∧ ma'.2 i l = ma.2 i k) ∨
      ((¬ ∃ k o, i ∈ is ∧ OpAt x.f i k o ∧ o.constraint = .Reuse l) ∧ ma'.2 i l = ma.2 i l)) is ?_ _ [] ma ma' rfl ?_ h
  · rintro l i rest s s' hl ⟨i1, i2⟩ hg
    obtain ⟨k, j, o, ho, hc⟩ := his i (by rw [hl]; simp)
    obtain ⟨hkind, _, o', ho', hkind', _⟩ := hf.reuse i k j o ho hc
    obtain ⟨g1, g2⟩ := reuseInst_spec hf ho hc ho' hg
    have hkj : k ≠ j := by
      rintro rfl
      have := ho.2.1
      rw [ho'.2.1] at this
      cases this
      rw [hkind] at hkind'
      cases hkind'
    have uniq : ∀ k2 j2 o2, OpAt x.f i k2 o2 → o2.constraint = .Reuse j2 → k2 = k ∧ j2 = j ∧ o2 = o := by
      intro k2 j2 o2 h1 h2
      have h3 := hf.reuse_one i k2 k j2 j o2 o h1 ho h2 hc
      subst h3
      have := h1.2.1
      rw [ho.2.1] at this
      cases this
      rw [hc] at h2
      cases h2
      exact ⟨rfl, rfl, rfl⟩
    have hk : s.2 i k = ma.2 i k := by
      rcases i2 i k with ⟨k2, o2, _, h2, h3, _⟩ | h1
      · exact absurd (uniq k2 k o2 h2 h3).2.1 hkj
      · exact h1.2
    have hj : s.2 i j = ma.2 i j ∨ (s.2 i j = ma.2 i k ∧ i ∈ l) := by
      rcases i2 i j with ⟨k2, o2, h1, h2, h3, h4⟩ | h1
      · rw [(uniq k2 j o2 h2 h3).1] at h4
        exact .inr ⟨h4, h1⟩
      · exact .inl h1.2
    have hnj : i ∉ l → s.2 i j = ma.2 i j := by
      intro hni
      exact hj.resolve_right (fun h => hni h.2)
    have hin : i ∈ l → s.2 i j = ma.2 i k := by
      intro hi
      rcases i2 i j with ⟨k2, o2, h1, h2, h3, h4⟩ | h1
      · rw [(uniq k2 j o2 h2 h3).1] at h4
        exact h4
      · exact absurd ⟨k, o, hi, ho, hc⟩ h1.1
    refine ⟨?_, ?_⟩
    · intro m
      rw [g1, i1, or_assoc]
      refine or_congr Iff.rfl ?_
      simp only [List.mem_append, List.mem_singleton, or_and_right, exists_or, exists_eq_left]
      constructor
      · rintro (h1 | ⟨h1, h2⟩)
        · exact .inl h1
        · by_cases hi : i ∈ l
          · rw [hin hi, hk] at h1
            exact absurd rfl h1
          · rw [hnj hi, hk] at h1 h2
            exact .inr ⟨k, j, o, o', ho, hc, ho', h1, h2⟩
      · rintro (h1 | ⟨k2, j2, o2, o2', h2, h3, h4, h5, h6⟩)
        · exact .inl h1
        · obtain ⟨rfl, rfl, rfl⟩ := uniq k2 j2 o2 h2 h3
          by_cases hi : i ∈ l
          · exact .inl ⟨i, hi, k2, j2, o2, o2', h2, h3, h4, h5, h6⟩
          · have : o2' = o' := by
              have := h4.2.1
              rw [ho'.2.1] at this
              cases this
              rfl
            subst this
            rw [hnj hi, hk]
            exact .inr ⟨h5, h6⟩
    · intro i' l'
      rw [g2]
      by_cases hc2 : i' = i ∧ l' = j
      · rw [if_pos hc2]
        obtain ⟨rfl, rfl⟩ := hc2
        exact .inl ⟨k, o, by simp, ho, hc, hk⟩
      · rw [if_neg hc2]
        rcases i2 i' l' with ⟨k2, o2, h1, h2⟩ | ⟨h1, h2⟩
        · exact .inl ⟨k2, o2, List.mem_append_left _ h1, h2⟩
        · refine .inr ⟨?_, h2⟩
          rintro ⟨k2, o2, h3, h4, h5⟩
          rcases List.mem_append.mp h3 with h6 | h6
          · exact h1 ⟨k2, o2, h6, h4, h5⟩
          · rw [List.mem_singleton] at h6
            subst h6
            exact hc2 ⟨rfl, (uniq k2 l' o2 h4 h5).2.1⟩
  · exact ⟨by simp, fun i l => .inr ⟨by simp, rfl⟩⟩
end

/-! ### The whole pass -/

/-- What the pass has done. -/
structure Done (x : Env) (ms : List InsertedMove) (allocs : Nat → Nat → Allocation) (srcs psrcs : Nat → Nat → Option Allocation)
    (pdests : List PDest) (al1 al2 : Nat → Nat → Allocation) : Prop where
  moves : ∀ m, m ∈ ms ↔ (∃ v, ∃ r ∈ x.ranges v, RegMove x v r m) ∨ (∃ v, ∃ r ∈ x.ranges v, InterMove x srcs v r m) ∨
    (∃ d ∈ pdests, ∃ s, psrcs d.fromBlock d.toVreg = some s ∧ EMove x (x.vreg d.toVreg) d.fromBlock d.toBlock s d.alloc m) ∨
    (∃ fx ∈ x.fixups, FixMove x al1 fx m) ∨ ∃ i, ReuseMove x al2 i m
  srcOk : ∀ v b a, srcs v b = some a → ∃ r ∈ x.ranges v, b < x.f.numBlocks ∧ r.Has (exitPt x.f b) ∧ a = r.alloc
  have_ : ∀ v, ∀ r ∈ x.ranges v, ∀ d, IsDest x v r d → srcs v d.fromBlock ≠ none
  psrcOk : ∀ b w a, psrcs b w = some a → ∃ v, ∃ r ∈ x.ranges v, b < x.f.numBlocks ∧ r.Has (exitPt x.f b) ∧ a = r.alloc ∧
    ∃ o ∈ x.outs, o.fromVreg = v ∧ o.fromBlock = b ∧ o.toVreg = w
  phave : ∀ d ∈ pdests, psrcs d.fromBlock d.toVreg ≠ none
  pdestOk : ∀ d ∈ pdests, ∃ v, ∃ r ∈ x.ranges v, ∃ i ∈ x.ins, i.toVreg = v ∧ d = ⟨i.fromBlock, i.toBlock, v, r.alloc⟩ ∧
    r.Has (entryPt x.f i.toBlock)
  full : ∀ v, ∀ r ∈ x.ranges v, ∀ i ∈ x.ins, i.toVreg = v → r.Has (entryPt x.f i.toBlock) →
    (⟨i.fromBlock, i.toBlock, v, r.alloc⟩ : PDest) ∈ pdests ∨
    ∃ q ∈ x.ranges v, q.range.fr < r.range.fr ∧ r.range.fr = entryPt x.f i.toBlock ∧ r.range.fr < q.range.to
  alloc1 : ∀ i k, (al1 i k = x.allocs i k ∧ ¬ ∃ v, ∃ r ∈ x.ranges v, Records r i k) ∨
    ∃ v, ∃ r ∈ x.ranges v, Records r i k ∧ al1 i k = r.alloc
  alloc2 : ∀ i k, (∃ fx ∈ x.fixups, fx.pos = ptBefore i ∧ fx.toSlot = k ∧ al2 i k = Allocation.reg fx.preg) ∨
      ((¬ ∃ fx ∈ x.fixups, fx.pos = ptBefore i ∧ fx.toSlot = k) ∧ al2 i k = al1 i k)
  alloc3 : ∀ i l, (∃ k o, OpAt x.f i k o ∧ o.constraint = .Reuse l ∧ allocs i l = al2 i k) ∨
      ((¬ ∃ k o, OpAt x.f i k o ∧ o.constraint = .Reuse l) ∧ allocs i l = al2 i l)

theorem apply_done {x : Env} {e : ResolveMoves.MoveEnv} {num : Nat} (hf : FuncOk x) (hv : Valid x e num) {ms : List InsertedMove}
    {allocs : Nat → Nat → Allocation} (h : apply x = some (ms, allocs)) :
    ∃ srcs psrcs pdests al1 al2, Done x ms allocs srcs psrcs pdests al1 al2 := by
  unfold apply at h
  simp only [Option.bind_eq_bind, Option.bind_eq_some_iff] at h
  obtain ⟨st, h1, ms1, h2, ma, h3, h4⟩ := h
  obtain ⟨srcs, hI⟩ := vregs_inv hf hv h1
  obtain ⟨p1, p2⟩ := params_fold _ _ _ h2
  obtain ⟨f1, f2⟩ := fixups_fold hv h3
  have hmem : ∀ v, ∀ r ∈ x.ranges v, v ∈ List.range x.numVregs := by
    intro v r hr
    rw [List.mem_range]
    rcases Nat.lt_or_ge v x.numVregs with h | h
    · exact h
    · rw [hv.only v h] at hr; cases hr
  have hsplit : ∀ P : Nat → FRange → Prop, (∃ v ∈ List.range x.numVregs, ∃ r ∈ x.ranges v, P v r) ↔ ∃ v, ∃ r ∈ x.ranges v, P v r := by
    intro P
    exact ⟨fun ⟨v, _, h⟩ => ⟨v, h⟩, fun ⟨v, r, h, h'⟩ => ⟨v, hmem v r h, r, h, h'⟩⟩
  have hreuse : ∀ i, i ∈ st.reuse ↔ ∃ k j o, OpAt x.f i k o ∧ o.constraint = .Reuse j := by
    intro i
    rw [hI.reuse]
    constructor
    · rintro ⟨v, _, r, h6, u, h7, h8, j, h9⟩
      obtain ⟨_, i', o, h10, h11, h12, h13⟩ := hv.records v r h6 u h7
      have : i' = i := by
        rw [← h8, h12]
        unfold Build.recordPoint Build.usePoint Build.defPoint ptAfter ptBefore
        split <;> split <;> omega
      subst this
      exact ⟨u.slot, j, o, h10, (h13 j).mp h9⟩
    · rintro ⟨k, j, o, h6, h7⟩
      obtain ⟨r, h8, u, h9, h10, h11⟩ := hv.recorded i k o h6
      refine ⟨_, hmem _ r h8, r, h8, u, h9, ?_, j, ?_⟩
      · rw [h11]
        unfold Build.recordPoint Build.usePoint Build.defPoint ptAfter ptBefore
        split <;> split <;> omega
      · obtain ⟨_, i', o', h12, h13, h14, h15⟩ := hv.records _ r h8 u h9
        refine (h15 j).mpr ?_
        have : i' = i := by
          rw [h11] at h14
          unfold Build.recordPoint Build.usePoint Build.defPoint ptAfter ptBefore at h14
          split at h14 <;> split at h14 <;> split at h14 <;> split at h14 <;> omega
        subst this
        have := h12.2.1
        rw [h10, h6.2.1] at this
        cases this
        exact h7
  obtain ⟨r1, r2⟩ := reuses_fold hf st.reuse (fun i hi => (hreuse i).mp hi) h4
  refine ⟨srcs, st.psrcs, st.pdests, st.allocs, ma.2, ?_⟩
  constructor
  · intro m
    rw [r1, f1, p2, hI.moves, hsplit]
    dsimp only
    constructor
    · rintro (((⟨v, r, h5, h6⟩ | h5) | h5) | ⟨i, _, h5⟩)
      · rcases h6 with h6 | h6
        · exact .inl ⟨v, r, h5, h6⟩
        · exact .inr (.inl ⟨v, r, h5, h6⟩)
      · exact .inr (.inr (.inl h5))
      · exact .inr (.inr (.inr (.inl h5)))
      · exact .inr (.inr (.inr (.inr ⟨i, h5⟩)))
    · rintro (⟨v, r, h5, h6⟩ | ⟨v, r, h5, h6⟩ | h5 | h5 | ⟨i, h5⟩)
      · exact .inl (.inl (.inl ⟨v, r, h5, .inl h6⟩))
      · exact .inl (.inl (.inl ⟨v, r, h5, .inr h6⟩))
      · exact .inl (.inl (.inr h5))
      · exact .inl (.inr h5)
      · refine .inr ⟨i, (hreuse i).mpr ?_, h5⟩
        obtain ⟨k, j, o, _, h6, h7, _⟩ := h5
        exact ⟨k, j, o, h6, h7⟩
  · exact hI.srcOk
  · intro v r hr
    exact hI.have_ v (hmem v r hr) r hr
  · exact hI.psrcs
  · exact p1
  · exact hI.pdests
  · intro v r hr
    exact hI.full v (hmem v r hr) r hr
  · intro i k
    have := hI.allocs i k
    rw [hsplit, hsplit] at this
    exact this
  · exact f2
  · intro i l
    rcases r2 i l with ⟨k, o, _, h5, h6, h7⟩ | ⟨h5, h6⟩
    · exact .inl ⟨k, o, h5, h6, h7⟩
    · refine .inr ⟨?_, h6⟩
      rintro ⟨k, o, h7, h8⟩
      exact h5 ⟨k, o, (hreuse i).mpr ⟨k, l, o, h7, h8⟩, h7, h8⟩

end Regalloc.Apply
