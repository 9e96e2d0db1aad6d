import Verif.Proofs.ApplyGroups

/-! Nothing goes wrong in the pass: every move it needs has a source. -/
namespace Regalloc.Apply

open ResolveMoves (ClassFits)

/-! ### Loops that do not fail -/

theorem foldlM_total {α σ : Type} {g : σ → α → Option σ} {P : List α → σ → Prop} (full : List α)
    (prog : ∀ l r rest s, full = l ++ r :: rest → P l s → ∃ s', g s r = some s' ∧ P (l ++ [r]) s') :
    ∀ rest l s, full = l ++ rest → P l s → ∃ s', rest.foldlM g s = some s' ∧ P full s' := by
  intro rest
  induction rest with
  | nil =>
    intro l s hl hp
    exact ⟨s, rfl, by rw [hl, List.append_nil]; exact hp⟩
  | cons r rest ih =>
    intro l s hl hp
    obtain ⟨s1, h1, h2⟩ := prog l r rest s hl hp
    obtain ⟨s2, h3, h4⟩ := ih (l ++ [r]) s1 (by rw [hl, List.append_assoc]; rfl) h2
    exact ⟨s2, by rw [List.foldlM_cons, h1]; exact h3, h4⟩

/-! ### Arguments -/

theorem scanOuts_all (v b : Nat) (a : Allocation) : ∀ (os : List Out) (m : Nat → Nat → Option Allocation), OutsSorted os →
    (∃ pre, os = pre ++ (scanOuts v b a os m).1 ∧ ∀ o ∈ pre, pairLt (v, b) (o.fromVreg, o.fromBlock) = false) ∧
    (∀ y w, m y w ≠ none → (scanOuts v b a os m).2 y w ≠ none) ∧
    ∀ o ∈ os, o.fromVreg = v → o.fromBlock = b → (scanOuts v b a os m).2 b o.toVreg ≠ none := by
  intro os
  induction os with
  | nil => intro m _; exact ⟨⟨[], rfl, by simp⟩, fun _ _ h => h, by simp⟩
  | cons o os ih =>
    intro m hs
    unfold OutsSorted at hs
    rw [List.pairwise_cons] at hs
    obtain ⟨h1, h2⟩ := hs
    unfold scanOuts
    split
    · rename_i h3
      refine ⟨⟨[], rfl, by simp⟩, fun _ _ h => h, ?_⟩
      intro o' ho' e1 e2
      exfalso
      rcases List.mem_cons.mp ho' with rfl | ho'
      · rw [e1, e2, pairLt_iff] at h3
        dsimp only at h3
        omega
      · have := h1 o' ho'
        rw [e1, e2] at this
        rw [this] at h3
        cases h3
    · rename_i h3
      have h3 : pairLt (v, b) (o.fromVreg, o.fromBlock) = false := by simpa using h3
      split
      · rename_i h4
        obtain ⟨⟨pre, i1, i2⟩, i3, i4⟩ := ih (fun x w => if x = b ∧ w = o.toVreg then prefer (m x w) a else m x w) h2
        refine ⟨⟨o :: pre, by rw [List.cons_append]; exact congrArg _ i1, ?_⟩, ?_, ?_⟩
        · intro j hj
          rcases List.mem_cons.mp hj with rfl | hj
          · exact h3
          · exact i2 j hj
        · intro y w hy
          refine i3 y w ?_
          split
          · exact prefer_ne
          · exact hy
        · intro o' ho' e1 e2
          rcases List.mem_cons.mp ho' with rfl | ho'
          · refine i3 _ _ ?_
            rw [if_pos ⟨rfl, rfl⟩]
            exact prefer_ne
          · exact i4 o' ho' e1 e2
      · rename_i h4
        obtain ⟨⟨pre, i1, i2⟩, i3, i4⟩ := ih m h2
        refine ⟨⟨o :: pre, by rw [List.cons_append]; exact congrArg _ i1, ?_⟩, i3, ?_⟩
        · intro j hj
          rcases List.mem_cons.mp hj with rfl | hj
          · exact h3
          · exact i2 j hj
        · intro o' ho' e1 e2
          rcases List.mem_cons.mp ho' with rfl | ho'
          · exact absurd ⟨e1, e2⟩ h4
          · exact i4 o' ho' e1 e2

theorem endBlocks_all (v : Nat) (a : Allocation) : ∀ (bs : List Nat) (st : St), bs.Pairwise (· < ·) → OutsSorted st.outs →
    (∀ b ∈ bs, (bs.foldl (endBlock v a) st).srcs b ≠ none) ∧
    (∀ b, st.srcs b ≠ none → (bs.foldl (endBlock v a) st).srcs b ≠ none) ∧
    (∃ pre, st.outs = pre ++ (bs.foldl (endBlock v a) st).outs ∧
      ∀ o ∈ pre, o.fromVreg < v ∨ (o.fromVreg = v ∧ ∃ b ∈ bs, o.fromBlock ≤ b)) ∧
    (∀ y w, st.psrcs y w ≠ none → (bs.foldl (endBlock v a) st).psrcs y w ≠ none) ∧
    ∀ o ∈ st.outs, o.fromVreg = v → o.fromBlock ∈ bs → (bs.foldl (endBlock v a) st).psrcs o.fromBlock o.toVreg ≠ none := by
  intro bs
  induction bs with
  | nil => intro st _ _; exact ⟨by simp, fun _ h => h, ⟨[], rfl, by simp⟩, fun _ _ h => h, by simp⟩
  | cons b bs ih =>
    intro st hb hs
    rw [List.pairwise_cons] at hb
    rw [List.foldl_cons]
    obtain ⟨⟨pre, s1, s2⟩, s3, s4⟩ := scanOuts_all v b a st.outs st.psrcs hs
    have hs' : OutsSorted (endBlock v a st b).outs := by
      show OutsSorted (scanOuts v b a st.outs st.psrcs).1
      unfold OutsSorted at hs ⊢
      rw [s1, List.pairwise_append] at hs
      exact hs.2.1
    obtain ⟨i1, i2, ⟨pre', i3, i4⟩, i5, i6⟩ := ih (endBlock v a st b) hb.2 hs'
    have hmono : ∀ c, st.srcs c ≠ none → (endBlock v a st b).srcs c ≠ none := by
      intro c hc
      show Ion.upd st.srcs b (prefer (st.srcs b) a) c ≠ none
      unfold Ion.upd
      split
      · exact prefer_ne
      · exact hc
    refine ⟨?_, fun c hc => i2 c (hmono c hc), ⟨pre ++ pre', ?_, ?_⟩, fun y w h => i5 y w (s3 y w h), ?_⟩
    · intro c hc
      rcases List.mem_cons.mp hc with rfl | hc
      · refine i2 _ ?_
        show Ion.upd st.srcs c (prefer (st.srcs c) a) c ≠ none
        unfold Ion.upd
        rw [if_pos rfl]
        exact prefer_ne
      · exact i1 c hc
    · rw [List.append_assoc, ← i3]
      exact s1
    · intro o ho
      rcases List.mem_append.mp ho with ho | ho
      · have := s2 o ho
        rw [pairLt_false] at this
        dsimp only at this
        rcases this with h | ⟨h, h'⟩
        · exact .inl h
        · exact .inr ⟨h.symm, b, List.mem_cons_self, h'⟩
      · rcases i4 o ho with h | ⟨h, c, h', h''⟩
        · exact .inl h
        · exact .inr ⟨h, c, List.mem_cons_of_mem _ h', h''⟩
    · intro o ho e1 e2
      by_cases hc : o.fromBlock = b
      · refine i5 _ _ ?_
        rw [hc]
        exact s4 o ho e1 hc
      · have hc2 := (List.mem_cons.mp e2).resolve_left hc
        have hlt := hb.1 _ hc2
        rw [s1] at ho
        rcases List.mem_append.mp ho with h | h
        · have := s2 o h
          rw [pairLt_false] at this
          dsimp only at this
          omega
        · exact i6 o h e1 hc2

theorem endBlocks_lt (x : Env) (r : FRange) : (endBlocks x r).Pairwise (· < ·) := by
  unfold endBlocks blocksWhile
  exact List.Pairwise.sublist (List.takeWhile_sublist _) List.pairwise_lt_range'

/-- Every source that has been found so far. -/
structure Found (x : Env) (v : Nat) (l : List FRange) (st : St) : Prop where
  srcs : ∀ r ∈ l, ∀ b, b < x.f.numBlocks → r.Has (exitPt x.f b) → st.srcs b ≠ none
  outs : ∃ pre, x.outs = pre ++ st.outs ∧ ∀ o ∈ pre, o.fromVreg < v ∨ (o.fromVreg = v ∧ ∃ q ∈ l, exitPt x.f o.fromBlock < q.range.to)
  psrcs : ∀ o ∈ x.outs, o.fromBlock < x.f.numBlocks → (o.fromVreg = v ∧ ∃ r ∈ l, r.Has (exitPt x.f o.fromBlock)) ∨
    (o.fromVreg < v ∧ ∃ r ∈ x.ranges o.fromVreg, r.Has (exitPt x.f o.fromBlock)) → st.psrcs o.fromBlock o.toVreg ≠ none

section
variable {x : Env} {e : ResolveMoves.MoveEnv} {num : Nat} (hf : FuncOk x) (hv : Valid x e num) (hso : OutsSorted x.outs)
include hf hv hso

theorem step_found {v : Nat} {l : List FRange} {r : FRange} {rest : List FRange} {st st' : St}
    (hl : x.ranges v = l ++ r :: rest) (h : Found x v l st) (hst : procRange x v st r = some st') : Found x v (l ++ [r]) st' := by
  have hr : r ∈ x.ranges v := by rw [hl]; simp
  have hsort := hv.sorted v
  rw [hl, List.pairwise_append] at hsort
  unfold procRange at hst
  split at hst
  · cases hst
  rename_i hnone
  split at hst
  · cases hst
  rename_i ms hms
  unfold scanRange at hst
  obtain ⟨pre, o1, o2⟩ := h.outs
  have hs : OutsSorted st.outs := by
    unfold OutsSorted at hso ⊢
    rw [o1, List.pairwise_append] at hso
    exact hso.2.1
  obtain ⟨i1, i2, ⟨pre', i3, i4⟩, i5, i6⟩ := endBlocks_all v r.alloc (endBlocks x r)
    { st with moves := ms, buf := st.buf.advance r } (endBlocks_lt x r) hs
  generalize hst1 : (endBlocks x r).foldl (endBlock v r.alloc) { st with moves := ms, buf := st.buf.advance r } = st1
    at hst i1 i2 i3 i5 i6
  obtain ⟨bi, b1, -⟩ := startBlocks_fold x v r (startBlocks x r) st1
  rw [b1] at hst
  obtain ⟨al, re, u1, -, -⟩ := uses_fold r r.uses _ _ hst
  subst u1
  dsimp only at i2 i3 i5 i6
  constructor
  · intro q hq b hb hhas
    rcases List.mem_append.mp hq with hq | hq
    · exact i2 b (h.srcs q hq b hb hhas)
    · rw [List.mem_singleton] at hq
      subst hq
      exact i1 b ((mem_endBlocks hf hv hr b).mpr ⟨hb, hhas⟩)
  · refine ⟨pre ++ pre', by rw [List.append_assoc, ← i3]; exact o1, ?_⟩
    intro o ho
    rcases List.mem_append.mp ho with ho | ho
    · rcases o2 o ho with h1 | ⟨h1, q, h2, h3⟩
      · exact .inl h1
      · exact .inr ⟨h1, q, List.mem_append_left _ h2, h3⟩
    · rcases i4 o ho with h1 | ⟨h1, b, h2, h3⟩
      · exact .inl h1
      · refine .inr ⟨h1, r, by simp, ?_⟩
        obtain ⟨h4, h5⟩ := (mem_endBlocks hf hv hr b).mp h2
        have := exit_mono hf h3 h4
        have := h5.2
        omega
  · intro o ho hb hc
    rcases hc with ⟨hc, q, hq, hhas⟩ | hc
    · rcases List.mem_append.mp hq with hq | hq
      · exact i5 _ _ (h.psrcs o ho hb (.inl ⟨hc, q, hq, hhas⟩))
      · rw [List.mem_singleton] at hq
        subst hq
        have ho2 := ho
        rw [o1] at ho2
        rcases List.mem_append.mp ho2 with h1 | h1
        · rcases o2 o h1 with h2 | ⟨-, p, h3, h4⟩
          · omega
          · refine i5 _ _ (h.psrcs o ho hb (.inl ⟨hc, p, h3, ?_, h4⟩))
            have := hsort.2.2 p h3 q List.mem_cons_self
            have := hhas.1
            omega
        · exact i6 o h1 hc ((mem_endBlocks hf hv hr _).mpr ⟨hb, hhas⟩)
    · exact i5 _ _ (h.psrcs o ho hb (.inr hc))

end

/-! ### Each step succeeds -/

theorem push_total (ms : List InsertedMove) (pos : ProgPoint) (prio : InsertMovePrio) {src dst : Allocation} {v : VReg}
    (h1 : ClassFits v src) (h2 : ClassFits v dst) : ∃ ms', InsertedMoves.push ms pos prio src dst v = some ms' := by
  have key : ∀ a, ClassFits v a → (match a.asReg with | some p => decide (p.class? = v.class?) | none => true) = true := by
    intro a
    unfold ClassFits
    cases a.asReg <;> simp
  unfold InsertedMoves.push
  split
  · exact ⟨_, rfl⟩
  · dsimp only
    rw [if_pos]
    · exact ⟨_, rfl⟩
    · rw [Bool.and_eq_true]
      exact ⟨key _ h1, key _ h2⟩

section
variable {x : Env} {e : ResolveMoves.MoveEnv} {num : Nat} (hf : FuncOk x) (hv : Valid x e num)
include hf hv

omit hf in
theorem range_fits {v : Nat} {r : FRange} (hr : r ∈ x.ranges v) : ClassFits (x.vreg v) r.alloc := by
  intro p hp
  rcases hv.location v r hr with ⟨p', h1, h2, -⟩ | ⟨s, h1, -⟩
  · rw [h1, (C05_alloc_reg _).2.1] at hp
    rw [← Option.some.inj hp]
    exact h2
  · rw [h1] at hp
    cases hp

omit hf in
theorem range_some {v : Nat} {r : FRange} (hr : r ∈ x.ranges v) : r.alloc ≠ Allocation.none := by
  intro hn
  rcases hv.location v r hr with ⟨p', h1, h2, -⟩ | ⟨s, h1, h2, -⟩
  · rw [hn] at h1
    have := (C05_alloc_reg p').2.1
    rw [← h1, C05_alloc_none.2.1] at this
    cases this
  · rw [hn, C05_alloc_none.2.2] at h2
    cases h2

omit hf in
theorem uses_total {v : Nat} {r : FRange} (hr : r ∈ x.ranges v) : ∀ (us : List Ion.Use), (∀ u ∈ us, u ∈ r.uses) → ∀ st : St,
    ∃ st', us.foldlM (applyUse r) st = some st' := by
  intro us
  induction us with
  | nil => intro _ st; exact ⟨st, rfl⟩
  | cons u us ih =>
    intro hu st
    have h1 := (hv.records v r hr u (hu u List.mem_cons_self)).1
    have h2 : ∃ st', applyUse r st u = some st' := by
      unfold applyUse
      exact ⟨_, if_pos h1⟩
    obtain ⟨st', h2⟩ := h2
    rw [List.foldlM_cons, h2]
    exact ih (fun u' h' => hu u' (List.mem_cons_of_mem _ h')) _

theorem procRange_total {v : Nat} {l : List FRange} {r : FRange} {rest : List FRange} {st : St}
    (hl : x.ranges v = l ++ r :: rest) (h : BufInv x v l st.buf) : ∃ st', procRange x v st r = some st' := by
  have hr : r ∈ x.ranges v := by rw [hl]; simp
  obtain ⟨a1, -⟩ := advance_inv hv hl h
  unfold procRange
  rw [if_neg (range_some hv hr), a1]
  have hm : ∃ ms, regularMove x v (prevOf (x.ranges v) r.range.fr) r st.moves = some ms := by
    unfold regularMove
    split
    · exact ⟨_, rfl⟩
    · rename_i q hq
      split
      · rename_i h1
        simp only [Bool.and_eq_true, Bool.not_eq_true'] at h1
        have heven : r.range.fr % 2 = 0 := by
          rcases hv.begins v r hr h1.2 with ⟨b, -, h2⟩ | ⟨h2, -⟩
          · rw [h2]
            show 2 * _ % 2 = 0
            omega
          · exact h2
        rw [if_pos heven]
        exact push_total _ _ _ (range_fits hv (prevOf_spec hq).1) (range_fits hv hr)
      · exact ⟨_, rfl⟩
  obtain ⟨ms, hms⟩ := hm
  rw [hms]
  exact uses_total hv hr r.uses (fun _ h => h) _

omit hv in
theorem edge_total {a c : Nat} (hc : c < x.f.numBlocks) (ha : a ∈ x.f.preds c) : ∃ p t, Cfg.chooseMoveLocation x.f a c = some (p, t) := by
  have hb := hf.edges.predLt a c hc ha
  have hs := (hf.edges.iff a c hb hc).mp ha
  unfold Cfg.chooseMoveLocation
  dsimp only
  by_cases h1 : Cfg.inEdges x.f c ≤ 1
  · rw [if_neg (by omega), if_pos h1]
    exact ⟨_, _, rfl⟩
  · obtain ⟨h2, h3⟩ := hf.critical a c hs (by omega)
    rw [if_pos]
    · exact ⟨_, _, rfl⟩
    · rw [h2, h3]
      simp
      omega

omit hv in
theorem edgeMove_total (ms : List InsertedMove) {a c : Nat} (hc : c < x.f.numBlocks) (ha : a ∈ x.f.preds c) {src dst : Allocation} {v : VReg}
    (h1 : ClassFits v src) (h2 : ClassFits v dst) : ∃ ms', edgeMove x ms a c src dst v = some ms' := by
  obtain ⟨p, t, h⟩ := edge_total hf hc ha
  unfold edgeMove
  rw [h]
  exact push_total _ _ _ h1 h2

end

/-! ### The whole pass -/

section
variable {x : Env} {e : ResolveMoves.MoveEnv} {num : Nat} (hf : FuncOk x) (hv : Valid x e num) (ha : Arrives x)
include hf hv ha

theorem procVreg_total {srcs : Nat → Nat → Option Allocation} {vs : List Nat} {v : Nat} {st : St} (hlt : ∀ w ∈ vs, w < v)
    (h : VInv x srcs vs st) (hfd : Found x v [] st) : ∃ st', procVreg x st v = some st' ∧ Found x (v + 1) [] st' := by
  have hnext : ∀ st' : St, Found x v (x.ranges v) st' → Found x (v + 1) [] st' := by
    intro st' h1
    refine ⟨by simp, ?_, ?_⟩
    · obtain ⟨pre, h2, h3⟩ := h1.outs
      refine ⟨pre, h2, fun o ho => .inl ?_⟩
      rcases h3 o ho with h4 | ⟨h4, -⟩ <;> omega
    · rintro o ho hb (⟨-, r, h2, -⟩ | ⟨h2, h3⟩)
      · cases h2
      · by_cases h4 : o.fromVreg = v
        · exact h1.psrcs o ho hb (.inl ⟨h4, by rw [← h4]; exact h3⟩)
        · exact h1.psrcs o ho hb (.inr ⟨by omega, h3⟩)
  unfold procVreg
  split
  · rename_i h1
    have h1 : x.ranges v = [] := by simpa using h1
    exact ⟨st, rfl, hnext st (by rw [h1]; exact hfd)⟩
  · have h0 : RInv x v { st with srcs := fun _ => none, buf := Prev.new st.buf.prevIns } []
        { st with srcs := fun _ => none, buf := Prev.new st.buf.prevIns } := by
      refine ⟨by simp, by simp, by simp, fun _ _ _ h => .inl h, fun _ h => .inl h, fun _ h => h, by simp, ?_, by simp,
        h.outs, ?_⟩
      · intro i k
        exact .inl ⟨rfl, by simp⟩
      · refine ⟨rfl, by simp, fun _ => rfl, ?_, ?_⟩
        · refine h.ins.mono ?_
          rintro i _ ⟨w, h4, h5⟩
          have := hlt w h4
          exact .inl (by omega)
        · refine h.ins.mono ?_
          rintro i _ ⟨w, h4, h5⟩
          have := hlt w h4
          exact .inl (by omega)
    have h0' : Found x v [] { st with srcs := fun _ => none, buf := Prev.new st.buf.prevIns } :=
      ⟨by simp, hfd.outs, hfd.psrcs⟩
    obtain ⟨st2, h2, h3, h4⟩ := foldlM_total (g := procRange x v)
      (P := fun l s => RInv x v { st with srcs := fun _ => none, buf := Prev.new st.buf.prevIns } l s ∧ Found x v l s) (x.ranges v)
      (by
        rintro l r rest s hl ⟨g1, g2⟩
        obtain ⟨s', g3⟩ := procRange_total hf hv hl g1.buf
        exact ⟨s', g3, step_inv hf hv hl g1 g3, step_found hf hv ha.sorted hl g2 g3⟩)
      (x.ranges v) [] _ rfl ⟨h0, h0'⟩
    rw [h2]
    dsimp only
    have hd : ∀ d ∈ st2.dests, ∃ r ∈ x.ranges v, IsDest x v r d := by
      intro d hd
      rcases (h3.dests d).mp hd with h5 | h5
      · have : d ∈ st.dests := h5
        rw [h.dests] at this
        cases this
      · exact h5
    obtain ⟨ms, h5, -⟩ := foldlM_total (g := destMove x v st2.srcs) (P := fun _ _ => True) st2.dests
      (by
        rintro l d rest ms hl -
        obtain ⟨r, h5, h6⟩ := hd d (by rw [hl]; simp)
        obtain ⟨q, h7, h8⟩ := ha.live _ v h6.1 (range_lt hv h5) h6.2.2.1 _ h6.2.2.2.1
        have hs := h4.srcs q h7 _ (hf.edges.predLt _ _ h6.1 h6.2.2.2.1) h8
        unfold destMove
        cases hs2 : st2.srcs d.fromBlock with
        | none => exact absurd hs2 hs
        | some s =>
          dsimp only
          obtain ⟨p, h9, -, -, h10⟩ := h3.srcs _ _ hs2
          obtain ⟨ms', h11⟩ := edgeMove_total hf ms h6.1 h6.2.2.2.1 (v := x.vreg v) (src := s) (dst := d.alloc)
            (by rw [h10]; exact range_fits hv h9) (by rw [h6.2.2.2.2.2]; exact range_fits hv h5)
          exact ⟨ms', h11, trivial⟩)
      st2.dests [] st2.moves rfl trivial
    rw [h5]
    dsimp only
    exact ⟨_, rfl, hnext _ ⟨h4.srcs, h4.outs, h4.psrcs⟩⟩

theorem vregs_total : ∃ st, (List.range x.numVregs).foldlM (procVreg x) (start x) = some st ∧
    Found x x.numVregs [] st := by
  obtain ⟨st, h1, -, h2⟩ := foldlM_total (g := procVreg x)
    (P := fun vs st => (∃ srcs, VInv x srcs vs st) ∧ Found x vs.length [] st) (List.range x.numVregs)
    (by
      rintro l v rest s hl ⟨⟨srcs, g1⟩, g2⟩
      have hp := List.pairwise_lt_range (n := x.numVregs)
      have hlen : v = l.length := by
        have := congrArg (fun z => z[l.length]?) hl
        simp only [List.getElem?_append_right (Nat.le_refl _), Nat.sub_self, List.getElem?_cons_zero] at this
        obtain ⟨_, h⟩ := List.getElem?_eq_some_iff.mp this
        simpa using h.symm
      rw [hl, List.pairwise_append] at hp
      have hlt : ∀ w ∈ l, w < v := fun w hw => hp.2.2 w hw v List.mem_cons_self
      obtain ⟨s', g3, g4⟩ := procVreg_total hf hv ha hlt g1 (by rw [hlen]; exact g2)
      refine ⟨s', g3, procVreg_inv hf hv hlt g1 g3, ?_⟩
      rw [List.length_append, ← hlen]
      exact g4)
    (List.range x.numVregs) [] (start x) rfl
    ⟨⟨fun _ _ => none, by
      refine ⟨by simp [start], by simp, by simp, rfl, by simp [start], by simp [start], by simp, ?_, by simp [start], fun _ h => h, ?_⟩
      · intro i k
        exact .inl ⟨rfl, by simp⟩
      · exact ⟨[], rfl, by simp⟩⟩,
     ⟨by simp, ⟨[], rfl, by simp⟩, by simp⟩⟩
  rw [List.length_range] at h2
  exact ⟨st, h1, h2⟩

omit ha in
/-- Locations of operands have the class of the operand. -/
theorem fits_params {o : Out} (ho : o ∈ x.outs) : (x.vreg o.toVreg).class? = (x.vreg o.fromVreg).class? := by
  obtain ⟨k, h1, m, h2, h3, h4⟩ := hv.outs o ho
  have h5 := hf.args_class _ _ _ h1 m h2
  obtain ⟨h6, h7⟩ := List.of_mem_zip (show (m.1, m.2) ∈ _ from h2)
  rw [(hf.named_params _ _ h6).1, hf.named_args _ _ _ h7, h3, h4] at h5
  exact h5

theorem params_total {srcs : Nat → Nat → Option Allocation} {st : St} (h : VInv x srcs (List.range x.numVregs) st)
    (hfd : Found x x.numVregs [] st) (ms : List InsertedMove) : ∃ ms', st.pdests.foldlM (paramMove x st.psrcs) ms = some ms' := by
  obtain ⟨ms', h1, -⟩ := foldlM_total (g := paramMove x st.psrcs) (P := fun _ _ => True) st.pdests
    (by
      rintro l d rest ms hl -
      obtain ⟨v, r, hr, i, hi, h2, h3, h4⟩ := h.pdests d (by rw [hl]; simp)
      obtain ⟨o, ho, h5, h6, q, h7, h8⟩ := ha.passed i hi
      obtain ⟨b, hb, h9, h10, h11⟩ := (hv.ins i).mp hi
      have hblk : i.fromBlock < x.f.numBlocks := hf.edges.predLt _ _ hb h10
      have hs := hfd.psrcs o ho (by rw [h5]; exact hblk) (.inr ⟨range_lt hv h7, q, h7, by rw [h5]; exact h8⟩)
      rw [h5, h6] at hs
      unfold paramMove
      have e1 : d.fromBlock = i.fromBlock := by rw [h3]
      have e2 : d.toVreg = i.toVreg := by rw [h3, h2]
      have e3 : d.toBlock = b := by rw [h3]; exact h9
      cases hs2 : st.psrcs d.fromBlock d.toVreg with
      | none => rw [e1, e2] at hs2; exact absurd hs2 hs
      | some s =>
        dsimp only
        obtain ⟨w, q', g1, -, -, g2, o', g3, g4, g5, g6⟩ := h.psrcs _ _ _ hs2
        obtain ⟨ms', g7⟩ := edgeMove_total hf ms (a := d.fromBlock) (c := d.toBlock) (by rw [e3]; exact hb) (by rw [e1, e3]; exact h10)
          (v := x.vreg d.toVreg) (src := s) (dst := d.alloc)
          (by
            intro p hp
            rw [g2] at hp
            rw [← g6, fits_params hf hv g3, g4]
            exact range_fits hv g1 p hp)
          (by
            intro p hp
            rw [e2, h2]
            rw [h3] at hp
            exact range_fits hv hr p hp)
        exact ⟨ms', g7, trivial⟩)
    st.pdests [] ms rfl trivial
  exact ⟨ms', h1⟩

/-- Locations of operands have the class of the operand. -/
def OpsFit (x : Env) (al : Nat → Nat → Allocation) : Prop := ∀ i k o, OpAt x.f i k o → ClassFits o.vreg (al i k)

omit ha in
theorem ops_fit {srcs : Nat → Nat → Option Allocation} {st : St} (h : VInv x srcs (List.range x.numVregs) st) : OpsFit x st.allocs := by
  intro i k o ho
  rcases h.allocs i k with ⟨-, h1⟩ | ⟨v, -, r, hr, ⟨u, hu, h2, h3⟩, h4⟩
  · exfalso
    obtain ⟨r, hr, u, hu, h2, h3⟩ := hv.recorded i k o ho
    exact h1 ⟨_, List.mem_range.mpr (range_lt hv hr), r, hr, u, hu, by rw [h3, recordPoint_div], h2⟩
  · obtain ⟨-, i', o', h5, h6, h7, -⟩ := hv.records v r hr u hu
    rw [h7, recordPoint_div] at h2
    subst h2
    rw [h3] at h5
    have := ho.eq h5
    subst this
    rw [h4, (hf.named i' o (List.mem_of_getElem? ho.2.1) ho.2.2).1, h6]
    exact range_fits hv hr

omit ha in
theorem fixups_total (ma : MA) (h : OpsFit x ma.2) : ∃ ma', x.fixups.foldlM (fixupMove x) ma = some ma' ∧ OpsFit x ma'.2 := by
  refine foldlM_total (g := fixupMove x) (P := fun _ (ma : MA) => OpsFit x ma.2) x.fixups ?_ x.fixups [] ma rfl h
  rintro l fx rest s hl hs
  have hfx : fx ∈ x.fixups := by rw [hl]; simp
  obtain ⟨i, o, o', h1, h2, h3, -, -, -, h4, h5⟩ := (hv.fixups fx hfx).op
  have hdiv : fx.pos / 2 = i := by rw [h1]; show 2 * i / 2 = i; omega
  have hn := (hf.named i o (List.mem_of_getElem? h2.2.1) h2.2.2).1
  have hn' := (hf.named i o' (List.mem_of_getElem? h3.2.1) h3.2.2).1
  have hreg : ClassFits (x.vreg fx.vreg) (Allocation.reg fx.preg) := by
    intro p hp
    rw [(C05_alloc_reg _).2.1] at hp
    rw [← Option.some.inj hp]
    exact (hv.fixups fx hfx).cls
  obtain ⟨ms, h6⟩ := push_total s.1 (pnt fx.pos) fx.level.prio (src := s.2 (fx.pos / 2) fx.fromSlot) (v := x.vreg fx.vreg)
    (by have := hs i fx.fromSlot o' h3; rw [hn', h5] at this; rw [hdiv]; exact this) hreg
  unfold fixupMove
  rw [h6]
  refine ⟨_, rfl, ?_⟩
  intro i' k w hw
  dsimp only
  unfold setAlloc
  split
  · rename_i hc
    obtain ⟨rfl, rfl⟩ := hc
    rw [hdiv] at hw
    have := hw.eq h2
    subst this
    rw [hn, h4]
    exact hreg
  · exact hs i' k w hw

omit hv ha in
theorem reuseOp_total {i : Nat} {s : MA} {done : List Nat} {ok : Op × Nat} (hs : OpsFit x s.2)
    (hdone : ∀ j ∈ done, ∀ j', ok.1.constraint ≠ .Reuse j') (hb : ∃ b, b < x.f.numBlocks ∧ i ∈ x.f.blockInsts b)
    (hok : (x.f.operands i)[ok.2]? = some ok.1) :
    ∃ s', reuseOp x i (s, done) ok = some s' ∧ OpsFit x s'.1.2 ∧ ((∃ j, ok.1.constraint = .Reuse j) ∨ s'.2 = done) := by
  unfold reuseOp
  cases hc : ok.1.constraint with
  | Reuse j =>
    dsimp only
    have ho : OpAt x.f i ok.2 ok.1 := ⟨hb, hok, reuse_nonalloc hc⟩
    obtain ⟨-, h1, o', h2, -, -, h3⟩ := hf.reuse i ok.2 j ok.1 ho hc
    have hnil : done = [] := by
      cases hd : done with
      | nil => rfl
      | cons a l => exact absurd hc (hdone a (by rw [hd]; simp) j)
    rw [if_neg (by rw [hnil, h1]; simp)]
    split
    · exact ⟨_, rfl, hs, .inl ⟨j, rfl⟩⟩
    · rw [h2.2.1]
      dsimp only
      have hk : ClassFits o'.vreg (s.2 i ok.2) := by
        intro p hp
        rw [h3]
        exact hs i ok.2 ok.1 ho p hp
      obtain ⟨ms, h4⟩ := push_total s.1 (pnt (ptBefore i)) .ReusedInput (hs i j o' h2) hk
      rw [h4]
      refine ⟨_, rfl, ?_, .inl ⟨j, rfl⟩⟩
      intro i' k w hw
      dsimp only
      unfold setAlloc
      split
      · rename_i hc2
        obtain ⟨rfl, rfl⟩ := hc2
        have := hw.eq h2
        subst this
        exact hk
      · exact hs i' k w hw
  | _ => exact ⟨_, rfl, hs, .inr rfl⟩

omit hv ha in
theorem reuseInst_total {i : Nat} (hb : ∃ b, b < x.f.numBlocks ∧ i ∈ x.f.blockInsts b) (s : MA) (hs : OpsFit x s.2) :
    ∃ s', reuseInst x s i = some s' ∧ OpsFit x s'.2 := by
  have hget : ∀ (n : Nat) (q : Op × Nat), (x.f.operands i).zipIdx[n]? = some q → q.2 = n ∧ (x.f.operands i)[q.2]? = some q.1 := by
    intro n q hq
    rw [List.getElem?_zipIdx, Option.map_eq_some_iff] at hq
    obtain ⟨o2, h1, h2⟩ := hq
    subst h2
    exact ⟨by simp, by simpa using h1⟩
  obtain ⟨acc, h1, h2, -⟩ := foldlM_total (g := reuseOp x i)
    (P := fun l (acc : MA × List Nat) => OpsFit x acc.1.2 ∧ (acc.2 ≠ [] → ∃ ok ∈ l, ∃ j, ok.1.constraint = .Reuse j))
    (x.f.operands i).zipIdx
    (by
      rintro l ok rest acc hl ⟨g1, g2⟩
      have hat : (x.f.operands i).zipIdx[l.length]? = some ok := by rw [hl]; simp
      obtain ⟨e1, e2⟩ := hget _ _ hat
      obtain ⟨s', g3, g4, g5⟩ := reuseOp_total hf (i := i) (s := acc.1) (done := acc.2) (ok := ok) g1
        (by
          intro j hj j' hc
          obtain ⟨ok', h3, j2, h4⟩ := g2 (List.ne_nil_of_mem hj)
          obtain ⟨n, hn⟩ := List.mem_iff_getElem?.mp h3
          have hlt := (List.getElem?_eq_some_iff.mp hn).1
          have hn' : (x.f.operands i).zipIdx[n]? = some ok' := by
            rw [hl, List.getElem?_append_left hlt]
            exact hn
          obtain ⟨e3, e4⟩ := hget _ _ hn'
          have := hf.reuse_one i ok.2 ok'.2 j' j2 ok.1 ok'.1 ⟨hb, e2, reuse_nonalloc hc⟩ ⟨hb, e4, reuse_nonalloc h4⟩ hc h4
          omega) hb e2
      refine ⟨s', g3, g4, ?_⟩
      intro hne
      rcases g5 with ⟨j, hj⟩ | hj
      · exact ⟨ok, by simp, j, hj⟩
      · rw [hj] at hne
        obtain ⟨ok', h3, h4⟩ := g2 hne
        exact ⟨ok', List.mem_append_left _ h3, h4⟩)
    _ [] (s, []) rfl ⟨hs, by simp⟩
  unfold reuseInst
  rw [h1]
  exact ⟨_, rfl, h2⟩

theorem apply_total : ∃ ma, apply x = some ma := by
  obtain ⟨st, h1, hfd⟩ := vregs_total hf hv ha
  obtain ⟨srcs, hI⟩ := vregs_inv hf hv h1
  obtain ⟨ms, h2⟩ := params_total hf hv ha hI hfd st.moves
  obtain ⟨ma, h3, h4⟩ := fixups_total hf hv (ms, st.allocs) (ops_fit hf hv hI)
  obtain ⟨ma', h5, -⟩ := foldlM_total (g := reuseInst x) (P := fun _ (ma : MA) => OpsFit x ma.2) st.reuse
    (by
      rintro l i rest s hl hs
      refine reuseInst_total hf ?_ s hs
      obtain ⟨v, -, r, h6, u, h7, h8, -⟩ := (hI.reuse i).mp (by rw [hl]; simp)
      obtain ⟨-, i', o, h9, -, h10, -⟩ := hv.records v r h6 u h7
      rw [h10, recordPoint_div] at h8
      rw [← h8]
      exact h9.1)
    st.reuse [] ma rfl h4
  exact ⟨ma', by
    unfold apply
    simp only [Option.bind_eq_bind, h1, h2, h3, Option.bind_some]
    exact h5⟩

end
end Regalloc.Apply
