import Verif.Spec.ApplyMoves

namespace Regalloc.Apply

/-! ### Loops -/

theorem foldlM_prefix {α σ : Type} {g : σ → α → Option σ} {P : List α → σ → Prop} (full : List α)
    (step : ∀ l r rest s s', full = l ++ r :: rest → P l s → g s r = some s' → P (l ++ [r]) s') :
    ∀ rest l s s', full = l ++ rest → P l s → rest.foldlM g s = some s' → P full s' := by
  intro rest
  induction rest with
  | nil =>
    intro l s s' hl hp h
    simp only [List.foldlM_nil] at h
    cases h
    rw [hl, List.append_nil]
    exact hp
  | cons r rest ih =>
    intro l s s' hl hp h
    rw [List.foldlM_cons] at h
    cases hg : g s r with
    | none => rw [hg] at h; cases h
    | some s2 =>
      rw [hg] at h
      exact ih (l ++ [r]) s2 s' (by rw [hl, List.append_assoc]; rfl) (step l r rest s s2 hl hp hg) h

theorem mem_takeWhile_range' {p : Nat → Bool} {b : Nat} : ∀ (n b0 : Nat),
    b ∈ (List.range' b0 n).takeWhile p ↔ b0 ≤ b ∧ b < b0 + n ∧ ∀ c, b0 ≤ c → c ≤ b → p c = true := by
  intro n
  induction n with
  | zero => intro b0; simp; omega
  | succ n ih =>
    intro b0
    rw [List.range'_succ, List.takeWhile_cons]
    by_cases hp : p b0 = true
    · rw [if_pos hp, List.mem_cons, ih]
      constructor
      · rintro (rfl | ⟨h1, h2, h3⟩)
        · refine ⟨Nat.le_refl _, by omega, ?_⟩
          intro c h4 h5
          have : c = b := by omega
          subst this
          exact hp
        · refine ⟨by omega, by omega, ?_⟩
          intro c h4 h5
          rcases Nat.lt_or_ge b0 c with h6 | h6
          · exact h3 c h6 h5
          · have : c = b0 := by omega
            subst this
            exact hp
      · rintro ⟨h1, h2, h3⟩
        rcases Nat.lt_or_ge b0 b with h6 | h6
        · exact .inr ⟨h6, by omega, fun c h7 h8 => h3 c (by omega) h8⟩
        · exact .inl (by omega)
    · rw [if_neg hp]
      constructor
      · simp
      · rintro ⟨h1, h2, h3⟩
        exact absurd (h3 b0 (Nat.le_refl _) h1) hp

section
variable {x : Env} {e : ResolveMoves.MoveEnv} {num : Nat} (hf : FuncOk x) (hv : Valid x e num)

section
include hf

theorem lastInst_eq {b : Nat} (hb : b < x.f.numBlocks) : x.f.lastInst b + 1 = (x.f.insns b).2 ∧ (x.f.insns b).1 ≤ x.f.lastInst b := by
  have := hf.ready.nonempty b hb
  unfold Func.lastInst
  omega

theorem entry_le_exit {b : Nat} (hb : b < x.f.numBlocks) : entryPt x.f b < exitPt x.f b := by
  have := lastInst_eq hf hb
  show 2 * _ < 2 * _ + 1
  omega

theorem exit_lt_entry {b c : Nat} (h : b < c) (hc : c < x.f.numBlocks) : exitPt x.f b < entryPt x.f c := by
  have h1 := lastInst_eq hf (b := b) (by omega)
  have h2 := hf.ready.ordered b c h hc
  show 2 * _ + 1 < 2 * _
  omega

theorem entry_mono {b c : Nat} (h : b ≤ c) (hc : c < x.f.numBlocks) : entryPt x.f b ≤ entryPt x.f c := by
  rcases Nat.lt_or_eq_of_le h with h | rfl
  · have := exit_lt_entry hf h hc
    have := entry_le_exit hf (b := b) (by omega)
    omega
  · exact Nat.le_refl _

theorem exit_mono {b c : Nat} (h : b ≤ c) (hc : c < x.f.numBlocks) : exitPt x.f b ≤ exitPt x.f c := by
  rcases Nat.lt_or_eq_of_le h with h | rfl
  · have := exit_lt_entry hf h hc
    have := entry_le_exit hf (b := c) (by omega)
    omega
  · exact Nat.le_refl _

theorem entry_inj {b c : Nat} (hb : b < x.f.numBlocks) (hc : c < x.f.numBlocks) (h : entryPt x.f b = entryPt x.f c) : b = c := by
  rcases Nat.lt_trichotomy b c with h1 | h1 | h1
  · have := exit_lt_entry hf h1 hc
    have := entry_le_exit hf hb
    omega
  · exact h1
  · have := exit_lt_entry hf h1 hb
    have := entry_le_exit hf hc
    omega

theorem exit_inj {b c : Nat} (hb : b < x.f.numBlocks) (hc : c < x.f.numBlocks) (h : exitPt x.f b = exitPt x.f c) : b = c := by
  rcases Nat.lt_trichotomy b c with h1 | h1 | h1
  · have := exit_lt_entry hf h1 hc
    have := entry_le_exit hf hc
    omega
  · exact h1
  · have := exit_lt_entry hf h1 hb
    have := entry_le_exit hf hb
    omega
end

include hf hv

/-- The block of the first point of a range. -/
theorem block_of {v : Nat} {r : FRange} (hr : r ∈ x.ranges v) :
    x.insnBlock (r.range.fr / 2) < x.f.numBlocks ∧ entryPt x.f (x.insnBlock (r.range.fr / 2)) ≤ r.range.fr ∧
      r.range.fr ≤ exitPt x.f (x.insnBlock (r.range.fr / 2)) := by
  obtain ⟨b, hb, h1, h2⟩ := hv.inside v r hr
  have h1 : 2 * (x.f.insns b).1 ≤ r.range.fr := h1
  have h2 : r.range.fr < 2 * (x.f.insns b).2 := h2
  have h3 : x.insnBlock (r.range.fr / 2) = b := (hv.blocks b hb _).mpr (by omega)
  rw [h3]
  have := lastInst_eq hf hb
  refine ⟨hb, h1, ?_⟩
  show _ ≤ 2 * _ + 1
  omega

theorem mem_endBlocks {v : Nat} {r : FRange} (hr : r ∈ x.ranges v) (b : Nat) :
    b ∈ endBlocks x r ↔ b < x.f.numBlocks ∧ r.Has (exitPt x.f b) := by
  obtain ⟨h1, h2, h3⟩ := block_of hf hv hr
  unfold endBlocks blocksWhile
  generalize hb0 : x.insnBlock (r.range.fr / 2) = b0 at *
  rw [mem_takeWhile_range']
  simp only [Bool.not_eq_true', decide_eq_false_iff_not, FRange.Has]
  constructor
  · rintro ⟨h4, h5, h6⟩
    have h7 := h6 b h4 (Nat.le_refl _)
    have := exit_mono hf h4 (by omega)
    refine ⟨by omega, by omega, by omega⟩
  · rintro ⟨h4, h5, h6⟩
    have h7 : b0 ≤ b := by
      rcases Nat.lt_or_ge b b0 with h | h
      · have := exit_lt_entry hf h h1
        omega
      · exact h
    refine ⟨h7, by omega, ?_⟩
    intro c h8 h9
    have := exit_mono hf h9 h4
    omega

theorem mem_startBlocks {v : Nat} {r : FRange} (hr : r ∈ x.ranges v) (b : Nat) :
    b ∈ startBlocks x r ↔ b < x.f.numBlocks ∧ r.Has (entryPt x.f b) := by
  obtain ⟨h1, h2, h3⟩ := block_of hf hv hr
  unfold startBlocks blocksWhile firstStart
  generalize hb0 : x.insnBlock (r.range.fr / 2) = b0 at *
  rw [mem_takeWhile_range']
  simp only [Bool.not_eq_true', decide_eq_false_iff_not, FRange.Has]
  have key : ∀ c, c < x.f.numBlocks →
      ((if entryPt x.f b0 < r.range.fr then b0 + 1 else b0) ≤ c ↔ r.range.fr ≤ entryPt x.f c) := by
    intro c hc
    split
    · rename_i h4
      constructor
      · intro h5
        have := exit_lt_entry hf (b := b0) (c := c) (by omega) hc
        omega
      · intro h5
        rcases Nat.lt_or_ge b0 c with h | h
        · exact h
        · have := entry_mono hf h h1
          omega
    · rename_i h4
      constructor
      · intro h5
        have := entry_mono hf h5 hc
        omega
      · intro h5
        rcases Nat.lt_or_ge c b0 with h | h
        · have := exit_lt_entry hf h h1
          have := entry_le_exit hf hc
          omega
        · exact h
  constructor
  · rintro ⟨h4, h5, h6⟩
    have h7 := h6 b h4 (Nat.le_refl _)
    have h8 : b < x.f.numBlocks := by omega
    refine ⟨h8, (key b h8).mp h4, by omega⟩
  · rintro ⟨h4, h5, h6⟩
    refine ⟨(key b h4).mpr h5, ?_, ?_⟩
    · have := (key b h4).mpr h5
      omega
    · intro c h8 h9
      have := entry_mono hf h9 h4
      omega
end

/-! ### Scans of the parameter lists -/

theorem pairLt_iff {p q : Nat × Nat} : pairLt p q = true ↔ p.1 < q.1 ∨ (p.1 = q.1 ∧ p.2 < q.2) := by
  unfold pairLt
  simp

theorem pairLt_false {p q : Nat × Nat} : pairLt p q = false ↔ q.1 < p.1 ∨ (p.1 = q.1 ∧ q.2 ≤ p.2) := by
  rw [← Bool.not_eq_true, pairLt_iff]
  omega

theorem prefer_some {o : Option Allocation} {a z : Allocation} (h : prefer o a = some z) : o = some z ∨ z = a := by
  unfold prefer at h
  cases o with
  | none => cases h; exact .inr rfl
  | some y =>
    simp only at h
    split at h
    · cases h; exact .inr rfl
    · exact .inl h

theorem prefer_ne {o : Option Allocation} {a : Allocation} : prefer o a ≠ none := by
  unfold prefer
  cases o with
  | none => simp
  | some y =>
    simp only
    split <;> simp

theorem scanOuts_spec (v b : Nat) (a : Allocation) : ∀ (os : List Out) (m : Nat → Nat → Option Allocation),
    (∀ o ∈ (scanOuts v b a os m).1, o ∈ os) ∧
    ∀ y w z, (scanOuts v b a os m).2 y w = some z → m y w = some z ∨
      (z = a ∧ y = b ∧ ∃ o ∈ os, o.fromVreg = v ∧ o.fromBlock = b ∧ o.toVreg = w) := by
  intro os
  induction os with
  | nil => intro m; simp [scanOuts]
  | cons o os ih =>
    intro m
    unfold scanOuts
    split
    · exact ⟨fun _ h => h, fun y w z h => .inl h⟩
    · split
      · rename_i h1
        obtain ⟨i1, i2⟩ := ih (fun x w => if x = b ∧ w = o.toVreg then prefer (m x w) a else m x w)
        refine ⟨fun o' h => List.mem_cons_of_mem _ (i1 o' h), ?_⟩
        intro y w z h
        rcases i2 y w z h with h2 | ⟨h2, h3, o', h4, h5⟩
        · split at h2
          · rename_i h3
            rcases prefer_some h2 with h4 | h4
            · exact .inl h4
            · exact .inr ⟨h4, h3.1, o, List.mem_cons_self, h1.1, h1.2, h3.2.symm⟩
          · exact .inl h2
        · exact .inr ⟨h2, h3, o', List.mem_cons_of_mem _ h4, h5⟩
      · obtain ⟨i1, i2⟩ := ih m
        refine ⟨fun o' h => List.mem_cons_of_mem _ (i1 o' h), ?_⟩
        intro y w z h
        rcases i2 y w z h with h2 | ⟨h2, h3, o', h4, h5⟩
        · exact .inl h2
        · exact .inr ⟨h2, h3, o', List.mem_cons_of_mem _ h4, h5⟩

/-- The list without a prefix whose entries satisfy `P`. -/
def Suf (ins : List In) (P : In → Prop) (L : List In) : Prop := ∃ pre, ins = pre ++ L ∧ ∀ i ∈ pre, P i

theorem Suf.mono {ins L : List In} {P Q : In → Prop} (h : Suf ins P L) (hpq : ∀ i ∈ ins, P i → Q i) : Suf ins Q L := by
  obtain ⟨pre, h1, h2⟩ := h
  exact ⟨pre, h1, fun i hi => hpq i (by rw [h1]; exact List.mem_append_left _ hi) (h2 i hi)⟩

theorem scanIns_spec (v b : Nat) (a : Allocation) : ∀ (is : List In),
    is.Pairwise (fun a b => pairLt (b.toVreg, b.toBlock) (a.toVreg, a.toBlock) = false) →
    Suf is (fun i => pairLt (v, b) (i.toVreg, i.toBlock) = false) (scanIns v b a is).1 ∧
    ∀ d, d ∈ (scanIns v b a is).2 ↔ ∃ i ∈ is, i.toVreg = v ∧ i.toBlock = b ∧ d = ⟨i.fromBlock, b, v, a⟩ := by
  intro is
  induction is with
  | nil => intro _; exact ⟨⟨[], rfl, by simp⟩, by simp [scanIns]⟩
  | cons i is ih =>
    intro hs
    rw [List.pairwise_cons] at hs
    obtain ⟨h1, h2⟩ := hs
    obtain ⟨⟨pre, i1, i2⟩, i3⟩ := ih h2
    unfold scanIns
    split
    · rename_i h3
      refine ⟨⟨[], rfl, by simp⟩, ?_⟩
      intro d
      constructor
      · simp
      · rintro ⟨j, hj, h4, h5, _⟩
        exfalso
        rcases List.mem_cons.mp hj with rfl | hj
        · rw [h4, h5, pairLt_iff] at h3
          dsimp only at h3
          omega
        · have := h1 j hj
          rw [h4, h5] at this
          rw [this] at h3
          cases h3
    · rename_i h3
      have h3 : pairLt (v, b) (i.toVreg, i.toBlock) = false := by simpa using h3
      split
      · rename_i h4
        refine ⟨⟨i :: pre, by rw [List.cons_append]; exact congrArg _ i1, ?_⟩, ?_⟩
        · intro j hj
          rcases List.mem_cons.mp hj with rfl | hj
          · exact h3
          · exact i2 j hj
        · intro d
          simp only [List.mem_cons, i3]
          constructor
          · rintro (rfl | ⟨j, h5, h6⟩)
            · exact ⟨i, .inl rfl, h4.1, h4.2, by rw [h4.1, h4.2]⟩
            · exact ⟨j, .inr h5, h6⟩
          · rintro ⟨j, rfl | h5, h6, h7, h8⟩
            · rw [h6, h7]; exact .inl h8
            · exact .inr ⟨j, h5, h6, h7, h8⟩
      · rename_i h4
        refine ⟨⟨i :: pre, by rw [List.cons_append]; exact congrArg _ i1, ?_⟩, ?_⟩
        · intro j hj
          rcases List.mem_cons.mp hj with rfl | hj
          · exact h3
          · exact i2 j hj
        · intro d
          rw [i3]
          constructor
          · rintro ⟨j, h5, h6⟩
            exact ⟨j, List.mem_cons_of_mem _ h5, h6⟩
          · rintro ⟨j, h5, h6, h7, h8⟩
            rcases List.mem_cons.mp h5 with rfl | h5
            · exact absurd ⟨h6, h7⟩ h4
            · exact ⟨j, h5, h6, h7, h8⟩

/-! ### The loops of one range -/

theorem endBlocks_fold (v : Nat) (a : Allocation) : ∀ (bs : List Nat) (st : St),
    ∃ srcs outs psrcs, bs.foldl (endBlock v a) st = { st with srcs := srcs, outs := outs, psrcs := psrcs } ∧
      (∀ b z, srcs b = some z → st.srcs b = some z ∨ (b ∈ bs ∧ z = a)) ∧
      (∀ o ∈ outs, o ∈ st.outs) ∧
      ∀ b w z, psrcs b w = some z → st.psrcs b w = some z ∨
        (z = a ∧ b ∈ bs ∧ ∃ o ∈ st.outs, o.fromVreg = v ∧ o.fromBlock = b ∧ o.toVreg = w) := by
  intro bs
  induction bs with
  | nil => intro st; exact ⟨_, _, _, rfl, fun _ _ h => .inl h, fun _ h => h, fun _ _ _ h => .inl h⟩
  | cons b bs ih =>
    intro st
    rw [List.foldl_cons]
    obtain ⟨srcs, outs, psrcs, h1, h2, h3, h4⟩ := ih (endBlock v a st b)
    obtain ⟨s1, s2⟩ := scanOuts_spec v b a st.outs st.psrcs
    refine ⟨srcs, outs, psrcs, by rw [h1]; rfl, ?_, ?_, ?_⟩
    · intro c z hc
      rcases h2 c z hc with h5 | ⟨h5, h6⟩
      · have h5 : Ion.upd st.srcs b (prefer (st.srcs b) a) c = some z := h5
        unfold Ion.upd at h5
        split at h5
        · rename_i h6
          rcases prefer_some h5 with h7 | h7
          · rw [h6]; exact .inl h7
          · exact .inr ⟨by rw [h6]; exact List.mem_cons_self, h7⟩
        · exact .inl h5
      · exact .inr ⟨List.mem_cons_of_mem _ h5, h6⟩
    · intro o ho
      exact s1 o (h3 o ho)
    · intro c w z hc
      rcases h4 c w z hc with h5 | ⟨h5, h6, o, h7, h8⟩
      · rcases s2 c w z h5 with h6 | ⟨h6, h7, h8⟩
        · exact .inl h6
        · exact .inr ⟨h6, by rw [h7]; exact List.mem_cons_self, by rw [h7]; exact h8⟩
      · exact .inr ⟨h5, List.mem_cons_of_mem _ h6, o, s1 o h7, h8⟩

theorem startBlocks_fold (x : Env) (v : Nat) (r : FRange) : ∀ (bs : List Nat) (st : St),
    ∃ bi, bs.foldl (startBlock x v r) st = { st with
        pdests := st.pdests ++ bs.flatMap (fun b => (scanIns v b r.alloc st.buf.prevIns).2)
        buf := { st.buf with bufferedIns := bi }
        dests := st.dests ++ bs.flatMap (predDests x v r) } ∧
      (bi = st.buf.bufferedIns ∨ ∃ b ∈ bs, bi = (scanIns v b r.alloc st.buf.prevIns).1) := by
  intro bs
  induction bs with
  | nil => intro st; exact ⟨st.buf.bufferedIns, by simp, .inl rfl⟩
  | cons b bs ih =>
    intro st
    rw [List.foldl_cons]
    obtain ⟨bi, h1, h2⟩ := ih (startBlock x v r st b)
    refine ⟨bi, ?_, ?_⟩
    · rw [h1]
      simp [startBlock]
    · rcases h2 with h2 | ⟨c, h3, h4⟩
      · exact .inr ⟨b, List.mem_cons_self, h2⟩
      · exact .inr ⟨c, List.mem_cons_of_mem _ h3, h4⟩

theorem uses_fold (r : FRange) : ∀ (us : List Ion.Use) (st st' : St), us.foldlM (applyUse r) st = some st' →
    ∃ allocs reuse, st' = { st with allocs := allocs, reuse := reuse } ∧
      (∀ i k, (allocs i k = r.alloc ∧ ∃ u ∈ us, u.pos / 2 = i ∧ u.slot = k) ∨
        (allocs i k = st.allocs i k ∧ ¬ ∃ u ∈ us, u.pos / 2 = i ∧ u.slot = k)) ∧
      ∀ i, i ∈ reuse ↔ i ∈ st.reuse ∨ ∃ u ∈ us, u.pos / 2 = i ∧ ∃ j, u.op.constraint = .Reuse j := by
  intro us
  induction us with
  | nil =>
    intro st st' h
    cases h
    exact ⟨_, _, rfl, fun i k => .inr ⟨rfl, by simp⟩, by simp⟩
  | cons u us ih =>
    intro st st' h
    rw [List.foldlM_cons] at h
    unfold applyUse at h
    split at h
    · rename_i h0
      obtain ⟨allocs, reuse, h1, h2, h3⟩ := ih _ _ h
      refine ⟨allocs, reuse, by rw [h1], ?_, ?_⟩
      · intro i k
        rcases h2 i k with ⟨h4, u', h5, h6⟩ | ⟨h4, h5⟩
        · exact .inl ⟨h4, u', List.mem_cons_of_mem _ h5, h6⟩
        · by_cases h6 : u.pos / 2 = i ∧ u.slot = k
          · refine .inl ⟨?_, u, List.mem_cons_self, h6⟩
            rw [h4]
            show setAlloc st.allocs (u.pos / 2) u.slot r.alloc i k = _
            unfold setAlloc
            rw [if_pos ⟨h6.1.symm, h6.2.symm⟩]
          · refine .inr ⟨?_, ?_⟩
            · rw [h4]
              show setAlloc st.allocs (u.pos / 2) u.slot r.alloc i k = _
              unfold setAlloc
              rw [if_neg (fun h => h6 ⟨h.1.symm, h.2.symm⟩)]
            · rintro ⟨u', h7, h8⟩
              rcases List.mem_cons.mp h7 with rfl | h7
              · exact h6 h8
              · exact h5 ⟨u', h7, h8⟩
      · intro i
        rw [h3]
        dsimp only
        cases hc : u.op.constraint <;> simp [hc, or_assoc, eq_comm]
    · cases h

end Regalloc.Apply
