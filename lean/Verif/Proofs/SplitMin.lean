import Verif.Proofs.Split

namespace Regalloc.Ion

/-- What `split_into_minimal_bundles` has built so far: `ps` are the new ranges, `S` the new
entries of the spill bundle, `em` the ranges whose uses were taken. -/
structure Built (s1 : St) (spill spillset : Nat) (m : MinSt) (ps : List LRange) (S : List Entry) (em : List Nat) : Prop where
  nR : m.st.nRanges = s1.nRanges + ps.length
  new : ∀ k p, ps[k]? = some p → m.st.ranges (s1.nRanges + k) = p
  old : ∀ j < s1.nRanges, m.st.ranges j = if j ∈ em then { s1.ranges j with uses := [] } else s1.ranges j
  lrs : m.newLrs = ps.zipIdx.map (fun x => (x.1.vreg, s1.nRanges + x.2))
  nB : m.st.nBundles = s1.nBundles + m.newBundles.length
  bs : m.newBundles = List.range' s1.nBundles m.newBundles.length
  fresh : ∀ c, s1.nBundles ≤ c → c < m.st.nBundles → ∃ k p u, ps[k]? = some p ∧ p.bundle = some c ∧
    p.uses = [u] ∧ p.range = minimalRangeForUse u ∧ p.vreg ≠ none ∧
    m.st.bundles c = { Bundle.fresh with spillset := spillset, ranges := [⟨p.range, s1.nRanges + k⟩] }
  pcs : ∀ k p, ps[k]? = some p → p.bundle = some spill ∨
    ∃ c, s1.nBundles ≤ c ∧ c < m.st.nBundles ∧ p.bundle = some c ∧
      m.st.bundles c = { Bundle.fresh with spillset := spillset, ranges := [⟨p.range, s1.nRanges + k⟩] }
  sp : m.st.bundles spill = { s1.bundles spill with ranges := (s1.bundles spill).ranges ++ S }
  spS : ∀ x, x ∈ S ↔ ∃ k p, x = ⟨p.range, s1.nRanges + k⟩ ∧ ps[k]? = some p ∧ p.bundle = some spill
  others : ∀ c < s1.nBundles, c ≠ spill → m.st.bundles c = s1.bundles c
  rest : m.st.spillsets = s1.spillsets ∧ m.st.vregs = s1.vregs ∧ m.st.queue = s1.queue
  spLt : spill < s1.nBundles
  spN : (S.map (·.index)).Nodup

theorem getElem?_snoc {α : Type} (l : List α) (x : α) (k : Nat) (p : α) :
    (l ++ [x])[k]? = some p ↔ l[k]? = some p ∨ (k = l.length ∧ x = p) := by
  rw [List.getElem?_append]
  by_cases h : k < l.length
  · rw [if_pos h]
    constructor
    · exact .inl
    · rintro (h | ⟨h, -⟩)
      · exact h
      · omega
  · rw [if_neg h]
    have hn : l[k]? = none := by simp; omega
    rw [hn]
    by_cases hk : k = l.length
    · subst hk; simp
    · have : [x][k - l.length]? = none := by simp; omega
      rw [this]; simp [hk]

theorem lt_of_getElem? {α : Type} {l : List α} {k : Nat} {p : α} (h : l[k]? = some p) : k < l.length := by
  rcases Nat.lt_or_ge k l.length with h1 | h1
  · exact h1
  · rw [List.getElem?_eq_none h1] at h; cases h

theorem zipIdx_snoc (ps : List LRange) (p : LRange) : (ps ++ [p]).zipIdx = ps.zipIdx ++ [(p, ps.length)] := by
  rw [List.zipIdx_append]; simp

/-- One minimal range in a bundle of its own. -/
theorem Built.piece {s1 : St} {spill ss : Nat} {m : MinSt} {ps : List LRange} {S : List Entry} {em : List Nat}
    (h : Built s1 spill ss m ps S em) (v : Option Nat) (hv : v ≠ none) (u : Use) (d : Bool) (su : List Use) :
    Built s1 spill ss
      { st := { m.st with
          ranges := upd m.st.ranges m.st.nRanges ⟨minimalRangeForUse u, v, some m.st.nBundles, d, [u]⟩
          nRanges := m.st.nRanges + 1
          bundles := upd m.st.bundles m.st.nBundles
            { Bundle.fresh with spillset := ss, ranges := [⟨minimalRangeForUse u, m.st.nRanges⟩] }
          nBundles := m.st.nBundles + 1 }
        newLrs := m.newLrs ++ [(v, m.st.nRanges)]
        newBundles := m.newBundles ++ [m.st.nBundles]
        spillUses := su }
      (ps ++ [⟨minimalRangeForUse u, v, some m.st.nBundles, d, [u]⟩]) S em := by
  have hnR := h.nR
  have hnB := h.nB
  have hsl := h.spLt
  constructor
  case nR => dsimp only; rw [List.length_append, List.length_singleton]; omega
  case new =>
    intro k p hk
    dsimp only
    rcases (getElem?_snoc _ _ _ _).mp hk with hk | ⟨rfl, rfl⟩
    · have := lt_of_getElem? hk
      rw [upd_ne _ _ (by omega)]; exact h.new k p hk
    · rw [hnR, upd_same]
  case old =>
    intro j hj
    dsimp only
    rw [upd_ne _ _ (by omega)]; exact h.old j hj
  case lrs =>
    dsimp only
    rw [zipIdx_snoc, List.map_append, h.lrs, hnR]; rfl
  case nB => dsimp only; rw [List.length_append, List.length_singleton]; omega
  case bs =>
    dsimp only
    rw [List.length_append, List.length_singleton, List.range'_concat, ← h.bs, hnB]; simp
  case fresh =>
    intro c h1 h2
    dsimp only at h2 ⊢
    by_cases hc : c = m.st.nBundles
    · subst hc
      refine ⟨ps.length, _, u, (getElem?_snoc _ _ _ _).mpr (.inr ⟨rfl, rfl⟩), rfl, rfl, rfl, hv, ?_⟩
      rw [upd_same, hnR]
    · obtain ⟨k, p, u', a1, a2, a3, a4, a5, a6⟩ := h.fresh c h1 (by omega)
      exact ⟨k, p, u', (getElem?_snoc _ _ _ _).mpr (.inl a1), a2, a3, a4, a5, by rw [upd_ne _ _ hc]; exact a6⟩
  case pcs =>
    intro k p hk
    dsimp only
    rcases (getElem?_snoc _ _ _ _).mp hk with hk | ⟨rfl, rfl⟩
    · rcases h.pcs k p hk with h1 | ⟨c, c1, c2, c3, c4⟩
      · exact .inl h1
      · exact .inr ⟨c, c1, by omega, c3, by rw [upd_ne _ _ (by omega)]; exact c4⟩
    · exact .inr ⟨m.st.nBundles, by omega, by omega, rfl, by rw [upd_same, hnR]⟩
  case sp => dsimp only; rw [upd_ne _ _ (by omega)]; exact h.sp
  case spS =>
    intro x
    rw [h.spS x]
    constructor
    · rintro ⟨k, p, a1, a2, a3⟩; exact ⟨k, p, a1, (getElem?_snoc _ _ _ _).mpr (.inl a2), a3⟩
    · rintro ⟨k, p, a1, a2, a3⟩
      rcases (getElem?_snoc _ _ _ _).mp a2 with a2 | ⟨-, rfl⟩
      · exact ⟨k, p, a1, a2, a3⟩
      · injection a3 with a3; omega
  case others =>
    intro c h1 h2
    dsimp only; rw [upd_ne _ _ (by omega)]; exact h.others c h1 h2
  case rest => exact h.rest
  case spLt => exact hsl
  case spN => exact h.spN

/-- One range in the spill bundle. -/
theorem Built.spillPiece {s1 : St} {spill ss : Nat} {m : MinSt} {ps : List LRange} {S : List Entry} {em : List Nat}
    (h : Built s1 spill ss m ps S em) (v : Option Nat) (r : RKey) (d : Bool) (us su : List Use) :
    Built s1 spill ss
      { st := St.modB { m.st with
          ranges := upd m.st.ranges m.st.nRanges ⟨r, v, some spill, d, us⟩
          nRanges := m.st.nRanges + 1 } spill (fun b => { b with ranges := b.ranges ++ [⟨r, m.st.nRanges⟩] })
        newLrs := m.newLrs ++ [(v, m.st.nRanges)]
        newBundles := m.newBundles
        spillUses := su }
      (ps ++ [⟨r, v, some spill, d, us⟩]) (S ++ [⟨r, m.st.nRanges⟩]) em := by
  have hnR := h.nR
  have hnB := h.nB
  have hsl := h.spLt
  constructor
  case nR => dsimp only [St.modB]; rw [List.length_append, List.length_singleton]; omega
  case new =>
    intro k p hk
    dsimp only [St.modB]
    rcases (getElem?_snoc _ _ _ _).mp hk with hk | ⟨rfl, rfl⟩
    · have := lt_of_getElem? hk
      rw [upd_ne _ _ (by omega)]; exact h.new k p hk
    · rw [hnR, upd_same]
  case old =>
    intro j hj
    dsimp only [St.modB]
    rw [upd_ne _ _ (by omega)]; exact h.old j hj
  case lrs =>
    dsimp only
    rw [zipIdx_snoc, List.map_append, h.lrs, hnR]; rfl
  case nB => exact hnB
  case bs => exact h.bs
  case fresh =>
    intro c h1 h2
    dsimp only [St.modB] at h2 ⊢
    obtain ⟨k, p, u', a1, a2, a3, a4, a5, a6⟩ := h.fresh c h1 h2
    exact ⟨k, p, u', (getElem?_snoc _ _ _ _).mpr (.inl a1), a2, a3, a4, a5, by rw [upd_ne _ _ (by omega)]; exact a6⟩
  case pcs =>
    intro k p hk
    dsimp only [St.modB]
    rcases (getElem?_snoc _ _ _ _).mp hk with hk | ⟨rfl, rfl⟩
    · rcases h.pcs k p hk with h1 | ⟨c, c1, c2, c3, c4⟩
      · exact .inl h1
      · exact .inr ⟨c, c1, c2, c3, by rw [upd_ne _ _ (by omega)]; exact c4⟩
    · exact .inl rfl
  case sp => dsimp only [St.modB]; rw [upd_same, h.sp]; simp
  case spS =>
    intro x
    rw [List.mem_append, List.mem_singleton, h.spS x]
    constructor
    · rintro (⟨k, p, a1, a2, a3⟩ | rfl)
      · exact ⟨k, p, a1, (getElem?_snoc _ _ _ _).mpr (.inl a2), a3⟩
      · exact ⟨ps.length, _, by rw [hnR], (getElem?_snoc _ _ _ _).mpr (.inr ⟨rfl, rfl⟩), rfl⟩
    · rintro ⟨k, p, a1, a2, a3⟩
      rcases (getElem?_snoc _ _ _ _).mp a2 with a2 | ⟨rfl, rfl⟩
      · exact .inl ⟨k, p, a1, a2, a3⟩
      · exact .inr (by rw [a1, hnR])
  case others =>
    intro c h1 h2
    dsimp only [St.modB]; rw [upd_ne _ _ h2]; exact h.others c h1 h2
  case rest => exact h.rest
  case spLt => exact hsl
  case spN =>
    rw [List.map_append, List.nodup_append]
    refine ⟨h.spN, by simp, ?_⟩
    rintro i hi j hj rfl
    obtain ⟨x, hx, rfl⟩ := List.mem_map.mp hi
    obtain ⟨k, p, rfl, hk, -⟩ := (h.spS x).mp hx
    have := lt_of_getElem? hk
    simp at hj
    omega

/-- The uses of a range are taken away. -/
theorem Built.take {s1 : St} {spill ss : Nat} {m : MinSt} {ps : List LRange} {S : List Entry} {em : List Nat}
    (h : Built s1 spill ss m ps S em) (i : Nat) (hi : i < s1.nRanges) :
    Built s1 spill ss { m with st := m.st.modR i (fun r => { r with uses := [] }) } ps S (i :: em) := by
  constructor
  case nR => exact h.nR
  case new =>
    intro k p hk
    dsimp only [St.modR]
    rw [upd_ne _ _ (by omega)]; exact h.new k p hk
  case old =>
    intro j hj
    dsimp only [St.modR]
    by_cases hji : j = i
    · subst hji
      rw [upd_same, if_pos (by simp), h.old j hj]
      split <;> rfl
    · rw [upd_ne _ _ hji, h.old j hj]
      simp [hji]
  case lrs => exact h.lrs
  case nB => exact h.nB
  case bs => exact h.bs
  case fresh => exact h.fresh
  case pcs => exact h.pcs
  case sp => exact h.sp
  case spS => exact h.spS
  case others => exact h.others
  case rest => exact h.rest
  case spLt => exact h.spLt
  case spN => exact h.spN

/-- A minimal range and its only use. -/
structure Mini (spill : Nat) (v : Option Nat) (u : Use) (p : LRange) : Prop where
  range : p.range = minimalRangeForUse u
  vreg : p.vreg = v
  uses : p.uses = [u]
  bundle : p.bundle ≠ some spill
  flag : p.startsAtDef = decide (u.op.kind = .Def)

/-- Whether a use goes to the spill bundle. -/
def isAny (u : Use) : Bool := decide (u.op.constraint = .Any)

/-- Start of the spill range: after the last definition that has its own range. -/
def spillFrom (fr : Nat) : List Use → Nat
  | [] => fr
  | u :: us => if !isAny u && decide (u.op.kind = .Def) then spillFrom (2 * (u.pos / 2) + 2) us else spillFrom fr us

theorem minUses_spec {s1 : St} {spill ss : Nat} {S : List Entry} {em : List Nat} {v : Option Nat} (hv : v ≠ none) (us : List Use) :
    ∀ {m : MinSt} {ps : List LRange} {r : RKey} {d : Bool}, Built s1 spill ss m ps S em →
    ∃ m' qs d', minUses ss v us (m, r, d) = (m', ⟨spillFrom r.fr us, r.to⟩, d') ∧
      d' = (d || us.any (fun u => isAny u && decide (u.op.kind = .Def))) ∧ Built s1 spill ss m' (ps ++ qs) S em ∧
      List.Forall₂ (Mini spill v) (us.filter (fun u => !isAny u)) qs ∧ m'.spillUses = m.spillUses ++ us.filter isAny := by
  induction us with
  | nil => intro m ps r d h; exact ⟨m, [], d, rfl, by simp, by simpa using h, .nil, by simp⟩
  | cons u us ih =>
    intro m ps r d h
    unfold minUses minUse
    dsimp only
    by_cases ha : u.op.constraint = .Any
    · rw [if_pos ha]
      have hany : isAny u = true := by simp [isAny, ha]
      have hB : Built s1 spill ss { m with spillUses := m.spillUses ++ [u] } ps S em :=
        ⟨h.nR, h.new, h.old, h.lrs, h.nB, h.bs, h.fresh, h.pcs, h.sp, h.spS, h.others, h.rest, h.spLt, h.spN⟩
      obtain ⟨m', qs, d', a1, a0, a2, a3, a4⟩ := ih (r := r) (d := d || decide (u.op.kind = .Def)) hB
      refine ⟨m', qs, d', ?_, by rw [a0]; simp [hany, Bool.or_assoc], a2, ?_, ?_⟩
      · rw [a1]; simp [spillFrom, hany]
      · rw [List.filter_cons_of_neg (by simp [hany])]; exact a3
      · rw [a4, List.filter_cons_of_pos hany]; simp
    · rw [if_neg ha]
      have hany : isAny u = false := by simp [isAny, ha]
      have hB := h.piece v hv u (decide (u.op.kind = .Def)) m.spillUses
      obtain ⟨m', qs, d', a1, a0, a2, a3, a4⟩ := ih (d := d)
        (r := if decide (u.op.kind = .Def) = true then { r with fr := ptBefore (instOf u.pos + 1) } else r) hB
      have hne : m.st.nBundles ≠ spill := by have := h.spLt; have := h.nB; omega
      refine ⟨m', ⟨minimalRangeForUse u, v, some m.st.nBundles, decide (u.op.kind = .Def), [u]⟩ :: qs, d', ?_,
        by rw [a0]; simp [hany], ?_, ?_, ?_⟩
      · simp only [St.addRange]
        refine a1.trans ?_
        have : ptBefore (instOf u.pos + 1) = 2 * (u.pos / 2) + 2 := by unfold ptBefore instOf; omega
        by_cases hd : u.op.kind = .Def
        · simp [spillFrom, hany, hd, this]
        · simp [spillFrom, hany, hd]
      · simpa using a2
      · rw [List.filter_cons_of_pos (by simp [hany])]
        refine .cons ⟨rfl, rfl, rfl, ?_, rfl⟩ a3
        intro hh; injection hh with hh; exact hne hh
      · rw [a4, List.filter_cons_of_neg (by simp [hany])]

theorem spillFrom_cases (us : List Use) : ∀ fr, (spillFrom fr us = fr ∧ ∀ u ∈ us, isAny u = false → u.op.kind ≠ .Def) ∨
    ∃ d ∈ us, isAny d = false ∧ d.op.kind = .Def ∧ spillFrom fr us = 2 * (d.pos / 2) + 2 := by
  induction us with
  | nil => intro fr; exact .inl ⟨rfl, by simp⟩
  | cons u us ih =>
    intro fr
    unfold spillFrom
    by_cases hc : (!isAny u && decide (u.op.kind = .Def)) = true
    · rw [if_pos hc]
      simp only [Bool.and_eq_true, Bool.not_eq_true', decide_eq_true_eq] at hc
      rcases ih (2 * (u.pos / 2) + 2) with ⟨h1, -⟩ | ⟨d, h1, h2, h3, h4⟩
      · exact .inr ⟨u, by simp, hc.1, hc.2, h1⟩
      · exact .inr ⟨d, by simp [h1], h2, h3, h4⟩
    · rw [if_neg hc]
      simp only [Bool.and_eq_true, Bool.not_eq_true', decide_eq_true_eq, not_and] at hc
      rcases ih fr with ⟨h1, h2⟩ | ⟨d, h1, h2, h3, h4⟩
      · refine .inl ⟨h1, ?_⟩
        intro x hx
        rcases List.mem_cons.mp hx with rfl | hx
        · exact hc
        · exact h2 x hx
      · exact .inr ⟨d, by simp [h1], h2, h3, h4⟩

theorem eq_of_filter_le_one {α : Type} {l : List α} {f : α → Bool} (h : (l.filter f).length ≤ 1) {a b : α}
    (ha : a ∈ l) (hb : b ∈ l) (fa : f a = true) (fb : f b = true) : a = b := by
  have h1 : a ∈ l.filter f := List.mem_filter.mpr ⟨ha, fa⟩
  have h2 : b ∈ l.filter f := List.mem_filter.mpr ⟨hb, fb⟩
  match hl : l.filter f with
  | [] => rw [hl] at h1; simp at h1
  | [x] => rw [hl] at h1 h2; simp at h1 h2; rw [h1, h2]
  | x :: y :: t => rw [hl] at h; simp at h

theorem minimal_bounds (u : Use) : Covers (minimalRangeForUse u) u.pos ∧ 2 * (u.pos / 2) ≤ (minimalRangeForUse u).fr ∧
    (minimalRangeForUse u).to ≤ 2 * (u.pos / 2) + 2 ∧
    (u.op.kind = .Def → (minimalRangeForUse u).fr = u.pos ∧ (minimalRangeForUse u).to = 2 * (u.pos / 2) + 2) ∧
    (u.op.kind = .Use → (minimalRangeForUse u).fr = 2 * (u.pos / 2) ∧ (minimalRangeForUse u).to = u.pos + 1) := by
  unfold minimalRangeForUse ptBefore ptAfter instOf Covers
  dsimp only
  split <;> cases u.op.kind <;> simp <;> omega

theorem Mini.mem {spill : Nat} {v : Option Nat} {us : List Use} {qs : List LRange} (h : List.Forall₂ (Mini spill v) us qs) :
    (∀ p ∈ qs, ∃ u ∈ us, Mini spill v u p) ∧ (∀ u ∈ us, ∃ p ∈ qs, Mini spill v u p) ∧ qs.flatMap (fun p => p.uses) = us := by
  induction h with
  | nil => simp
  | @cons u p us qs h1 _ ih =>
    obtain ⟨i1, i2, i3⟩ := ih
    refine ⟨?_, ?_, ?_⟩
    · intro q hq
      rcases List.mem_cons.mp hq with rfl | hq
      · exact ⟨u, by simp, h1⟩
      · obtain ⟨x, a, b⟩ := i1 q hq; exact ⟨x, by simp [a], b⟩
    · intro x hx
      rcases List.mem_cons.mp hx with rfl | hx
      · exact ⟨p, by simp, h1⟩
      · obtain ⟨q, a, b⟩ := i2 x hx; exact ⟨q, by simp [a], b⟩
    · rw [List.flatMap_cons, i3, h1.uses]; rfl

/-- Uses that accept anything lie in the spill range. -/
theorem any_after {e : Entry} {us : List Use} (hd : DefFirst e us) (hin : ∀ u ∈ us, Covers e.range u.pos) :
    ∀ u ∈ us, isAny u = true → spillFrom e.range.fr us ≤ u.pos := by
  intro u hu ha
  rcases spillFrom_cases us e.range.fr with ⟨h1, -⟩ | ⟨d, h1, h2, h3, h4⟩
  · rw [h1]; exact (hin u hu).1
  · rw [h4]
    cases hk : u.op.kind with
    | Use => have := hd.later d h1 h3 u hu hk; omega
    | Def =>
      have : u = d := eq_of_filter_le_one hd.single hu h1 (by simpa using hk) (by simpa using h3)
      rw [this, h2] at ha; cases ha

theorem minEntry_spec {s1 : St} {spill ss : Nat} {S : List Entry} {em : List Nat} {m : MinSt} {ps : List LRange} {e : Entry}
    (h : Built s1 spill ss m ps S em) (hsu : m.spillUses = []) (hi : e.index < s1.nRanges) (hem : e.index ∉ em)
    (hv : (s1.ranges e.index).vreg ≠ none) (hne : e.range.fr < e.range.to)
    (hin : ∀ u ∈ (s1.ranges e.index).uses, Covers e.range u.pos) (hd : DefFirst e (s1.ranges e.index).uses) :
    ∃ m' qs S', minEntry ss spill m e = some m' ∧ Built s1 spill ss m' (ps ++ qs) S' (e.index :: em) ∧
      m'.spillUses = [] ∧ Replaces spill e (s1.ranges e.index) qs := by
  have hr : m.st.ranges e.index = s1.ranges e.index := by rw [h.old _ hi, if_neg hem]
  unfold minEntry
  dsimp only
  rw [hr]
  generalize hus : (s1.ranges e.index).uses = us at *
  obtain ⟨m1, qs, d', a1, a0, a2, a3, a4⟩ := minUses_spec hv us (r := e.range) (d := false) (h.take e.index hi)
  rw [a1]
  dsimp only
  dsimp only at a4
  rw [hsu, List.nil_append] at a4
  obtain ⟨q1, q2, q3⟩ := Mini.mem a3
  have hafter := any_after hd hin
  have hmini : ∀ p ∈ qs, p.vreg = (s1.ranges e.index).vreg ∧ (∀ u ∈ p.uses, Covers p.range u.pos) ∧
      p.bundle ≠ some spill ∧ ∃ u ∈ us, p.uses = [u] ∧ u.op.constraint ≠ .Any ∧
      2 * (u.pos / 2) ≤ p.range.fr ∧ p.range.to ≤ 2 * (u.pos / 2) + 2 ∧
      (u.op.kind = .Def → p.range.fr = u.pos ∧ p.range.to = 2 * (u.pos / 2) + 2) ∧
      (u.op.kind = .Use → p.range.fr = 2 * (u.pos / 2) ∧ p.range.to = u.pos + 1) := by
    intro p hp
    obtain ⟨u, hu, hm⟩ := q1 p hp
    obtain ⟨hu1, hu2⟩ := List.mem_filter.mp hu
    have hb := minimal_bounds u
    refine ⟨hm.vreg, ?_, hm.bundle, u, hu1, hm.uses, ?_, ?_⟩
    · rw [hm.uses, hm.range]; intro x hx; rw [List.mem_singleton] at hx; subst hx; exact hb.1
    · simpa [isAny] using hu2
    · rw [hm.range]; exact ⟨hb.2.1, hb.2.2.1, hb.2.2.2.1, hb.2.2.2.2⟩
  have hpos : ∀ p ∈ qs, p.range.fr < p.range.to := by
    intro p hp
    obtain ⟨u, -, hm⟩ := q1 p hp
    have := (minimal_bounds u).1
    rw [hm.range]
    unfold Covers at this
    omega
  have hflag : ∀ p ∈ qs, p.startsAtDef = true ↔ ∃ u ∈ p.uses, u.op.kind = .Def := by
    intro p hp
    obtain ⟨u, -, hm⟩ := q1 p hp
    rw [hm.flag, hm.uses]; simp
  have hhead : ∀ q, Covers e.range q → q < spillFrom e.range.fr us → ∃ p ∈ qs, Covers p.range q := by
    intro q hq hlt
    rcases spillFrom_cases us e.range.fr with ⟨h1, -⟩ | ⟨d, h1, h2, h3, h4⟩
    · rw [h1] at hlt; unfold Covers at hq; omega
    · obtain ⟨p, hp, hm⟩ := q2 d (List.mem_filter.mpr ⟨h1, by simp [h2]⟩)
      refine ⟨p, hp, ?_⟩
      have hb := (minimal_bounds d).2.2.2.1 h3
      have hs := hd.start d h1 h3
      rw [hm.range]
      unfold Covers at *
      omega
  have hperm : (us.filter (fun u => !isAny u) ++ us.filter isAny).Perm us :=
    List.perm_append_comm.trans (List.filter_append_perm isAny us)
  by_cases hemp : (RKey.mk (spillFrom e.range.fr us) e.range.to).isEmpty = true
  · rw [if_pos hemp]
    have hge : spillFrom e.range.fr us ≥ e.range.to := by simpa [RKey.isEmpty] using hemp
    have hnil : us.filter isAny = [] := by
      rw [List.filter_eq_nil_iff]
      intro u hu ha
      have := hafter u hu ha
      have := (hin u hu).2
      omega
    rw [a4, hnil]
    refine ⟨m1, qs, S, rfl, a2, by rw [a4, hnil], ?_⟩
    constructor
    case owner => exact fun p hp => (hmini p hp).1
    case nonempty => exact hpos
    case uses => rw [q3, hus]; rw [hnil, List.append_nil] at hperm; exact hperm
    case cover => intro q hq; exact hhead q hq (by unfold Covers at hq; omega)
    case inside => exact fun p hp => (hmini p hp).2.1
    case kinds => rw [hus]; exact fun p hp => .inr (hmini p hp).2.2
    case flag => exact hflag
    case single =>
      intro k k' p p' h1 _ h3 _
      exact absurd h3 (hmini p (List.mem_of_getElem? h1)).2.2.1
  · rw [if_neg hemp]
    have hlt : spillFrom e.range.fr us < e.range.to := by
      simp [RKey.isEmpty] at hemp; omega
    refine ⟨_, qs ++ [⟨⟨spillFrom e.range.fr us, e.range.to⟩, (s1.ranges e.index).vreg, some spill, d', m1.spillUses⟩],
      S ++ [⟨⟨spillFrom e.range.fr us, e.range.to⟩, m1.st.nRanges⟩], rfl, ?_, rfl, ?_⟩
    · rw [← List.append_assoc]
      exact a2.spillPiece _ _ _ _ _
    · rw [a4]
      constructor
      case owner =>
        intro p hp
        rw [List.mem_append, List.mem_singleton] at hp
        rcases hp with hp | rfl
        · exact (hmini p hp).1
        · rfl
      case nonempty =>
        intro p hp
        rw [List.mem_append, List.mem_singleton] at hp
        rcases hp with hp | rfl
        · exact hpos p hp
        · exact hlt
      case uses =>
        rw [List.flatMap_append, q3, hus]
        simpa using hperm
      case cover =>
        intro q hq
        by_cases hlt : q < spillFrom e.range.fr us
        · obtain ⟨p, hp, hc⟩ := hhead q hq hlt
          exact ⟨p, by simp [hp], hc⟩
        · exact ⟨_, List.mem_append.mpr (.inr (List.mem_singleton.mpr rfl)), Nat.le_of_not_lt hlt, hq.2⟩
      case inside =>
        intro p hp
        rw [List.mem_append, List.mem_singleton] at hp
        rcases hp with hp | rfl
        · exact (hmini p hp).2.1
        · intro u hu
          obtain ⟨hu1, hu2⟩ := List.mem_filter.mp hu
          exact ⟨hafter u hu1 hu2, (hin u hu1).2⟩
      case kinds =>
        intro p hp
        rw [List.mem_append, List.mem_singleton] at hp
        rcases hp with hp | rfl
        · rw [hus]; exact .inr (hmini p hp).2.2
        · refine .inl ⟨rfl, ?_, ?_, rfl, ?_⟩
          · intro u hu
            have := (List.mem_filter.mp hu).2
            simpa [isAny] using this
          · refine ⟨?_, Nat.le_refl _, ?_, .inl rfl⟩
            · dsimp only
              rcases spillFrom_cases us e.range.fr with ⟨h1, -⟩ | ⟨d, h1, h2, h3, h4⟩
              · omega
              · have := (hin d h1).1; omega
            · dsimp only
              rcases spillFrom_cases us e.range.fr with ⟨h1, -⟩ | ⟨d, h1, h2, h3, h4⟩
              · exact .inl h1
              · right; omega
          · rw [hus]
            intro d hd1 hd2 hd3
            dsimp only
            rcases spillFrom_cases us e.range.fr with ⟨-, h2⟩ | ⟨d, h1, h2, h3, h4⟩
            · exact absurd hd2 (h2 d hd1 (by simpa [isAny] using hd3))
            · have := hd.start d h1 h3; omega
      case flag =>
        intro p hp
        rw [List.mem_append, List.mem_singleton] at hp
        rcases hp with hp | rfl
        · exact hflag p hp
        · dsimp only
          rw [a0]
          simp only [Bool.false_or, List.any_eq_true, Bool.and_eq_true, decide_eq_true_eq, List.mem_filter]
          constructor
          · rintro ⟨x, h1, h2, h3⟩; exact ⟨x, ⟨h1, h2⟩, h3⟩
          · rintro ⟨x, ⟨h1, h2⟩, h3⟩; exact ⟨x, h1, h2, h3⟩
      case single =>
        intro k k' p p' h1 h2 h3 h4
        rw [getElem?_snoc] at h1 h2
        rcases h1 with h1 | h1
        · exact absurd h3 (hmini p (List.mem_of_getElem? h1)).2.2.1
        · rcases h2 with h2 | h2
          · exact absurd h4 (hmini p' (List.mem_of_getElem? h2)).2.2.1
          · omega

theorem minEntries_spec {s1 : St} {spill ss : Nat} (es : List Entry) :
    ∀ {S : List Entry} {em : List Nat} {m : MinSt} {ps : List LRange}, Built s1 spill ss m ps S em → m.spillUses = [] →
    (∀ e ∈ es, e.index < s1.nRanges ∧ e.index ∉ em ∧ (s1.ranges e.index).vreg ≠ none ∧ e.range.fr < e.range.to ∧
      (∀ u ∈ (s1.ranges e.index).uses, Covers e.range u.pos) ∧ DefFirst e (s1.ranges e.index).uses) →
    (es.map (·.index)).Nodup →
    ∃ m' chunks S', es.foldlM (minEntry ss spill) m = some m' ∧
      Built s1 spill ss m' (ps ++ chunks.flatten) S' (es.reverse.map (·.index) ++ em) ∧
      List.Forall₂ (fun e qs => Replaces spill e (s1.ranges e.index) qs) es chunks := by
  induction es with
  | nil => intro S em m ps h _ _ _; exact ⟨m, [], S, rfl, by simpa using h, .nil⟩
  | cons e es ih =>
    intro S em m ps h hsu hes hnd
    obtain ⟨h1, h2, h3, h4, h5, h6⟩ := hes e (by simp)
    obtain ⟨m1, qs, S1, a1, a2, a3, a4⟩ := minEntry_spec h hsu h1 h2 h3 h4 h5 h6
    rw [List.map_cons, List.nodup_cons] at hnd
    obtain ⟨m2, chunks, S2, b1, b2, b3⟩ := ih a2 a3 (by
      intro x hx
      obtain ⟨c1, c2, c3⟩ := hes x (by simp [hx])
      refine ⟨c1, ?_, c3⟩
      intro hm
      rcases List.mem_cons.mp hm with hm | hm
      · exact hnd.1 (List.mem_map.mpr ⟨x, hx, hm⟩)
      · exact c2 hm) hnd.2
    refine ⟨m2, qs :: chunks, S2, ?_, ?_, .cons a4 b3⟩
    · rw [List.foldlM_cons, a1]; exact b1
    · simpa using b2

/-! ### The registers' lists -/

theorem dropOld_fold (removed : List Nat) (vs : List (Option Nat)) : ∀ (st : St), (∀ v ∈ vs, v ≠ none) →
    ∃ f, vs.foldlM (dropOld removed) st = some { st with vregs := f } ∧
      ∀ w, f w = if some w ∈ vs then (st.vregs w).filter (fun e => !removed.contains e.index) else st.vregs w := by
  induction vs with
  | nil => intro st _; exact ⟨st.vregs, rfl, fun w => by simp⟩
  | cons v vs ih =>
    intro st hv
    cases v with
    | none => exact absurd rfl (hv none (by simp))
    | some v =>
      obtain ⟨f, h1, h2⟩ := ih { st with vregs := upd st.vregs v ((st.vregs v).filter (fun e => !removed.contains e.index)) }
        (fun x hx => hv x (by simp [hx]))
      refine ⟨f, ?_, ?_⟩
      · rw [List.foldlM_cons]; exact h1
      · intro w
        rw [h2]
        dsimp only
        by_cases hw : w = v
        · subst hw
          rw [upd_same]
          simp only [List.mem_cons, true_or, if_true]
          split
          · rw [List.filter_filter]; simp
          · rfl
        · rw [upd_ne _ _ hw]
          simp [hw]

theorem addNew_fold (q : List (Option Nat × Nat)) : ∀ (st : St), (∀ x ∈ q, x.1 ≠ none) →
    ∃ f, q.foldlM addNew st = some { st with vregs := f } ∧
      ∀ w, f w = st.vregs w ++ (q.filter (fun x => decide (x.1 = some w))).map (fun x => ⟨(st.ranges x.2).range, x.2⟩) := by
  induction q with
  | nil => intro st _; exact ⟨st.vregs, rfl, fun w => by simp⟩
  | cons x q ih =>
    intro st hv
    obtain ⟨v, i⟩ := x
    cases v with
    | none => exact absurd rfl (hv _ (List.mem_cons_self ..))
    | some v =>
      obtain ⟨f, h1, h2⟩ := ih { st with vregs := upd st.vregs v (st.vregs v ++ [⟨(st.ranges i).range, i⟩]) }
        (fun x hx => hv x (by simp [hx]))
      refine ⟨f, ?_, ?_⟩
      · rw [List.foldlM_cons]; exact h1
      · intro w
        rw [h2]
        dsimp only
        by_cases hw : w = v
        · subst hw
          rw [upd_same, List.filter_cons_of_pos (by simp)]
          simp
        · rw [upd_ne _ _ hw, List.filter_cons_of_neg (by simp [Ne.symm hw])]

/-! ### Requeueing the new bundles -/

theorem requeue_minimal {st st' : St} {c : Nat} {hint : Option PReg} {p : LRange} {i : Nat} {u : Use}
    (h : requeue st c hint = some st') (h1 : (st.bundles c).ranges = [⟨p.range, i⟩]) (h2 : st.ranges i = p)
    (h3 : p.uses = [u]) (h4 : p.range = minimalRangeForUse u) (h5 : p.vreg ≠ none) :
    (st'.bundles c).minimal = true ∧ (∃ prio, (c, prio, hint) ∈ st'.queue) ∧
      ((st'.bundles c).fixed = true ↔ ∃ p, u.op.constraint = .FixedReg p) := by
  unfold requeue at h
  rw [h1, if_pos (by simp)] at h
  unfold recomputeBundle at h
  rw [h1] at h
  have hv : p.vreg.isNone = false := by
    cases hp : p.vreg with
    | none => exact absurd hp h5
    | some _ => rfl
  simp only [h2, hv, List.isEmpty_nil, if_true, h3, Bool.false_eq_true, if_false, Option.bind_eq_bind, Option.bind_some,
    Option.some.injEq] at h
  rw [← h]
  refine ⟨?_, ⟨_, List.mem_append.mpr (.inr (List.mem_singleton.mpr rfl))⟩, ?_⟩
  · simp [St.modB, upd, h4, RKey.contains]
  · simp only [St.modB, upd_same]
    exact scanFlags_one u

theorem requeue_fold (hint : Option PReg) (cs : List Nat) : ∀ (st : St), cs.Nodup →
    ∃ st', cs.foldlM (fun st b => requeue st b hint) st = some st' ∧ st'.ranges = st.ranges ∧ st'.nRanges = st.nRanges ∧
      st'.vregs = st.vregs ∧ st'.nBundles = st.nBundles ∧ st'.spillsets = st.spillsets ∧
      (∀ c, c ∉ cs → st'.bundles c = st.bundles c) ∧
      (∀ c, (st'.bundles c).ranges = (st.bundles c).ranges ∧ (st'.bundles c).spillset = (st.bundles c).spillset) ∧
      (∃ q, st'.queue = st.queue ++ q ∧ q.map (·.1) = cs.filter (fun c => decide ((st.bundles c).ranges ≠ [])) ∧
        ∀ x ∈ q, x.2.2 = hint) ∧
      (∀ c ∈ cs, (st.bundles c).ranges ≠ [] → (st'.bundles c).limit = bundleLimit st (st.bundles c).ranges) ∧
      ∀ c ∈ cs, ∀ p i u, (st.bundles c).ranges = [⟨p.range, i⟩] → st.ranges i = p → p.uses = [u] →
        p.range = minimalRangeForUse u → p.vreg ≠ none →
        (st'.bundles c).minimal = true ∧ (∃ prio, (c, prio, hint) ∈ st'.queue) ∧
          ((st'.bundles c).fixed = true ↔ ∃ p, u.op.constraint = .FixedReg p) := by
  induction cs with
  | nil => intro st _; exact ⟨st, rfl, rfl, rfl, rfl, rfl, rfl, fun _ _ => rfl, fun _ => ⟨rfl, rfl⟩, ⟨[], by simp⟩, by simp, by simp⟩
  | cons c cs ih =>
    intro st hnd
    rw [List.nodup_cons] at hnd
    obtain ⟨s1, a1, a2, a3, a4, a5, a6, a7, a8, a9, a10, a11, a12⟩ := requeue_spec st c hint
    obtain ⟨s2, b1, b2, b3, b4, b5, b6, b7, b8, ⟨q, b9, b11, b12⟩, b13, b10⟩ := ih s1 hnd.2
    refine ⟨s2, ?_, by rw [b2, a2], by rw [b3, a3], by rw [b4, a4], by rw [b5, a5], by rw [b6, a6], ?_, ?_, ?_, ?_, ?_⟩
    · rw [List.foldlM_cons]; simp only [a1]; exact b1
    · intro x hx
      rw [List.mem_cons, not_or] at hx
      rw [b7 x hx.2, a7 x hx.1]
    · intro x
      rw [(b8 x).1, (b8 x).2]
      by_cases hx : x = c
      · subst hx; exact ⟨a8, a9⟩
      · rw [a7 x hx]; exact ⟨rfl, rfl⟩
    · refine ⟨_, by rw [b9, a11]; exact List.append_assoc _ _ _, ?_, ?_⟩
      · have hcong : cs.filter (fun c => decide ((s1.bundles c).ranges ≠ [])) =
            cs.filter (fun c => decide ((st.bundles c).ranges ≠ [])) := by
          apply List.filter_congr
          intro x hx
          rw [a7 x (fun hh => hnd.1 (hh ▸ hx))]
        rw [List.map_append, b11, hcong]
        by_cases hr : (st.bundles c).ranges = []
        · rw [if_pos hr, List.filter_cons_of_neg (by simp [hr])]; rfl
        · rw [if_neg hr, List.filter_cons_of_pos (by simp [hr])]; rfl
      · intro x hx
        rcases List.mem_append.mp hx with hx | hx
        · split at hx
          · cases hx
          · rw [List.mem_singleton] at hx; rw [hx]
        · exact b12 x hx
    · intro x hx hr
      rcases List.mem_cons.mp hx with rfl | hx
      · rw [b7 x hnd.1]; exact (a12 hr).1
      · have := b13 x hx (by rw [a7 x (fun hh => hnd.1 (hh ▸ hx))]; exact hr)
        rw [this, a7 x (fun hh => hnd.1 (hh ▸ hx))]
        unfold bundleLimit; rw [a2]
    · intro x hx p i u h1 h2 h3 h4 h5
      rcases List.mem_cons.mp hx with rfl | hx
      · obtain ⟨c1, ⟨prio, c2⟩, c3⟩ := requeue_minimal a1 h1 h2 h3 h4 h5
        rw [b7 x hnd.1, b9]
        exact ⟨c1, ⟨prio, List.mem_append.mpr (.inl c2)⟩, c3⟩
      · refine b10 x hx p i u ?_ (by rw [a2]; exact h2) h3 h4 h5
        rw [a7 x (fun hh => hnd.1 (hh ▸ hx))]; exact h1

end Regalloc.Ion
