import Verif.Proofs.PregMap

namespace Regalloc

/-! ### C26: the overlap order -/

/-- On nonempty ranges the comparison answers `Equal` exactly when they share a point,
`Less` exactly when the first is before the second and `Greater` exactly when it is after. -/
theorem C26_cmp_exact (a b : RKey) (ha : a.Nonempty) (hb : b.Nonempty) :
    (a.cmp b = .eq ↔ a.Meets b) ∧ (a.cmp b = .lt ↔ a.Before b) ∧ (a.cmp b = .gt ↔ b.Before a) := by
  rw [RKey.nonempty_iff] at ha hb
  rw [RKey.meets_iff ha hb, RKey.before_iff ha hb, RKey.before_iff hb ha, RKey.cmp_eq, RKey.cmp_lt, RKey.cmp_gt]
  refine ⟨?_, Iff.rfl, ?_⟩ <;> omega

/-- `==` agrees with the comparison, and `overlaps` with both. -/
theorem C26_eq_overlaps (a b : RKey) (ha : a.Nonempty) (hb : b.Nonempty) :
    (a.eqv b = true ↔ a.Meets b) ∧ (a.overlaps b = true ↔ a.Meets b) ∧ (a.eqv b = true ↔ a.cmp b = .eq) := by
  rw [RKey.nonempty_iff] at ha hb
  rw [RKey.meets_iff ha hb, RKey.cmp_eq]
  unfold RKey.eqv RKey.overlaps
  simp only [Bool.and_eq_true, decide_eq_true_eq]
  refine ⟨?_, ?_, ?_⟩ <;> constructor <;> rintro ⟨h1, h2⟩ <;> constructor <;> omega

/-- On a set of nonempty, pairwise disjoint ranges the comparison is a strict total
order: it is reflexive-equal only, antisymmetric and transitive. -/
theorem C26_strict_total_order (S : RKey → Prop) (hne : ∀ a, S a → a.Nonempty)
    (hdis : ∀ a b, S a → S b → a ≠ b → ¬ a.Meets b) :
    (∀ a b, S a → S b → (a.cmp b = .eq ↔ a = b)) ∧
    (∀ a b, S a → S b → a.cmp b = (b.cmp a).swap) ∧
    (∀ a b c, S a → S b → S c → a.cmp b = .lt → b.cmp c = .lt → a.cmp c = .lt) := by
  refine ⟨?_, ?_, ?_⟩
  · intro a b ha hb
    rw [(C26_cmp_exact a b (hne a ha) (hne b hb)).1]
    constructor
    · intro h
      by_cases e : a = b
      · exact e
      · exact absurd h (hdis a b ha hb e)
    · rintro rfl
      obtain ⟨p, hp⟩ := hne a ha
      exact ⟨p, hp, hp⟩
  · intro a b ha hb
    have h1 := RKey.nonempty_iff.mp (hne a ha)
    have h2 := RKey.nonempty_iff.mp (hne b hb)
    unfold RKey.cmp
    grind [Ordering.swap]
  · intro a b c ha hb hc
    have h2 := RKey.nonempty_iff.mp (hne b hb)
    rw [RKey.cmp_lt, RKey.cmp_lt, RKey.cmp_lt]
    omega

/-- Overlap is not transitive, so outside disjoint sets the comparison is not an order. -/
theorem C26_not_order_in_general : ∃ a b c : RKey, a.Nonempty ∧ b.Nonempty ∧ c.Nonempty ∧
    a.cmp b = .eq ∧ b.cmp c = .eq ∧ a.cmp c = .lt :=
  ⟨⟨0, 2⟩, ⟨1, 4⟩, ⟨3, 5⟩, ⟨0, by decide, by decide⟩, ⟨1, by decide, by decide⟩, ⟨3, by decide, by decide⟩, rfl, rfl, rfl⟩

/-- Descending any search tree over sorted disjoint ranges finds an entry iff some
entry shares a point with the query, and what it finds does. -/
theorem C26_lookup {α : Type} (t : RangeMap.Tree α) (k : RKey) (ht : RangesSorted t.entries) (hk : k.Nonempty) :
    ((t.search k).isSome ↔ ∃ e ∈ t.entries, e.1.Meets k) ∧
    (∀ e, t.search k = some e → e ∈ t.entries ∧ e.1.Meets k) := by
  rw [rangesSorted_iff] at ht
  have hk' := RKey.nonempty_iff.mp hk
  obtain ⟨h1, h2⟩ := RangeMap.search_spec ht hk'
  have h3 : ∀ e, t.search k = some e → e ∈ t.entries ∧ e.1.Meets k := by
    rintro ⟨e, v⟩ h
    obtain ⟨g1, g2, g3⟩ := h1 e v h
    exact ⟨g1, (RKey.meets_iff (ht.1 _ g1) hk').mpr ⟨g3, g2⟩⟩
  refine ⟨?_, h3⟩
  constructor
  · intro h
    obtain ⟨e, he⟩ := Option.isSome_iff_exists.mp h
    exact ⟨e, h3 e he⟩
  · rintro ⟨e, he, hm⟩
    cases hs : t.search k with
    | some x => rfl
    | none =>
      have hm' := (RKey.meets_iff (ht.1 _ he) hk').mp hm
      exact absurd ⟨hm'.2, hm'.1⟩ (h2 hs e he)

example : RangesSorted (α := Nat) (RangeMap.Tree.node (.node .leaf ⟨0, 2⟩ 7 .leaf) ⟨2, 5⟩ 8 (.node .leaf ⟨9, 10⟩ 9 .leaf)).entries ∧
    (RangeMap.Tree.node (.node .leaf ⟨0, 2⟩ 7 .leaf) ⟨2, 5⟩ 8 (.node .leaf ⟨9, 10⟩ 9 .leaf)).search ⟨1, 2⟩ = some (⟨0, 2⟩, 7) ∧
    (RangeMap.Tree.node (.node .leaf ⟨0, 2⟩ 7 .leaf) ⟨2, 5⟩ 8 (.node .leaf ⟨9, 10⟩ 9 .leaf)).search ⟨5, 9⟩ = none := by
  refine ⟨?_, rfl, rfl⟩
  rw [rangesSorted_iff]
  unfold SortedM
  decide

/-- The lookup of the sorted-list form of the map. -/
theorem C26_lookup_list {α : Type} (m : RangeMap α) (k : RKey) (hm : RangesSorted m) (hk : k.Nonempty) :
    (m.find? k).isSome ↔ ∃ e ∈ m, e.1.Meets k := by
  rw [rangesSorted_iff] at hm
  have hk' := RKey.nonempty_iff.mp hk
  obtain ⟨h1, h2⟩ := RangeMap.find?_spec hm hk'
  constructor
  · intro h
    obtain ⟨⟨e, v⟩, he⟩ := Option.isSome_iff_exists.mp h
    obtain ⟨g1, g2, g3⟩ := h1 e v he
    exact ⟨_, g1, (RKey.meets_iff (hm.1 _ g1) hk').mpr ⟨g3, g2⟩⟩
  · rintro ⟨e, he, hmt⟩
    cases hs : m.find? k with
    | some x => rfl
    | none =>
      have hm' := (RKey.meets_iff (hm.1 _ he) hk').mp hmt
      exact absurd ⟨hm'.2, hm'.1⟩ (h2 hs e he)

/-- Insertion into sorted disjoint ranges: nothing is displaced iff nothing shares a
point, and then the result is the old entries and the new one, sorted and disjoint. -/
theorem C26_insert {α : Type} (m : RangeMap α) (k : RKey) (x : α) (hm : RangesSorted m) (hk : k.Nonempty) :
    ((m.insert k x).1 = none ↔ ∀ e ∈ m, ¬ e.1.Meets k) ∧
    ((m.insert k x).1 = none → RangesSorted (m.insert k x).2 ∧ ∀ y, y ∈ (m.insert k x).2 ↔ y = (k, x) ∨ y ∈ m) := by
  rw [rangesSorted_iff] at hm
  have hk' := RKey.nonempty_iff.mp hk
  have ht := RangeMap.insert_taken hm hk' x
  refine ⟨?_, ?_⟩
  · rw [ht]
    constructor
    · intro h e he hmt
      have := (RKey.meets_iff (hm.1 _ he) hk').mp hmt
      exact h e he ⟨this.2, this.1⟩
    · intro h e he ho
      exact h e he ((RKey.meets_iff (hm.1 _ he) hk').mpr ⟨ho.2, ho.1⟩)
  · intro h
    obtain ⟨_, g2, g3⟩ := RangeMap.insert_free hm hk' x (ht.mp h)
    exact ⟨rangesSorted_iff.mpr g2, g3⟩

/-- Removing a recorded range takes out exactly that entry. -/
theorem C26_remove {α : Type} (m : RangeMap α) (k : RKey) (x : α) (hm : RangesSorted m) (hin : (k, x) ∈ m) :
    RangesSorted (m.remove k) ∧ ∀ y, y ∈ m.remove k ↔ y ∈ m ∧ y ≠ (k, x) := by
  rw [rangesSorted_iff] at hm
  obtain ⟨h1, h2⟩ := RangeMap.remove_spec hm hin
  exact ⟨rangesSorted_iff.mpr h1, h2⟩

/-- The range operations are those of sets of points. -/
theorem C26_range_ops (a b : RKey) :
    (a.isEmpty = true ↔ ¬ a.Nonempty) ∧
    (∀ p, a.containsPoint p = true ↔ a.Covers p) ∧
    (b.Nonempty → (a.contains b = true ↔ ∀ p, b.Covers p → a.Covers p)) ∧
    (∀ p, (RKey.singleton p).Covers p ∧ ∀ q, (RKey.singleton p).Covers q → q = p) ∧
    (a.Nonempty → b.Nonempty → (∀ p, a.Covers p ∨ b.Covers p → (a.join b).Covers p) ∧
      ∀ c : RKey, (∀ p, a.Covers p ∨ b.Covers p → c.Covers p) → ∀ p, (a.join b).Covers p → c.Covers p) := by
  refine ⟨?_, ?_, ?_, ?_, ?_⟩
  · rw [RKey.nonempty_iff]; unfold RKey.isEmpty; simp
  · intro p; unfold RKey.containsPoint RKey.Covers; simp
  · intro hb
    rw [RKey.nonempty_iff] at hb
    unfold RKey.contains RKey.Covers
    simp only [Bool.and_eq_true, decide_eq_true_eq]
    constructor
    · intro h p hp; omega
    · intro h
      have h1 := h b.fr (by omega)
      have h2 := h (b.to - 1) (by omega)
      omega
  · intro p
    unfold RKey.singleton RKey.Covers
    refine ⟨by simp, ?_⟩
    intro q; simp only; omega
  · intro ha hb
    rw [RKey.nonempty_iff] at ha hb
    unfold RKey.join RKey.Covers
    simp only
    refine ⟨fun p hp => by omega, ?_⟩
    intro c hc p hp
    have h1 := hc a.fr (by omega)
    have h2 := hc b.fr (by omega)
    have h3 := hc (a.to - 1) (by omega)
    have h4 := hc (b.to - 1) (by omega)
    omega

/-! ### C25: the maps of the physical registers -/
namespace PregMap

/-- What the maps contain after any history. -/
private theorem inv {fixed : Nat → List RKey} {s : Pool} (h : Reachable fixed s) :
    s.Bundles ∧ ∀ p, SortedM (s.maps p) ∧ ∀ k v, (k, v) ∈ s.maps p ↔
      (v = none ∧ k ∈ fixed p) ∨ ∃ b i, s.alloc b = some p ∧ v = some i ∧ (k, i) ∈ s.ranges b := by
  induction h with
  | init s hb hm ha =>
    refine ⟨hb, fun p => ?_⟩
    rw [hm p]
    exact ⟨⟨by simp, by simp⟩, by simp [ha]⟩
  | @reserve fixed s m p k _ hk hr ih =>
    obtain ⟨hb, ih⟩ := ih
    refine ⟨hb, fun q => ?_⟩
    by_cases hq : q = p
    · subst hq
      have hs := (ih q).1
      have hk' := RKey.nonempty_iff.mp hk
      unfold PregMap.reserve at hr
      split at hr
      · rename_i m' hi
        simp only [Option.some.injEq] at hr
        subst hr
        have h1 : (RangeMap.insert (s.maps q) k none).1 = none := by rw [hi]
        obtain ⟨_, g2, g3⟩ := RangeMap.insert_free hs hk' none ((RangeMap.insert_taken hs hk' none).mp h1)
        rw [hi] at g2 g3
        simp only [if_true] at g2 g3 ⊢
        refine ⟨g2, fun k' v => ?_⟩
        rw [g3, (ih q).2]
        simp only [Prod.mk.injEq, List.mem_cons]
        grind
      · simp at hr
    · simp only [hq, if_false]
      exact ih q
  | @attempt fixed s r s' w mc b p _ hnone hne htry ih =>
    obtain ⟨hb, ih⟩ := ih
    unfold Pool.tryAlloc at htry
    split at htry
    · simp at htry
    · rename_i m' hm'
      simp only [Option.some.injEq, Prod.mk.injEq] at htry
      obtain ⟨_, rfl⟩ := htry
      refine ⟨hb, fun q => ?_⟩
      have hrs := rangesSorted_iff.mp (hb b).1
      rcases tryAlloc_spec (se := ⟨s.bundleOf, w, mc⟩) (ih p).1 hrs hne with
        ⟨m2, e1, _, e2, e3⟩ | ⟨cs, x, e1, _⟩ | ⟨x, e1, e2⟩
      · rw [hm'] at e1
        simp only [Option.some.injEq, AllocRegResult.Allocated.injEq] at e1
        subst e1
        by_cases hq : q = p
        · subst hq
          simp only [if_true]
          refine ⟨e2, fun k v => ?_⟩
          rw [e3, (ih q).2]
          constructor
          · rintro ((h | ⟨c, i, h1, h2, h3⟩) | ⟨r, hr, he⟩)
            · exact .inl h
            · refine .inr ⟨c, i, ?_, h2, h3⟩
              have : c ≠ b := by rintro rfl; rw [hnone] at h1; simp at h1
              rw [if_neg this, h1]
            · simp only [Prod.mk.injEq] at he
              exact .inr ⟨b, r.2, by simp, he.2, by rw [he.1]; exact hr⟩
          · rintro (h | ⟨c, i, h1, h2, h3⟩)
            · exact .inl (.inl h)
            · by_cases hc : c = b
              · subst hc
                exact .inr ⟨(k, i), h3, by rw [h2]⟩
              · rw [if_neg hc] at h1
                exact .inl (.inr ⟨c, i, h1, h2, h3⟩)
        · simp only [hq, if_false]
          refine ⟨(ih q).1, fun k v => ?_⟩
          rw [(ih q).2]
          constructor
          · rintro (h | ⟨c, i, h1, h2, h3⟩)
            · exact .inl h
            · refine .inr ⟨c, i, ?_, h2, h3⟩
              have : c ≠ b := by rintro rfl; rw [hnone] at h1; simp at h1
              rw [if_neg this, h1]
          · rintro (h | ⟨c, i, h1, h2, h3⟩)
            · exact .inl h
            · refine .inr ⟨c, i, ?_, h2, h3⟩
              split at h1
              · simp only [Option.some.injEq] at h1; exact absurd h1.symm hq
              · exact h1
      · rw [hm'] at e1; simp at e1
      · rw [hm'] at e1
        simp only [Option.some.injEq] at e1
        subst e1
        exact absurd e2 (by simp [RetOk])
    · simp only [Option.some.injEq, Prod.mk.injEq] at htry
      obtain ⟨_, rfl⟩ := htry
      exact ⟨hb, ih⟩
  | @evict fixed s b _ ih =>
    obtain ⟨hb, ih⟩ := ih
    unfold Pool.evict
    cases ha : s.alloc b with
    | none => exact ⟨hb, ih⟩
    | some p =>
      refine ⟨hb, fun q => ?_⟩
      have hrs := rangesSorted_iff.mp (hb b).1
      by_cases hq : q = p
      · subst hq
        simp only [if_true]
        obtain ⟨e1, e2⟩ := evict_spec (s.ranges b) (s.maps q) (ih q).1 hrs (fun r hr =>
          ((ih q).2 r.1 (some r.2)).mpr (.inr ⟨b, r.2, ha, rfl, hr⟩))
        refine ⟨e1, fun k v => ?_⟩
        rw [e2, (ih q).2]
        constructor
        · rintro ⟨h | ⟨c, i, h1, h2, h3⟩, h4⟩
          · exact .inl h
          · refine .inr ⟨c, i, ?_, h2, h3⟩
            have : c ≠ b := by
              rintro rfl
              exact h4 (k, i) h3 (by rw [h2])
            rw [if_neg this, h1]
        · rintro (h | ⟨c, i, h1, h2, h3⟩)
          · refine ⟨.inl h, ?_⟩
            intro r _ he
            simp only [Prod.mk.injEq] at he
            rw [h.1] at he; simp at he
          · by_cases hc : c = b
            · rw [if_pos hc] at h1; simp at h1
            · rw [if_neg hc] at h1
              refine ⟨.inr ⟨c, i, h1, h2, h3⟩, ?_⟩
              intro r hr he
              simp only [Prod.mk.injEq] at he
              rw [h2] at he
              simp only [Option.some.injEq] at he
              have f1 := (hb c).2 _ h3
              have f2 := (hb b).2 _ hr
              simp only at f1
              rw [he.2] at f1
              exact hc (f1.symm.trans f2)
      · simp only [hq, if_false]
        refine ⟨(ih q).1, fun k v => ?_⟩
        rw [(ih q).2]
        constructor
        · rintro (h | ⟨c, i, h1, h2, h3⟩)
          · exact .inl h
          · refine .inr ⟨c, i, ?_, h2, h3⟩
            have : c ≠ b := by
              rintro rfl
              rw [ha] at h1
              simp only [Option.some.injEq] at h1
              exact hq h1.symm
            rw [if_neg this, h1]
        · rintro (h | ⟨c, i, h1, h2, h3⟩)
          · exact .inl h
          · refine .inr ⟨c, i, ?_, h2, h3⟩
            split at h1
            · simp at h1
            · exact h1
  | @reshape fixed s s' _ hb' hm ha hr ih =>
    obtain ⟨_, ih⟩ := ih
    refine ⟨hb', fun p => ?_⟩
    rw [hm]
    refine ⟨(ih p).1, fun k v => ?_⟩
    rw [(ih p).2, ha]
    constructor
    · rintro (h | ⟨c, i, h1, h2, h3⟩)
      · exact .inl h
      · exact .inr ⟨c, i, h1, h2, by rw [hr c (by rw [h1]; simp)]; exact h3⟩
    · rintro (h | ⟨c, i, h1, h2, h3⟩)
      · exact .inl h
      · exact .inr ⟨c, i, h1, h2, by rw [hr c (by rw [h1]; simp)] at h3; exact h3⟩

/-- After any history the ranges recorded for a register are nonempty, in order and
pairwise disjoint, and are exactly its reservations and the ranges of the bundles
allocated to it. -/
theorem C25_history {fixed : Nat → List RKey} {s : Pool} (h : Reachable fixed s) (p : Nat) :
    RangesSorted (s.maps p) ∧ ∀ k v, (k, v) ∈ s.maps p ↔
      (v = none ∧ k ∈ fixed p) ∨ ∃ b i, s.alloc b = some p ∧ v = some i ∧ (k, i) ∈ s.ranges b :=
  ⟨rangesSorted_iff.mpr ((inv h).2 p).1, ((inv h).2 p).2⟩

/-- After any history two bundles in one register share no program point, and neither
does a bundle with a reservation of its register. -/
theorem C25_no_interference {fixed : Nat → List RKey} {s : Pool} (h : Reachable fixed s) (p b : Nat) (hb : s.alloc b = some p) :
    (∀ c, c ≠ b → s.alloc c = some p → ¬ s.Interfere b c) ∧ ∀ k ∈ fixed p, ¬ s.BundleMeets b k := by
  obtain ⟨hbun, hmaps⟩ := inv h
  obtain ⟨hs, hmem⟩ := hmaps p
  have key : ∀ x ∈ s.maps p, ∀ y ∈ s.maps p, x ≠ y → ¬ x.1.Meets y.1 := by
    intro x hx y hy hne hmt
    have hx1 := hs.1 x hx
    have hy1 := hs.1 y hy
    rw [RKey.meets_iff hx1 hy1] at hmt
    have : ∀ {l : PMap}, l.Pairwise (fun a b => a.1.to ≤ b.1.fr) → x ∈ l → y ∈ l → x.1.to ≤ y.1.fr ∨ y.1.to ≤ x.1.fr := by
      intro l hl
      induction hl with
      | nil => simp
      | cons ha _ ih =>
        intro hx2 hy2
        rcases List.mem_cons.mp hx2 with e1 | hx3
        · rcases List.mem_cons.mp hy2 with e2 | hy3
          · exact absurd (e1.trans e2.symm) hne
          · rw [e1]; exact .inl (ha y hy3)
        · rcases List.mem_cons.mp hy2 with e2 | hy3
          · rw [e2]; exact .inr (ha x hx3)
          · exact ih hx3 hy3
    have := this hs.2 hx hy
    omega
  refine ⟨?_, ?_⟩
  · rintro c hne hc ⟨r, hr, t, ht, hmt⟩
    refine key (t.1, some t.2) ((hmem _ _).mpr (.inr ⟨b, t.2, hb, rfl, ht⟩)) (r.1, some r.2)
      ((hmem _ _).mpr (.inr ⟨c, r.2, hc, rfl, hr⟩)) ?_ hmt
    intro he
    simp only [Prod.mk.injEq, Option.some.injEq] at he
    have f1 := (hbun b).2 _ ht
    have f2 := (hbun c).2 _ hr
    rw [he.2] at f1
    exact hne (f2.symm.trans f1)
  · rintro k hk ⟨t, ht, hmt⟩
    exact key (t.1, some t.2) ((hmem _ _).mpr (.inr ⟨b, t.2, hb, rfl, ht⟩)) (k, none)
      ((hmem _ _).mpr (.inl ⟨rfl, hk⟩)) (by simp) hmt

private theorem meets_symm {a b : RKey} : a.Meets b ↔ b.Meets a :=
  ⟨fun ⟨p, h1, h2⟩ => ⟨p, h2, h1⟩, fun ⟨p, h1, h2⟩ => ⟨p, h2, h1⟩⟩

private theorem ov_iff {a b : RKey} (ha : a.fr < a.to) (hb : b.fr < b.to) : Ov a b ↔ a.Meets b := by
  rw [RKey.meets_iff ha hb]; rfl

/-- An attempt on a bundle never panics. It succeeds iff the bundle shares no point
with a reservation of the register or with a bundle allocated to it; then the bundle
has the register and nothing else changes. Otherwise nothing changes at all. -/
theorem C25_attempt {fixed : Nat → List RKey} {s : Pool} (h : Reachable fixed s) (weight : Nat → Nat) (maxCost : Option Nat)
    (b p : Nat) (hne : s.ranges b ≠ []) :
    ∃ r s', s.tryAlloc weight maxCost b p = some (r, s') ∧
      ((∃ m, r = .Allocated m) ↔ (∀ k ∈ fixed p, ¬ s.BundleMeets b k) ∧ ∀ c, s.alloc c = some p → ¬ s.Interfere b c) ∧
      ((∃ m, r = .Allocated m) → s'.alloc b = some p ∧ (∀ c, c ≠ b → s'.alloc c = s.alloc c) ∧
        ∀ q, q ≠ p → s'.maps q = s.maps q) ∧
      ((¬ ∃ m, r = .Allocated m) → s' = s) := by
  obtain ⟨hbun, hmaps⟩ := inv h
  obtain ⟨hs, hmem⟩ := hmaps p
  have hrs := rangesSorted_iff.mp (hbun b).1
  -- an overlap with the map is a conflict in the sense of the specification
  have hconf : (∃ x ∈ s.maps p, ∃ r ∈ s.ranges b, Ov x.1 r.1) ↔
      ¬ ((∀ k ∈ fixed p, ¬ s.BundleMeets b k) ∧ ∀ c, s.alloc c = some p → ¬ s.Interfere b c) := by
    constructor
    · rintro ⟨⟨k, v⟩, hx, r, hr, ho⟩ ⟨h1, h2⟩
      rw [ov_iff (hs.1 _ hx) (hrs.1 _ hr)] at ho
      rcases (hmem k v).mp hx with ⟨_, hk⟩ | ⟨c, i, hc, _, hi⟩
      · exact h1 k hk ⟨r, hr, meets_symm.mp ho⟩
      · exact h2 c hc ⟨(k, i), hi, r, hr, meets_symm.mp ho⟩
    · intro hn
      apply Classical.byContradiction
      intro hno
      apply hn
      refine ⟨?_, ?_⟩
      · rintro k hk ⟨r, hr, hmt⟩
        have hx := (hmem k none).mpr (.inl ⟨rfl, hk⟩)
        exact hno ⟨_, hx, r, hr, (ov_iff (hs.1 _ hx) (hrs.1 _ hr)).mpr (meets_symm.mp hmt)⟩
      · rintro c hc ⟨t, ht, r, hr, hmt⟩
        have hx := (hmem t.1 (some t.2)).mpr (.inr ⟨c, t.2, hc, rfl, ht⟩)
        exact hno ⟨_, hx, r, hr, (ov_iff (hs.1 _ hx) (hrs.1 _ hr)).mpr (meets_symm.mp hmt)⟩
  unfold Pool.tryAlloc
  rcases tryAlloc_spec (se := ⟨s.bundleOf, weight, maxCost⟩) hs hrs hne with
    ⟨m2, e1, e4, e2, e3⟩ | ⟨cs, x, e1, _, _, _, _, _, _, ⟨y, hy, r, hr, ho, _⟩⟩ | ⟨x, e1, e2⟩
  · rw [e1]
    refine ⟨_, _, rfl, ?_, ?_, ?_⟩
    · refine ⟨fun _ => ?_, fun _ => ⟨m2, rfl⟩⟩
      apply Classical.byContradiction
      intro hn
      obtain ⟨x, hx, r, hr, ho⟩ := hconf.mpr hn
      exact e4 x hx r hr ho
    · intro _
      exact ⟨by simp, fun c hc => by simp [hc], fun q hq => by simp [hq]⟩
    · intro hn; exact absurd ⟨m2, rfl⟩ hn
  · rw [e1]
    refine ⟨_, _, rfl, ?_, by rintro ⟨m, hm⟩; simp at hm, fun _ => rfl⟩
    refine ⟨by rintro ⟨m, hm⟩; simp at hm, fun hn => ?_⟩
    exact absurd hn (hconf.mp ⟨y, hy, r, hr, ho⟩)
  · rw [e1]
    have hov : ∃ y ∈ s.maps p, ∃ r ∈ s.ranges b, Ov y.1 r.1 := by
      cases x with
      | Allocated _ => exact absurd e2 (by simp [RetOk])
      | Conflict _ _ => exact absurd e2 (by simp [RetOk])
      | ConflictWithFixed w q =>
        obtain ⟨e, r, h1, h2, h3, _⟩ := e2
        obtain ⟨t, ht, rfl⟩ := List.mem_map.mp h2
        exact ⟨_, h1, t, ht, h3⟩
      | ConflictHighCost =>
        obtain ⟨c, _, e, i, r, h1, h2, h3, _⟩ := e2
        obtain ⟨t, ht, rfl⟩ := List.mem_map.mp h2
        exact ⟨_, h1, t, ht, h3⟩
    have hna : ¬ ∃ m, x = .Allocated m := by
      rintro ⟨m, rfl⟩
      exact absurd e2 (by simp [RetOk])
    cases x with
    | Allocated m => exact absurd ⟨m, rfl⟩ hna
    | Conflict _ _ => exact absurd e2 (by simp [RetOk])
    | ConflictWithFixed w q =>
      exact ⟨_, _, rfl, ⟨fun hm => absurd hm hna, fun hn => absurd hn (hconf.mp hov)⟩, fun hm => absurd hm hna, fun _ => rfl⟩
    | ConflictHighCost =>
      exact ⟨_, _, rfl, ⟨fun hm => absurd hm hna, fun hn => absurd hn (hconf.mp hov)⟩, fun hm => absurd hm hna, fun _ => rfl⟩

/-- A reported conflict set lists exactly the bundles of the register that share a point
with the bundle, each once, none above the cost limit; no reservation is in the way;
and the reported point is the first one shared. -/
theorem C25_conflict_set {fixed : Nat → List RKey} {s s' : Pool} (h : Reachable fixed s) (weight : Nat → Nat)
    (maxCost : Option Nat) (b p : Nat) {cs : List Nat} {q : Nat}
    (htry : s.tryAlloc weight maxCost b p = some (.Conflict cs q, s')) :
    cs.Nodup ∧ (∀ c, c ∈ cs ↔ s.alloc c = some p ∧ s.Interfere b c) ∧ (∀ k ∈ fixed p, ¬ s.BundleMeets b k) ∧
    (∀ c ∈ cs, ∀ l, maxCost = some l → weight c ≤ l) ∧
    (∃ r ∈ s.ranges b, ∃ c ∈ cs, ∃ t ∈ s.ranges c, r.1.Covers q ∧ t.1.Covers q) ∧
    (∀ x, x < q → ∀ r ∈ s.ranges b, ∀ c, s.alloc c = some p → ∀ t ∈ s.ranges c, ¬ (r.1.Covers x ∧ t.1.Covers x)) := by
  obtain ⟨hbun, hmaps⟩ := inv h
  obtain ⟨hs, hmem⟩ := hmaps p
  have hrs := rangesSorted_iff.mp (hbun b).1
  have hne : s.ranges b ≠ [] := by
    intro he
    unfold Pool.tryAlloc at htry
    rw [he] at htry
    simp [PregMap.tryAlloc] at htry
  unfold Pool.tryAlloc at htry
  rcases tryAlloc_spec (se := ⟨s.bundleOf, weight, maxCost⟩) hs hrs hne with
    ⟨m2, e1, _⟩ | ⟨cs2, x, e1, _, e3, e4, e5, e6, e7, e8⟩ | ⟨x, e1, e2⟩
  · rw [e1] at htry; simp at htry
  · rw [e1] at htry
    simp only [Option.some.injEq, Prod.mk.injEq, AllocRegResult.Conflict.injEq] at htry
    obtain ⟨⟨rfl, rfl⟩, rfl⟩ := htry
    have hchar : ∀ c, c ∈ cs2 ↔ s.alloc c = some p ∧ s.Interfere b c := by
      intro c
      rw [e4]
      constructor
      · rintro ⟨e, i, h1, h2, r, hr, ho⟩
        rcases (hmem e (some i)).mp h1 with ⟨hn, _⟩ | ⟨d, j, hd, hj, hi⟩
        · simp at hn
        · simp only [Option.some.injEq] at hj
          subst hj
          have := (hbun d).2 _ hi
          simp only at this h2
          rw [h2] at this
          subst this
          exact ⟨hd, (e, i), hi, r, hr, meets_symm.mp ((ov_iff (hs.1 _ h1) (hrs.1 _ hr)).mp ho)⟩
      · rintro ⟨hc, t, ht, r, hr, hmt⟩
        have hx := (hmem t.1 (some t.2)).mpr (.inr ⟨c, t.2, hc, rfl, ht⟩)
        exact ⟨t.1, t.2, hx, (hbun c).2 _ ht, r, hr, (ov_iff (hs.1 _ hx) (hrs.1 _ hr)).mpr (meets_symm.mp hmt)⟩
    refine ⟨e3, hchar, ?_, fun c hc l hl => e6 l hl c hc, ?_, ?_⟩
    · rintro k hk ⟨r, hr, hmt⟩
      have hx := (hmem k none).mpr (.inl ⟨rfl, hk⟩)
      exact e5 k hx r hr ((ov_iff (hs.1 _ hx) (hrs.1 _ hr)).mpr (meets_symm.mp hmt))
    · obtain ⟨⟨k, v⟩, hy, r, hr, ho, hq⟩ := e8
      have hrn := hrs.1 _ hr
      have hyn := hs.1 _ hy
      rcases (hmem k v).mp hy with ⟨hn, _⟩ | ⟨d, j, hd, hj, hi⟩
      · subst hn
        exact absurd ho (e5 k hy r hr)
      · refine ⟨r, hr, d, (hchar d).mpr ⟨hd, (k, j), hi, r, hr, meets_symm.mp ((ov_iff hyn hrn).mp ho)⟩, (k, j), hi, ?_, ?_⟩
        · unfold Ov at ho; unfold RKey.Covers; simp only at *; omega
        · unfold Ov at ho; unfold RKey.Covers; simp only at *; omega
    · intro z hz r hr c hc t ht hcov
      have hx := (hmem t.1 (some t.2)).mpr (.inr ⟨c, t.2, hc, rfl, ht⟩)
      have := e7 _ hx r hr ((ov_iff (hs.1 _ hx) (hrs.1 _ hr)).mpr ⟨z, hcov.2, hcov.1⟩)
      unfold RKey.Covers at hcov
      simp only at this; omega
  · rw [e1] at htry
    cases x with
    | Allocated _ => exact absurd e2 (by simp [RetOk])
    | Conflict _ _ => exact absurd e2 (by simp [RetOk])
    | ConflictWithFixed _ _ => simp at htry
    | ConflictHighCost => simp at htry

/-- A conflict with a reservation names the start of a reservation that shares a point
with the bundle. -/
theorem C25_fixed_conflict {fixed : Nat → List RKey} {s s' : Pool} (h : Reachable fixed s) (weight : Nat → Nat)
    (maxCost : Option Nat) (b p : Nat) {w q : Nat}
    (htry : s.tryAlloc weight maxCost b p = some (.ConflictWithFixed w q, s')) :
    (∃ k ∈ fixed p, s.BundleMeets b k ∧ q = k.fr ∧
      ∀ k' ∈ fixed p, s.BundleMeets b k' → k.fr ≤ k'.fr) ∧
    ∀ c, s.alloc c = some p → (∃ t ∈ s.ranges c, s.BundleMeets b t.1 ∧ t.1.fr < q) → weight c ≤ w := by
  obtain ⟨hbun, hmaps⟩ := inv h
  obtain ⟨hs, hmem⟩ := hmaps p
  have hrs := rangesSorted_iff.mp (hbun b).1
  have hne : s.ranges b ≠ [] := by
    intro he
    unfold Pool.tryAlloc at htry
    rw [he] at htry
    simp [PregMap.tryAlloc] at htry
  unfold Pool.tryAlloc at htry
  rcases tryAlloc_spec (se := ⟨s.bundleOf, weight, maxCost⟩) hs hrs hne with
    ⟨m2, e1, _⟩ | ⟨cs2, x, e1, _⟩ | ⟨x, e1, e2⟩
  · rw [e1] at htry; simp at htry
  · rw [e1] at htry; simp at htry
  · rw [e1] at htry
    cases x with
    | Allocated _ => exact absurd e2 (by simp [RetOk])
    | Conflict _ _ => exact absurd e2 (by simp [RetOk])
    | ConflictWithFixed w' q' =>
      simp only [Option.some.injEq, Prod.mk.injEq, AllocRegResult.ConflictWithFixed.injEq] at htry
      obtain ⟨⟨rfl, rfl⟩, rfl⟩ := htry
      obtain ⟨e, r, h1, h2, h3, h4, _, h6⟩ := e2
      obtain ⟨t, ht, rfl⟩ := List.mem_map.mp h2
      have hk : e ∈ fixed p := by
        rcases (hmem e none).mp h1 with ⟨_, hk⟩ | ⟨_, _, _, hj, _⟩
        · exact hk
        · simp at hj
      refine ⟨⟨e, hk, ⟨t, ht, meets_symm.mp ((ov_iff (hs.1 _ h1) (hrs.1 _ ht)).mp h3)⟩, h4, ?_⟩, ?_⟩
      · rintro k' hk' ⟨r, hr, hmt⟩
        have hx := (hmem k' none).mpr (.inl ⟨rfl, hk'⟩)
        rcases Nat.lt_or_ge k'.fr e.fr with hlt | hge
        · obtain ⟨i, hi, _⟩ := h6 _ hx r.1 (List.mem_map_of_mem hr)
            ((ov_iff (hs.1 _ hx) (hrs.1 _ hr)).mpr (meets_symm.mp hmt)) hlt
          simp at hi
        · exact hge
      · rintro c hc ⟨u, hu, ⟨r, hr, hmt⟩, hlt⟩
        have hx := (hmem u.1 (some u.2)).mpr (.inr ⟨c, u.2, hc, rfl, hu⟩)
        obtain ⟨i, hi, hw⟩ := h6 _ hx r.1 (List.mem_map_of_mem hr)
          ((ov_iff (hs.1 _ hx) (hrs.1 _ hr)).mpr (meets_symm.mp hmt)) (by rw [← h4]; exact hlt)
        simp only [Option.some.injEq] at hi
        subst hi
        have := (hbun c).2 _ hu
        simp only at hw
        rw [this] at hw
        exact hw
    | ConflictHighCost => simp at htry

/-- The attempt gives up for cost only when an interfering bundle of the register
really weighs more than the limit. -/
theorem C25_high_cost {fixed : Nat → List RKey} {s s' : Pool} (h : Reachable fixed s) (weight : Nat → Nat)
    (maxCost : Option Nat) (b p : Nat) (htry : s.tryAlloc weight maxCost b p = some (.ConflictHighCost, s')) :
    ∃ l c, maxCost = some l ∧ s.alloc c = some p ∧ s.Interfere b c ∧ l < weight c := by
  obtain ⟨hbun, hmaps⟩ := inv h
  obtain ⟨hs, hmem⟩ := hmaps p
  have hrs := rangesSorted_iff.mp (hbun b).1
  have hne : s.ranges b ≠ [] := by
    intro he
    unfold Pool.tryAlloc at htry
    rw [he] at htry
    simp [PregMap.tryAlloc] at htry
  unfold Pool.tryAlloc at htry
  rcases tryAlloc_spec (se := ⟨s.bundleOf, weight, maxCost⟩) hs hrs hne with
    ⟨m2, e1, _⟩ | ⟨cs2, x, e1, _⟩ | ⟨x, e1, e2⟩
  · rw [e1] at htry; simp at htry
  · rw [e1] at htry; simp at htry
  · rw [e1] at htry
    cases x with
    | Allocated _ => exact absurd e2 (by simp [RetOk])
    | Conflict _ _ => exact absurd e2 (by simp [RetOk])
    | ConflictWithFixed w' q' => simp at htry
    | ConflictHighCost =>
      obtain ⟨l, hl, e, i, r, h1, h2, h3, h4⟩ := e2
      obtain ⟨t, ht, rfl⟩ := List.mem_map.mp h2
      rcases (hmem e (some i)).mp h1 with ⟨hn, _⟩ | ⟨d, j, hd, hj, hi⟩
      · simp at hn
      · simp only [Option.some.injEq] at hj
        subst hj
        have := (hbun d).2 _ hi
        simp only at this h4
        rw [this] at h4
        exact ⟨l, d, hl, hd, ⟨(e, i), hi, t, ht, meets_symm.mp ((ov_iff (hs.1 _ h1) (hrs.1 _ ht)).mp h3)⟩, h4⟩

/-- An evicted bundle has no register and nothing of it is left in any map. -/
theorem C25_evict {fixed : Nat → List RKey} {s : Pool} (h : Reachable fixed s) (b : Nat) :
    (s.evict b).alloc b = none ∧ (∀ c, c ≠ b → (s.evict b).alloc c = s.alloc c) ∧
    ∀ p k v, (k, v) ∈ (s.evict b).maps p ↔ (k, v) ∈ s.maps p ∧ ¬ ∃ i, v = some i ∧ s.bundleOf i = b := by
  obtain ⟨hbun, hmaps⟩ := inv h
  obtain ⟨hbun', hmaps'⟩ := inv (Reachable.evict b h)
  have ha : (s.evict b).alloc b = none := by
    unfold Pool.evict
    cases ha : s.alloc b with
    | none => exact ha
    | some p => simp
  have hc : ∀ c, c ≠ b → (s.evict b).alloc c = s.alloc c := by
    intro c hc
    unfold Pool.evict
    cases ha : s.alloc b with
    | none => rfl
    | some p => simp [hc]
  have hr : (s.evict b).ranges = s.ranges := by
    unfold Pool.evict
    cases ha : s.alloc b <;> rfl
  refine ⟨ha, hc, fun p k v => ?_⟩
  rw [(hmaps' p).2, (hmaps p).2, hr]
  constructor
  · rintro (⟨hv, hk⟩ | ⟨c, i, h1, h2, h3⟩)
    · exact ⟨.inl ⟨hv, hk⟩, by rintro ⟨i, hi, _⟩; rw [hv] at hi; simp at hi⟩
    · have hne : c ≠ b := by rintro rfl; rw [ha] at h1; simp at h1
      rw [hc c hne] at h1
      refine ⟨.inr ⟨c, i, h1, h2, h3⟩, ?_⟩
      rintro ⟨j, hj, hb⟩
      rw [h2] at hj
      simp only [Option.some.injEq] at hj
      subst hj
      exact hne (((hbun c).2 _ h3).symm.trans hb)
  · rintro ⟨⟨hv, hk⟩ | ⟨c, i, h1, h2, h3⟩, hn⟩
    · exact .inl ⟨hv, hk⟩
    · have hne : c ≠ b := by
        rintro rfl
        exact hn ⟨i, h2, (hbun c).2 _ h3⟩
      exact .inr ⟨c, i, by rw [hc c hne]; exact h1, h2, h3⟩

/-- A history with two bundles, a reservation, an eviction: bundle 0 is at `[0,4)` and
`[8,10)`, bundle 1 at `[4,9)`; register 3 is reserved at `[20,21)`. -/
def demoPool : Pool where
  maps := fun _ => []
  ranges := fun b => if b = 0 then [(⟨0, 4⟩, 0), (⟨8, 10⟩, 2)] else if b = 1 then [(⟨4, 9⟩, 1)] else []
  bundleOf := fun i => if i = 1 then 1 else 0
  alloc := fun _ => none

theorem demo_bundles : demoPool.Bundles := by
  intro b
  rw [rangesSorted_iff]
  unfold SortedM demoPool
  match b with
  | 0 => simp
  | 1 => simp
  | b + 2 => simp

example : ∃ fixed s, Reachable fixed s ∧ s.alloc 0 = some 3 ∧ fixed 3 ≠ [] ∧
    (∃ cs q s', s.tryAlloc (fun _ => 5) none 1 3 = some (.Conflict cs q, s') ∧ cs = [0] ∧ q = 8) ∧
    (∃ s', s.tryAlloc (fun _ => 5) (some 4) 1 3 = some (.ConflictHighCost, s')) :=
  ⟨_, _, .attempt (fun _ => 5) none 0 3 (.reserve 3 ⟨20, 21⟩ (.init demoPool demo_bundles (fun _ => rfl) (fun _ => rfl))
      ⟨20, by decide, by decide⟩ rfl) rfl (by simp [demoPool]) rfl, rfl, by simp,
    ⟨_, _, _, rfl, rfl, rfl⟩, ⟨_, rfl⟩⟩

end PregMap
end Regalloc
