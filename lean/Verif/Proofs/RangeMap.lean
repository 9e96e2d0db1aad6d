import Verif.Spec.RangeMap

namespace Regalloc

namespace RKey

theorem nonempty_iff {k : RKey} : k.Nonempty ↔ k.fr < k.to := by
  unfold Nonempty Covers
  constructor
  · rintro ⟨p, h1, h2⟩; omega
  · intro h; exact ⟨k.fr, by omega, h⟩

theorem meets_iff {a b : RKey} (ha : a.fr < a.to) (hb : b.fr < b.to) : a.Meets b ↔ a.fr < b.to ∧ b.fr < a.to := by
  unfold Meets Covers
  constructor
  · rintro ⟨p, ⟨h1, h2⟩, h3, h4⟩; omega
  · rintro ⟨h1, h2⟩; exact ⟨max a.fr b.fr, by omega, by omega⟩

theorem before_iff {a b : RKey} (ha : a.fr < a.to) (hb : b.fr < b.to) : a.Before b ↔ a.to ≤ b.fr := by
  unfold Before Covers
  constructor
  · intro h; have := h (a.to - 1) b.fr (by omega) (by omega); omega
  · intro h p q h1 h2; omega

theorem cmp_lt {a b : RKey} : a.cmp b = .lt ↔ a.to ≤ b.fr := by unfold cmp; grind
theorem cmp_gt {a b : RKey} : a.cmp b = .gt ↔ b.fr < a.to ∧ b.to ≤ a.fr := by unfold cmp; grind
theorem cmp_eq {a b : RKey} : a.cmp b = .eq ↔ b.fr < a.to ∧ a.fr < b.to := by unfold cmp; grind

end RKey

/-- Numeric form of `RangesSorted`. -/
def SortedM {α : Type} (m : List (RKey × α)) : Prop :=
  (∀ e ∈ m, e.1.fr < e.1.to) ∧ m.Pairwise (fun a b => a.1.to ≤ b.1.fr)

theorem rangesSorted_iff {α : Type} {m : List (RKey × α)} : RangesSorted m ↔ SortedM m := by
  unfold RangesSorted SortedM
  constructor
  · rintro ⟨h1, h2⟩
    have h1' : ∀ e ∈ m, e.1.fr < e.1.to := fun e he => RKey.nonempty_iff.mp (h1 e he)
    refine ⟨h1', ?_⟩
    apply List.Pairwise.imp_of_mem (l := m) _ h2
    intro a b ha hb h
    exact (RKey.before_iff (h1' a ha) (h1' b hb)).mp h
  · rintro ⟨h1, h2⟩
    refine ⟨fun e he => RKey.nonempty_iff.mpr (h1 e he), ?_⟩
    apply List.Pairwise.imp_of_mem (l := m) _ h2
    intro a b ha hb h
    exact (RKey.before_iff (h1 a ha) (h1 b hb)).mpr h

namespace SortedM

variable {α : Type}

theorem tail {e : RKey × α} {m : List (RKey × α)} (h : SortedM (e :: m)) : SortedM m :=
  ⟨fun x hx => h.1 x (by simp [hx]), (List.pairwise_cons.mp h.2).2⟩

theorem head_lt {e : RKey × α} {m : List (RKey × α)} (h : SortedM (e :: m)) : e.1.fr < e.1.to := h.1 e (by simp)

theorem head_le {e : RKey × α} {m : List (RKey × α)} (h : SortedM (e :: m)) : ∀ x ∈ m, e.1.to ≤ x.1.fr :=
  (List.pairwise_cons.mp h.2).1

theorem cons {e : RKey × α} {m : List (RKey × α)} (h : SortedM m) (h1 : e.1.fr < e.1.to)
    (h2 : ∀ x ∈ m, e.1.to ≤ x.1.fr) : SortedM (e :: m) :=
  ⟨fun x hx => by 
    rcases List.mem_cons.mp hx with rfl | hx
    · exact h1
    · exact h.1 x hx,
    List.pairwise_cons.mpr ⟨h2, h.2⟩⟩

theorem suffix {l m : List (RKey × α)} (h : SortedM (l ++ m)) : SortedM m :=
  ⟨fun x hx => h.1 x (by simp [hx]), (List.pairwise_append.mp h.2).2.1⟩

theorem prefix_le {l m : List (RKey × α)} (h : SortedM (l ++ m)) : ∀ a ∈ l, ∀ b ∈ m, a.1.to ≤ b.1.fr :=
  (List.pairwise_append.mp h.2).2.2

end SortedM

namespace RangeMap

variable {α : Type}

theorem find?_spec {m : RangeMap α} (h : SortedM m) {k : RKey} (hk : k.fr < k.to) :
    (∀ e v, find? m k = some (e, v) → (e, v) ∈ m ∧ k.fr < e.to ∧ e.fr < k.to) ∧
    (find? m k = none → ∀ x ∈ m, ¬ (k.fr < x.1.to ∧ x.1.fr < k.to)) := by
  induction m with
  | nil => simp [find?]
  | cons a m ih =>
    obtain ⟨e, v⟩ := a
    have h1 := h.head_lt
    have h2 := h.head_le
    obtain ⟨ih1, ih2⟩ := ih h.tail
    simp only at h1 h2
    unfold find?
    split
    · rename_i hc
      rw [RKey.cmp_gt] at hc
      refine ⟨fun e' v' h' => ⟨by simp [(ih1 e' v' h').1], (ih1 e' v' h').2⟩, ?_⟩
      intro h' x hx
      rcases List.mem_cons.mp hx with rfl | hx
      · simp only; omega
      · exact ih2 h' x hx
    · rename_i hc
      rw [RKey.cmp_eq] at hc
      refine ⟨?_, by simp⟩
      intro e' v' h'
      simp only [Option.some.injEq, Prod.mk.injEq] at h'
      obtain ⟨rfl, rfl⟩ := h'
      exact ⟨by simp, by omega, by omega⟩
    · rename_i hc
      rw [RKey.cmp_lt] at hc
      refine ⟨by simp, ?_⟩
      intro _ x hx
      rcases List.mem_cons.mp hx with rfl | hx
      · simp only; omega
      · have := h2 x hx; omega

/-- Insertion where nothing overlaps. -/
theorem insert_free {m : RangeMap α} (h : SortedM m) {k : RKey} (hk : k.fr < k.to) (x : α)
    (hfree : ∀ e ∈ m, ¬ (k.fr < e.1.to ∧ e.1.fr < k.to)) :
    (insert m k x).1 = none ∧ SortedM (insert m k x).2 ∧ ∀ y, y ∈ (insert m k x).2 ↔ y = (k, x) ∨ y ∈ m := by
  induction m with
  | nil => exact ⟨rfl, ⟨by simpa [insert] using hk, by simp [insert]⟩, by simp [insert]⟩
  | cons a m ih =>
    obtain ⟨e, v⟩ := a
    have h1 := h.head_lt
    have h2 := h.head_le
    have h0 := hfree (e, v) (by simp)
    simp only at h1 h2 h0
    obtain ⟨ih1, ih2, ih3⟩ := ih h.tail (fun e he => hfree e (by simp [he]))
    unfold insert
    split
    · rename_i hc
      rw [RKey.cmp_gt] at hc
      refine ⟨ih1, ih2.cons h1 ?_, ?_⟩
      · intro y hy
        rcases (ih3 y).mp hy with rfl | hy
        · exact hc.2
        · exact h2 y hy
      · intro y; simp only [List.mem_cons, ih3]; grind
    · rename_i hc
      rw [RKey.cmp_eq] at hc
      omega
    · rename_i hc
      rw [RKey.cmp_lt] at hc
      refine ⟨rfl, h.cons hk ?_, by simp⟩
      intro y hy
      rcases List.mem_cons.mp hy with rfl | hy
      · exact hc
      · have := h2 y hy; simp only; omega

/-- Insertion where something overlaps returns an old value. -/
theorem insert_taken {m : RangeMap α} (h : SortedM m) {k : RKey} (hk : k.fr < k.to) (x : α) :
    (insert m k x).1 = none ↔ ∀ e ∈ m, ¬ (k.fr < e.1.to ∧ e.1.fr < k.to) := by
  refine ⟨?_, fun hf => (insert_free h hk x hf).1⟩
  induction m with
  | nil => simp
  | cons a m ih =>
    obtain ⟨e, v⟩ := a
    have h1 := h.head_lt
    have h2 := h.head_le
    simp only at h1 h2
    unfold insert
    split
    · rename_i hc
      rw [RKey.cmp_gt] at hc
      intro hn y hy
      rcases List.mem_cons.mp hy with rfl | hy
      · simp only; omega
      · exact ih h.tail hn y hy
    · simp
    · rename_i hc
      rw [RKey.cmp_lt] at hc
      intro _ y hy
      rcases List.mem_cons.mp hy with rfl | hy
      · simp only; omega
      · have := h2 y hy; omega

theorem remove_spec {m : RangeMap α} (h : SortedM m) {k : RKey} {x : α} (hm : (k, x) ∈ m) :
    SortedM (remove m k) ∧ ∀ y, y ∈ remove m k ↔ y ∈ m ∧ y ≠ (k, x) := by
  induction m with
  | nil => simp at hm
  | cons a m ih =>
    obtain ⟨e, v⟩ := a
    have h1 := h.head_lt
    have h2 := h.head_le
    have hk := h.1 _ hm
    simp only at h1 h2 hk
    unfold remove
    split
    · rename_i hc
      rw [RKey.cmp_gt] at hc
      have hm' : (k, x) ∈ m := by
        rcases List.mem_cons.mp hm with e' | hm
        · have : k = e := congrArg Prod.fst e'
          subst this; omega
        · exact hm
      obtain ⟨ih1, ih2⟩ := ih h.tail hm'
      refine ⟨ih1.cons h1 (fun y hy => h2 y ((ih2 y).mp hy).1), ?_⟩
      intro y
      simp only [List.mem_cons, ih2]
      constructor
      · rintro (rfl | ⟨h3, h4⟩)
        · refine ⟨.inl rfl, ?_⟩
          intro e'
          have : e = k := congrArg Prod.fst e'
          subst this; omega
        · exact ⟨.inr h3, h4⟩
      · rintro ⟨rfl | h3, h4⟩
        · exact .inl rfl
        · exact .inr ⟨h3, h4⟩
    · rename_i hc
      rw [RKey.cmp_eq] at hc
      have he : (k, x) = (e, v) := by
        rcases List.mem_cons.mp hm with e' | hm
        · exact e'
        · have := h2 _ hm; simp only at this; omega
      refine ⟨h.tail, ?_⟩
      intro y
      rw [he]
      simp only [List.mem_cons]
      constructor
      · intro hy
        refine ⟨.inr hy, ?_⟩
        rintro rfl
        have := h2 _ hy; simp only at this; omega
      · rintro ⟨h3 | h3, h4⟩
        · exact absurd h3 h4
        · exact h3
    · rename_i hc
      rw [RKey.cmp_lt] at hc
      exfalso
      rcases List.mem_cons.mp hm with e' | hm
      · have : k = e := congrArg Prod.fst e'
        subst this; omega
      · have := h2 _ hm; simp only at this; omega

/-- Seeking to a point drops exactly the entries that end at or before it. -/
theorem seek_spec {m : RangeMap α} (h : SortedM m) (p : Nat) :
    ∃ pre, m = pre ++ seek m ⟨p, p⟩ ∧ (∀ e ∈ pre, e.1.to ≤ p) ∧ ∀ e ∈ seek m ⟨p, p⟩, p < e.1.to := by
  induction m with
  | nil => exact ⟨[], rfl, by simp, by simp [seek]⟩
  | cons a m ih =>
    obtain ⟨e, v⟩ := a
    have h1 := h.head_lt
    have h2 := h.head_le
    simp only at h1 h2
    unfold seek
    split
    · rename_i hc
      rw [RKey.cmp_gt] at hc
      obtain ⟨pre, e1, e2, e3⟩ := ih h.tail
      refine ⟨(e, v) :: pre, by rw [List.cons_append, ← e1], ?_, e3⟩
      intro x hx
      rcases List.mem_cons.mp hx with rfl | hx
      · exact hc.2
      · exact e2 x hx
    · rename_i hc
      have hp : p < e.to := by
        rcases Nat.lt_or_ge p e.to with hh | hh
        · exact hh
        · exact absurd (RKey.cmp_gt.mpr ⟨by simp only; omega, hh⟩) hc
      refine ⟨[], rfl, by simp, ?_⟩
      intro x hx
      rcases List.mem_cons.mp hx with rfl | hx
      · exact hp
      · have := h2 x hx
        have := h.tail.1 x hx
        omega

theorem search_spec {t : Tree α} (h : SortedM t.entries) {k : RKey} (hk : k.fr < k.to) :
    (∀ e v, t.search k = some (e, v) → (e, v) ∈ t.entries ∧ k.fr < e.to ∧ e.fr < k.to) ∧
    (t.search k = none → ∀ x ∈ t.entries, ¬ (k.fr < x.1.to ∧ x.1.fr < k.to)) := by
  induction t with
  | leaf => simp [Tree.search, Tree.entries]
  | node l e v r ihl ihr =>
    simp only [Tree.entries] at h ⊢
    have hr := h.suffix
    have hle := h.prefix_le
    have h1 := hr.head_lt
    have h2 := hr.head_le
    have hl : SortedM l.entries := ⟨fun x hx => h.1 x (by simp [hx]), (List.pairwise_append.mp h.2).1⟩
    have hlv : ∀ a ∈ l.entries, a.1.to ≤ e.fr := fun a ha => hle a ha (e, v) (by simp)
    obtain ⟨l1, l2⟩ := ihl hl
    obtain ⟨r1, r2⟩ := ihr hr.tail
    simp only at h1 h2
    unfold Tree.search
    split
    · rename_i hc
      have hc' := RKey.cmp_gt.mp hc
      refine ⟨fun e' v' h' => ⟨by simp [(r1 e' v' h').1], (r1 e' v' h').2⟩, ?_⟩
      intro hn x hx
      rcases List.mem_append.mp hx with hx | hx
      · have := hlv x hx; omega
      · rcases List.mem_cons.mp hx with rfl | hx
        · simp only; omega
        · exact r2 hn x hx
    · rename_i hc
      have hc' := RKey.cmp_eq.mp hc
      refine ⟨?_, by simp⟩
      intro e' v' h'
      simp only [Option.some.injEq, Prod.mk.injEq] at h'
      obtain ⟨rfl, rfl⟩ := h'
      exact ⟨by simp, by omega, by omega⟩
    · rename_i hc
      have hc' := RKey.cmp_lt.mp hc
      refine ⟨fun e' v' h' => ⟨by simp [(l1 e' v' h').1], (l1 e' v' h').2⟩, ?_⟩
      intro hn x hx
      rcases List.mem_append.mp hx with hx | hx
      · exact l2 hn x hx
      · rcases List.mem_cons.mp hx with rfl | hx
        · simp only; omega
        · have := h2 x hx; omega

end RangeMap
end Regalloc
