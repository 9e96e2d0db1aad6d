/-
Circular doubly linked lists, as successor and predecessor functions.
-/
namespace Regalloc.Ring

/-- Consecutive elements point at each other. -/
def Linked (nx pv : Nat → Nat) : List Nat → Prop
  | a :: b :: r => nx a = b ∧ pv b = a ∧ Linked nx pv (b :: r)
  | _ => True

variable {nx pv nx' pv' : Nat → Nat}

theorem linked_append (l1 : List Nat) (a : Nat) (l2 : List Nat) :
    Linked nx pv (l1 ++ a :: l2) ↔ Linked nx pv (l1 ++ [a]) ∧ Linked nx pv (a :: l2) := by
  induction l1 with
  | nil => simp [Linked]
  | cons b l1 ih =>
    cases l1 with
    | nil => simp [Linked, and_assoc]
    | cons c l1 =>
      simp only [List.cons_append, Linked] at ih ⊢
      rw [ih]
      simp only [and_assoc]

theorem linked_congr (l : List Nat) (h1 : ∀ a ∈ l.dropLast, nx' a = nx a) (h2 : ∀ a ∈ l.tail, pv' a = pv a)
    (h : Linked nx pv l) : Linked nx' pv' l := by
  induction l with
  | nil => trivial
  | cons a l ih =>
    cases l with
    | nil => trivial
    | cons b l =>
      obtain ⟨e1, e2, e3⟩ := h
      refine ⟨by rw [h1 a (by simp)]; exact e1, by rw [h2 b (by simp)]; exact e2, ih ?_ ?_ e3⟩
      · intro c hc; exact h1 c (by simp [hc])
      · intro c hc; exact h2 c (by simp at hc ⊢; exact .inr hc)

/-- `l` in order is a ring. -/
def IsRing (nx pv : Nat → Nat) (l : List Nat) : Prop :=
  l.Nodup ∧ ∀ h t, l = h :: t → Linked nx pv (h :: (t ++ [h]))

theorem isRing_cons (h : Nat) (t : List Nat) :
    IsRing nx pv (h :: t) ↔ (h :: t).Nodup ∧ Linked nx pv (h :: (t ++ [h])) := by
  constructor
  · rintro ⟨a, b⟩; exact ⟨a, b h t rfl⟩
  · rintro ⟨a, b⟩; exact ⟨a, by rintro h' t' e; simp at e; obtain ⟨rfl, rfl⟩ := e; exact b⟩

theorem exists_snoc (h : Nat) (A : List Nat) : ∃ A' a, h :: A = A' ++ [a] :=
  ⟨(h :: A).dropLast, (h :: A).getLast (by simp), (List.dropLast_concat_getLast (by simp)).symm⟩

theorem exists_cons (B : List Nat) (h : Nat) : ∃ b B', B ++ [h] = b :: B' := by
  cases B with
  | nil => exact ⟨h, [], rfl⟩
  | cons b B => exact ⟨b, B ++ [h], rfl⟩

theorem ring_nx_pv {h : Nat} {A B : List Nat} (hr : IsRing nx pv (h :: (A ++ B))) {A' : List Nat} {a b : Nat}
    {B' : List Nat} (ha : h :: A = A' ++ [a]) (hb : B ++ [h] = b :: B') :
    Linked nx pv (A' ++ [a]) ∧ nx a = b ∧ pv b = a ∧ Linked nx pv (b :: B') := by
  obtain ⟨hnd, hl⟩ := (isRing_cons _ _).mp hr
  have e : h :: (A ++ B ++ [h]) = A' ++ a :: (b :: B') := by
    rw [List.append_assoc, hb, ← List.cons_append, ha]; simp
  rw [e, linked_append] at hl
  exact ⟨hl.1, hl.2.1, hl.2.2.1, hl.2.2.2⟩

theorem ring_remove {h x : Nat} {A B : List Nat} (hr : IsRing nx pv (h :: (A ++ x :: B)))
    (h1 : ∀ i, i ≠ x → nx' i = if i = pv x then nx x else nx i)
    (h2 : ∀ i, i ≠ x → pv' i = if i = nx x then pv x else pv i) : IsRing nx' pv' (h :: (A ++ B)) := by
  obtain ⟨hnd, hl⟩ := (isRing_cons _ _).mp hr
  obtain ⟨A', p, hA⟩ := exists_snoc h A
  obtain ⟨n, B', hB⟩ := exists_cons B h
  have e : h :: (A ++ x :: B ++ [h]) = A' ++ p :: (x :: n :: B') := by
    rw [List.append_assoc, List.cons_append, hB, ← List.cons_append, hA]; simp
  rw [e, linked_append] at hl
  obtain ⟨l1, l2, l3, l4, l5, l6⟩ := hl
  have hnd' : (h :: (A ++ B)).Nodup := hnd.sublist (by simp)
  have hnd2 : (A' ++ [p] ++ x :: B).Nodup := by rw [← hA]; simpa using hnd
  rw [List.nodup_append, List.nodup_cons] at hnd2
  obtain ⟨nA, ⟨nxB, nB⟩, nAB⟩ := hnd2
  have hxA : x ∉ A' ++ [p] := fun hx => nAB x hx x (by simp) rfl
  have hpx : p ≠ x := fun e => hxA (by simp [e])
  have hhmem : h ∈ A' ++ [p] := by rw [← hA]; simp
  have hnmem : n ∈ B ++ [h] := by rw [hB]; simp
  have hnx : n ≠ x := by
    rintro rfl
    rcases List.mem_append.mp hnmem with h' | h'
    · exact nxB h'
    · simp at h'; subst h'; exact hxA hhmem
  have hBh : (n :: B').Nodup := by
    rw [← hB, List.nodup_append]
    exact ⟨nB, by simp, by intro a ha b hb e1; simp at hb; subst hb; subst e1; exact nAB a hhmem a (by simp [ha]) rfl⟩
  rw [List.nodup_append] at nA
  refine (isRing_cons _ _).mpr ⟨hnd', ?_⟩
  have e' : h :: (A ++ B ++ [h]) = A' ++ p :: (n :: B') := by
    rw [List.append_assoc, hB, ← List.cons_append, hA]; simp
  rw [e', linked_append]
  refine ⟨linked_congr _ ?_ ?_ l1, ?_, ?_, linked_congr _ ?_ ?_ l6⟩
  · intro a ha
    rw [List.dropLast_concat] at ha
    rw [h1 a (by rintro rfl; exact hxA (by simp [ha])), if_neg]
    rw [l3]; rintro rfl; exact nA.2.2 a ha a (by simp) rfl
  · intro a ha
    rw [← hA] at ha
    simp only [List.tail_cons] at ha
    have haA : a ∈ A' ++ [p] := by rw [← hA]; simp [ha]
    rw [h2 a (by rintro rfl; exact hxA haA), if_neg]
    rw [l4]; rintro rfl
    rcases List.mem_append.mp hnmem with h' | h'
    · exact nAB a haA a (by simp [h']) rfl
    · simp at h'; subst h'
      have := (List.nodup_cons.mp hnd').1
      exact this (by simp [ha])
  · rw [h1 p hpx, if_pos l3.symm, l4]
  · rw [h2 n hnx, if_pos l4.symm, l3]
  · intro a ha
    rw [← hB, List.dropLast_concat] at ha
    rw [h1 a (by rintro rfl; exact nxB ha), if_neg]
    rw [l3]; rintro rfl; exact nAB a (by simp) a (by simp [ha]) rfl
  · intro a ha
    simp only [List.tail_cons] at ha
    have ham : a ∈ B ++ [h] := by rw [hB]; simp [ha]
    rw [h2 a (by
      rintro rfl
      rcases List.mem_append.mp ham with h' | h'
      · exact nxB h'
      · simp at h'; subst h'; exact hxA hhmem), if_neg]
    rw [l4]; rintro rfl; exact (List.nodup_cons.mp hBh).1 ha

theorem ring_insert {h x a : Nat} {A B A' : List Nat} (hr : IsRing nx pv (h :: (A ++ B))) (ha : h :: A = A' ++ [a])
    (hx : x ∉ h :: (A ++ B))
    (h1 : ∀ i, nx' i = if i = x then nx a else if i = a then x else nx i)
    (h2 : ∀ i, pv' i = if i = x then a else if i = nx a then x else pv i) :
    IsRing nx' pv' (h :: (A ++ x :: B)) := by
  obtain ⟨b, B', hB⟩ := exists_cons B h
  obtain ⟨l1, l2, l3, l4⟩ := ring_nx_pv hr ha hB
  obtain ⟨hnd, -⟩ := (isRing_cons _ _).mp hr
  have hnd2 : (A' ++ [a] ++ B).Nodup := by rw [← ha]; simpa using hnd
  have hx2 : x ∉ A' ++ [a] ++ B := by rw [← ha]; simpa using hx
  have hhmem : h ∈ A' ++ [a] := by rw [← ha]; simp
  have hbmem : b ∈ B ++ [h] := by rw [hB]; simp
  rw [List.nodup_append] at hnd2
  obtain ⟨nA, nB, nAB⟩ := hnd2
  have hBh : (b :: B').Nodup := by
    rw [← hB, List.nodup_append]
    exact ⟨nB, by simp, by intro c hc d hd e; simp at hd; subst hd; subst e; exact nAB c hhmem c hc rfl⟩
  have hxmem : ∀ c, c ∈ A' ++ [a] ∨ c ∈ B ++ [h] → c ≠ x := by
    rintro c hc rfl
    apply hx2
    rcases hc with hc | hc
    · exact List.mem_append.mpr (.inl hc)
    · rcases List.mem_append.mp hc with hc | hc
      · exact List.mem_append.mpr (.inr hc)
      · simp at hc; subst hc; exact List.mem_append.mpr (.inl hhmem)
  have hax : a ≠ x := hxmem a (.inl (by simp))
  have hbx : b ≠ x := hxmem b (.inr hbmem)
  refine (isRing_cons _ _).mpr ⟨?_, ?_⟩
  · have hp : (x :: (h :: (A ++ B))).Nodup := List.nodup_cons.mpr ⟨hx, hnd⟩
    exact (List.Perm.nodup_iff (by
      have : (A ++ x :: B).Perm (x :: (A ++ B)) := List.perm_middle
      exact ((this.cons h).trans (List.Perm.swap x h _)))).mpr hp
  have e' : h :: (A ++ x :: B ++ [h]) = A' ++ a :: (x :: b :: B') := by
    rw [List.append_assoc, List.cons_append, hB, ← List.cons_append, ha]; simp
  rw [e', linked_append]
  refine ⟨linked_congr _ ?_ ?_ l1, ?_, ?_, ?_, ?_, linked_congr _ ?_ ?_ l4⟩
  · intro c hc
    rw [List.dropLast_concat] at hc
    rw [h1 c, if_neg (hxmem c (.inl (by simp [hc]))), if_neg]
    rintro rfl
    rw [List.nodup_append] at nA
    exact nA.2.2 c hc c (by simp) rfl
  · intro c hc
    rw [← ha] at hc
    simp only [List.tail_cons] at hc
    have hcA : c ∈ A' ++ [a] := by rw [← ha]; simp [hc]
    rw [h2 c, if_neg (hxmem c (.inl hcA)), if_neg]
    rw [l2]; rintro rfl
    rcases List.mem_append.mp hbmem with h' | h'
    · exact nAB c hcA c h' rfl
    · simp at h'; subst h'
      exact (List.nodup_cons.mp hnd).1 (by simp [hc])
  · rw [h1, if_neg hax, if_pos rfl]
  · rw [h2, if_pos rfl]
  · rw [h1, if_pos rfl, l2]
  · rw [h2, if_neg hbx, if_pos l2.symm]
  · intro c hc
    rw [← hB, List.dropLast_concat] at hc
    rw [h1 c, if_neg (hxmem c (.inr (by simp [hc]))), if_neg]
    rintro rfl; exact nAB c (by simp) c hc rfl
  · intro c hc
    simp only [List.tail_cons] at hc
    have hcm : c ∈ B ++ [h] := by rw [hB]; simp [hc]
    rw [h2 c, if_neg (hxmem c (.inr hcm)), if_neg]
    rw [l2]; rintro rfl; exact (List.nodup_cons.mp hBh).1 hc

theorem ring_rotate {h x : Nat} {t : List Nat} (hr : IsRing nx pv (h :: (t ++ [x]))) : IsRing nx pv (x :: h :: t) := by
  obtain ⟨hnd, hl⟩ := (isRing_cons _ _).mp hr
  refine (isRing_cons _ _).mpr ⟨?_, ?_⟩
  · have : (x :: h :: t).Perm (h :: (t ++ [x])) :=
      (List.Perm.swap h x t).trans ((List.perm_append_comm (l₁ := [x]) (l₂ := t)).cons h)
    exact this.nodup_iff.mpr hnd
  · have e : h :: (t ++ [x] ++ [h]) = (h :: t) ++ x :: [h] := by simp
    rw [e, linked_append] at hl
    obtain ⟨l1, l2, l3, _⟩ := hl
    exact ⟨l2, l3, by simpa using l1⟩

theorem ring_adj {l l1 l2 : List Nat} {a b : Nat} (hr : IsRing nx pv l) (h : l = l1 ++ a :: b :: l2) :
    nx a = b ∧ pv b = a := by
  obtain ⟨x, t, hx⟩ : ∃ x t, l = x :: t := by
    cases l with
    | nil => simp at h
    | cons x t => exact ⟨x, t, rfl⟩
  have hl := hr.2 x t hx
  rw [← List.cons_append, ← hx, h, List.append_assoc, List.cons_append, List.cons_append, linked_append] at hl
  exact ⟨hl.2.1, hl.2.2.1⟩

theorem ring_wrap {h : Nat} {t A' : List Nat} {a : Nat} (hr : IsRing nx pv (h :: t)) (ha : h :: t = A' ++ [a]) :
    nx a = h ∧ pv h = a := by
  have := ring_nx_pv (A := t) (B := []) (by simpa using hr) ha (b := h) (B' := []) rfl
  exact ⟨this.2.1, this.2.2.1⟩

/-- Every node's neighbours are on the ring and point back. -/
theorem ring_closed {l : List Nat} (hr : IsRing nx pv l) {x : Nat} (hx : x ∈ l) :
    nx x ∈ l ∧ pv x ∈ l ∧ pv (nx x) = x ∧ nx (pv x) = x := by
  obtain ⟨h, t, rfl⟩ : ∃ h t, l = h :: t := by cases l <;> simp_all
  obtain ⟨l1, l2, e⟩ := List.append_of_mem hx
  have h1 : nx x ∈ h :: t ∧ pv (nx x) = x := by
    cases l2 with
    | nil =>
      obtain ⟨e1, e2⟩ := ring_wrap hr e
      rw [e1, e2]; simp
    | cons b l2 =>
      obtain ⟨e1, e2⟩ := ring_adj hr e
      rw [e1, e2]; rw [e]; simp
  have h2 : pv x ∈ h :: t ∧ nx (pv x) = x := by
    cases l1 with
    | nil =>
      simp at e
      obtain ⟨rfl, rfl⟩ := e
      obtain ⟨A', a, ha⟩ := exists_snoc h t
      obtain ⟨e1, e2⟩ := ring_wrap hr ha
      rw [e2, e1, ha]; simp
    | cons c l1 =>
      obtain ⟨A', a, ha⟩ := exists_snoc c l1
      have : h :: t = A' ++ a :: x :: l2 := by rw [e, ha]; simp
      obtain ⟨e1, e2⟩ := ring_adj hr this
      rw [e2, e1, this]; simp
  exact ⟨h1.1, h2.1, h1.2, h2.2⟩

end Regalloc.Ring
