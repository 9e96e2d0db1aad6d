/-
Stable sorting, as `slice::sort_by_key` does it. Structural (insertion sort), so
that it reduces in the kernel; a stable sort is determined by its result.
-/
namespace Regalloc

/-- Insert before the first element that is not smaller. -/
def insertBy {α : Type u} (le : α → α → Bool) (a : α) : List α → List α
  | [] => [a]
  | b :: l => if le a b then a :: b :: l else b :: insertBy le a l

/-- Stable sort (contract of Rust's `slice::sort_by_key` / `sort_by`). -/
def isort {α : Type u} (le : α → α → Bool) : List α → List α
  | [] => []
  | a :: l => insertBy le a (isort le l)

theorem perm_insertBy {α : Type u} (le : α → α → Bool) (a : α) (l : List α) :
    (insertBy le a l).Perm (a :: l) := by
  induction l with
  | nil => exact .refl _
  | cons b l ih =>
    unfold insertBy
    split
    · exact .refl _
    · exact (ih.cons b).trans (.swap a b l)

theorem perm_isort {α : Type u} (le : α → α → Bool) (l : List α) : (isort le l).Perm l := by
  induction l with
  | nil => exact .refl _
  | cons a l ih => exact (perm_insertBy le a _).trans (ih.cons a)

theorem mem_isort {α : Type u} {le : α → α → Bool} {l : List α} {a : α} : a ∈ isort le l ↔ a ∈ l :=
  (perm_isort le l).mem_iff

theorem pairwise_insertBy {α : Type u} {le : α → α → Bool}
    (htr : ∀ a b c, le a b = true → le b c = true → le a c = true)
    (htot : ∀ a b, le a b = true ∨ le b a = true) (a : α) (l : List α)
    (h : l.Pairwise (fun x y => le x y = true)) :
    (insertBy le a l).Pairwise (fun x y => le x y = true) := by
  induction l with
  | nil => simp [insertBy]
  | cons b l ih =>
    have h' := List.pairwise_cons.mp h
    unfold insertBy
    split
    next hab =>
      refine List.pairwise_cons.mpr ⟨?_, h⟩
      intro c hc
      rcases List.mem_cons.mp hc with rfl | hc
      · exact hab
      · exact htr _ _ _ hab (h'.1 c hc)
    next hab =>
      refine List.pairwise_cons.mpr ⟨?_, ih h'.2⟩
      intro c hc
      rcases List.mem_cons.mp ((perm_insertBy le a l).mem_iff.mp hc) with rfl | hc
      · rcases htot c b with h1 | h1
        · exact absurd h1 hab
        · exact h1
      · exact h'.1 c hc

theorem pairwise_isort {α : Type u} {le : α → α → Bool}
    (htr : ∀ a b c, le a b = true → le b c = true → le a c = true)
    (htot : ∀ a b, le a b = true ∨ le b a = true) (l : List α) :
    (isort le l).Pairwise (fun x y => le x y = true) := by
  induction l with
  | nil => simp [isort]
  | cons a l ih => exact pairwise_insertBy htr htot a _ ih

/-- Stability: elements of one key class keep their order. -/
theorem isort_stable {α : Type u} {le : α → α → Bool} (p : α → Bool)
    (hp : ∀ a b, p a = true → p b = true → le a b = true) (l : List α) :
    (isort le l).filter p = l.filter p := by
  have key : ∀ a l, (insertBy le a l).filter p = (a :: l).filter p := by
    intro a l
    induction l with
    | nil => rfl
    | cons b l ih =>
      unfold insertBy
      split
      · rfl
      next hab =>
        rw [List.filter_cons, ih]
        cases ha : p a <;> cases hb : p b <;> simp_all
  induction l with
  | nil => rfl
  | cons a l ih =>
    unfold isort
    rw [key, List.filter_cons, List.filter_cons, ih]

end Regalloc
