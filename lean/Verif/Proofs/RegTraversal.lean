import Verif.Model.RegTraversal
import Verif.Props.PRegSet
import Batteries.Data.List.Perm

namespace Regalloc
namespace RegTraversalIter

/-- Items still to come from a cursor. -/
def _root_.Regalloc.Cursor.items (c : Cursor) : List PReg := c.first ++ c.second

theorem next_none {c : Cursor} (h : c.next = none) : c.items = [] := by
  cases c with
  | mk a b => cases a <;> cases b <;> simp_all [Cursor.next, Cursor.items]

theorem next_some {c c' : Cursor} {p : PReg} (h : c.next = some (p, c')) : c.items = p :: c'.items := by
  cases c with
  | mk a b =>
    cases a with
    | cons x xs =>
      simp only [Cursor.next, Option.some.injEq, Prod.mk.injEq] at h
      obtain ⟨rfl, rfl⟩ := h; rfl
    | nil =>
      cases b with
      | cons x xs =>
        simp only [Cursor.next, Option.some.injEq, Prod.mk.injEq] at h
        obtain ⟨rfl, rfl⟩ := h; rfl
      | nil => simp [Cursor.next] at h

/-- The registers of a scan that are returned. -/
def keep (hint : Option PReg) (limit : Option Nat) (p : PReg) : Bool := !(some p = hint || !(within limit p))

theorem scan_spec (hint : Option PReg) (limit : Option Nat) (c : Cursor) :
    match scan hint limit c with
    | (none, c') => c.items.filter (keep hint limit) = [] ∧ c'.items = []
    | (some p, c') => c.items.filter (keep hint limit) = p :: c'.items.filter (keep hint limit) ∧
        c'.items.length < c.items.length := by
  fun_induction scan hint limit c with
  | case1 c h => exact ⟨by rw [next_none h]; rfl, next_none h⟩
  | case2 c p c' h hcond ih =>
    rw [next_some h]
    have : keep hint limit p = false := by unfold keep; rw [hcond]; rfl
    rw [List.filter_cons_of_neg (by simp [this])]
    revert ih
    split
    · exact id
    · rintro ⟨h1, h2⟩; exact ⟨h1, by simp; omega⟩
  | case3 c p c' h hcond =>
    rw [next_some h]
    have : keep hint limit p = true := by unfold keep; simpa using hcond
    exact ⟨by rw [List.filter_cons_of_pos this], by simp⟩

/-- What a non-fixed iterator in scanning state still yields. -/
theorem collect_rest (n : Nat) : ∀ (it : RegTraversalIter), it.isFixed = false →
    it.useHint = false ∨ it.hint = none → it.preferred.items.length + it.nonPreferred.items.length < n →
    collect n it = it.preferred.items.filter (keep it.hint it.limit) ++
      it.nonPreferred.items.filter (keep it.hint it.limit) := by
  induction n with
  | zero => intro it _ _ h; omega
  | succ n ih =>
    intro it hf hh hn
    have e : it.next = next.rest it := by
      unfold next
      rw [if_neg (by simp [hf])]
      split
      · rename_i h1 h2; rcases hh with h | h <;> simp_all
      · rfl
    unfold collect
    rw [e]
    unfold next.rest
    have s1 := scan_spec it.hint it.limit it.preferred
    cases h1 : scan it.hint it.limit it.preferred with
    | mk o c =>
      rw [h1] at s1
      cases o with
      | some p =>
        simp only at s1 ⊢
        rw [ih { it with preferred := c } hf hh (by simp only; omega), s1.1]
        rfl
      | none =>
        simp only at s1 ⊢
        have s2 := scan_spec it.hint it.limit it.nonPreferred
        cases h2 : scan it.hint it.limit it.nonPreferred with
        | mk o2 c2 =>
          rw [h2] at s2
          cases o2 with
          | some p =>
            simp only at s2 ⊢
            rw [ih { it with preferred := c, nonPreferred := c2 } hf hh (by simp only [s1.2, List.length_nil]; omega), s1.1, s2.1]
            simp [s1.2]
          | none =>
            simp only at s2 ⊢
            rw [s1.1, s2.1]; rfl

theorem mem_inter (s t : PRegSet) (p : PReg) :
    p ∈ (s.intersectFrom t).toList ↔ s.contains p = true ∧ t.contains p = true := by
  rw [(C06_iteration _).1, PRegSet.contains_eq_has, PRegSet.has_inter, PRegSet.contains_eq_has, PRegSet.contains_eq_has]
  simp

/-- The rotation a cursor goes through: members from the start register on, then the others. -/
theorem cursor_items (s : PRegSet) (cls : RegClass) (off : Nat) :
    (∀ p, p ∈ (Cursor.new s cls off).first ↔ s.contains p = true ∧ (PReg.new (off % PReg.MAX) cls).index ≤ p.index) ∧
    (∀ p, p ∈ (Cursor.new s cls off).second ↔ s.contains p = true ∧ p.index < (PReg.new (off % PReg.MAX) cls).index) ∧
    (Cursor.new s cls off).items.Nodup ∧ (Cursor.new s cls off).items.length ≤ 256 := by
  have h1 : ∀ p, p ∈ (Cursor.new s cls off).first ↔ s.contains p = true ∧ (PReg.new (off % PReg.MAX) cls).index ≤ p.index := by
    intro p
    unfold Cursor.new
    simp only [mem_inter]
    rw [PRegSet.contains_eq_has (PRegSet.invert _), PRegSet.has_invert _ _ (PRegSet.index_lt p), ← PRegSet.contains_eq_has]
    have := C06_add_up_to_empty (PReg.new (off % PReg.MAX) cls) p
    constructor
    · rintro ⟨a, b⟩
      refine ⟨a, ?_⟩
      apply Decidable.byContradiction
      intro hn
      rw [this.mpr (by omega)] at b
      simp at b
    · rintro ⟨a, b⟩
      refine ⟨a, ?_⟩
      cases hc : (PRegSet.empty.addUpTo (PReg.new (off % PReg.MAX) cls)).contains p with
      | false => rfl
      | true => have := this.mp hc; omega
  have h2 : ∀ p, p ∈ (Cursor.new s cls off).second ↔ s.contains p = true ∧ p.index < (PReg.new (off % PReg.MAX) cls).index := by
    intro p
    unfold Cursor.new
    simp only [mem_inter]
    rw [C06_add_up_to_empty]
  have h3 : (Cursor.new s cls off).items.Nodup := by
    unfold Cursor.items
    rw [List.nodup_append]
    refine ⟨(C06_iteration _).2.2, (C06_iteration _).2.2, ?_⟩
    rintro a ha b hb rfl
    have := (h1 a).mp ha
    have := (h2 a).mp hb
    omega
  refine ⟨h1, h2, h3, ?_⟩
  have hn : ((Cursor.new s cls off).items.map PReg.index).Nodup := by
    rw [List.Nodup, List.pairwise_map]
    exact h3.imp (fun h e => h (PRegSet.index_inj e))
  have : ((Cursor.new s cls off).items.map PReg.index).Subperm (List.range 256) := List.subperm_of_subset hn (by
    intro x hx
    obtain ⟨p, -, rfl⟩ := List.mem_map.mp hx
    simpa using PRegSet.index_lt p)
  simpa using this.length_le

theorem all_spec (env : MachineEnv) (cls : RegClass) (hint : Option PReg) (off : Nat) (limit : Option Nat) :
    (new env cls none hint off limit).all =
      (hint.toList).filter (within limit) ++
      ((Cursor.new (env.preferred cls) cls off).items.filter (keep hint limit) ++
        (Cursor.new (env.nonPreferred cls) cls off).items.filter (keep hint limit)) := by
  have l1 := (cursor_items (env.preferred cls) cls off).2.2.2
  have l2 := (cursor_items (env.nonPreferred cls) cls off).2.2.2
  unfold all
  cases hint with
  | none =>
    rw [collect_rest 600 _ rfl (.inr rfl) (by simp only [new]; omega)]
    rfl
  | some h =>
    have key : ∀ n, 599 ≤ n → collect n { new env cls none (some h) off limit with useHint := false } =
        (Cursor.new (env.preferred cls) cls off).items.filter (keep (some h) limit) ++
          (Cursor.new (env.nonPreferred cls) cls off).items.filter (keep (some h) limit) := by
      intro n hn
      rw [collect_rest n _ rfl (.inl rfl) (by simp only [new]; omega)]
      rfl
    by_cases hw : within limit h = true
    · have e : (new env cls none (some h) off limit).next =
          (some h, { new env cls none (some h) off limit with useHint := false }) := by
        simp [next, new, hw]
      rw [show (600 : Nat) = 599 + 1 from rfl, collect, e]
      simp only
      rw [key 599 (by omega)]
      simp [hw]
    · have e : (new env cls none (some h) off limit).next =
          next { new env cls none (some h) off limit with useHint := false } := by
        simp [next, new, hw]
      have : collect 600 (new env cls none (some h) off limit) =
          collect 600 { new env cls none (some h) off limit with useHint := false } := by
        rw [show (600 : Nat) = 599 + 1 from rfl, collect, collect, e]
      rw [this, key 600 (by omega)]
      simp [hw]

end RegTraversalIter
end Regalloc
