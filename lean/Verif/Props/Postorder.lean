import Verif.Proofs.Postorder

/-
C08: the postorder of a control-flow graph, for every graph (any number of
blocks, any successor lists).
-/
namespace Regalloc
open Postorder

/-- The traversal always finishes; it succeeds exactly when the entry and every
successor of a reachable block is a valid block. -/
theorem C08_succeeds_iff (n entry : Nat) (succs : Nat → List Nat) :
    (∃ out, calculate? n entry succs = some (.ok out)) ↔
      entry < n ∧ ∀ a, Reaches succs entry a → ∀ b ∈ succs a, b < n := by
  rcases calculate_spec n entry succs with ⟨rpo, h, R⟩ | ⟨b, h, hb, hr⟩
  · constructor
    · intro _
      refine ⟨R.lt entry ((R.mem entry).mpr (.refl _ _)), ?_⟩
      intro a ha b hb
      exact R.lt b ((R.mem b).mpr (ha.step hb))
    · intro _; exact ⟨_, h⟩
  · constructor
    · rintro ⟨out, h'⟩; rw [h] at h'; simp at h'
    · rintro ⟨h1, h2⟩
      rcases hr with rfl | ⟨a, ha, hab⟩
      · omega
      · have := h2 a ha b hab; omega

/-- Otherwise the error names the entry or a successor of a reachable block that
is not a valid block. -/
theorem C08_error (n entry : Nat) (succs : Nat → List Nat)
    (h : ¬ ∃ out, calculate? n entry succs = some (.ok out)) :
    ∃ b, calculate? n entry succs = some (.bb b) ∧ n ≤ b ∧
      (b = entry ∨ ∃ a, Reaches succs entry a ∧ b ∈ succs a) := by
  rcases calculate_spec n entry succs with ⟨rpo, h', R⟩ | h'
  · exact absurd ⟨_, h'⟩ h
  · exact h'

/-- The result lists exactly the reachable blocks, each once, and the entry
last. -/
theorem C08_lists_reachable_once (n entry : Nat) (succs : Nat → List Nat) (out : List Nat)
    (h : calculate? n entry succs = some (.ok out)) :
    out.Nodup ∧ (∀ b, b ∈ out ↔ Reaches succs entry b) ∧ out.getLast? = some entry := by
  rcases calculate_spec n entry succs with ⟨rpo, h', R⟩ | ⟨b, h', _⟩
  · rw [h'] at h
    simp only [Option.some.injEq, Res.ok.injEq] at h
    subst h
    refine ⟨?_, ?_, ?_⟩
    · exact (List.reverse_perm rpo).nodup_iff.mpr R.nodup
    · intro b; rw [List.mem_reverse]; exact R.mem b
    · rw [List.getLast?_reverse]; exact R.head
  · rw [h'] at h; simp at h

/-- It is a depth-first postorder: every block except the entry precedes one of
its predecessors, and every successor of a block precedes it unless the edge
closes a cycle. -/
theorem C08_order (n entry : Nat) (succs : Nat → List Nat) (out before after : List Nat) (x : Nat)
    (h : calculate? n entry succs = some (.ok out)) (hx : out = before ++ x :: after) :
    (x ≠ entry → ∃ p ∈ after, x ∈ succs p) ∧
    (∀ y ∈ succs x, y ∈ before ∨ Reaches succs y x) := by
  rcases calculate_spec n entry succs with ⟨rpo, h', R⟩ | ⟨b, h', _⟩
  · rw [h'] at h
    simp only [Option.some.injEq, Res.ok.injEq] at h
    have e : rpo = after.reverse ++ x :: before.reverse := by
      rw [← List.reverse_reverse rpo, h, hx]; simp
    constructor
    · intro hne
      obtain ⟨p, hp, hm⟩ := R.parent _ _ _ e hne
      exact ⟨p, List.mem_reverse.mp hm, hp⟩
    · intro y hy
      rcases R.good _ _ _ e y hy with h | h
      · exact .inl (List.mem_reverse.mp h)
      · exact .inr h
  · rw [h'] at h; simp at h

/-- A diamond with a loop and an unreachable block 5. -/
def exampleSuccs : Nat → List Nat
  | 0 => [1, 2]
  | 1 => [3]
  | 2 => [3]
  | 3 => [4, 1]
  | 5 => [3]
  | _ => []

example : calculate? 6 0 exampleSuccs = some (.ok [4, 3, 1, 2, 0]) := by decide +kernel
example : calculate? 4 0 exampleSuccs = some (.bb 4) := by decide +kernel
example : calculate? 4 9 exampleSuccs = some (.bb 9) := by decide +kernel

end Regalloc
