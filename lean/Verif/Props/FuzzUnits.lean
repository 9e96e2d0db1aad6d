import Verif.Proofs.FuzzDomtree
import Verif.Proofs.FuzzMoves

/-
C53: the fuzz targets for dominator trees and parallel moves never fail, and what it means that they
do not.
-/
namespace Regalloc

/-! ### Dominator trees -/

namespace FuzzDom

open FuzzGen (Err)

/-- C53. Whatever is chosen, the generator of graphs and paths does not panic, and the target does
not fail on what it makes. -/
theorem C53_domtree_target (s : List Nat) :
    genCase s ≠ .error Err.panic ∧ ∀ t s', genCase s = .ok (t, s') → check t = .ok () := by
  have h := genCase_sat s
  refine ⟨?_, ?_⟩
  · intro e
    rw [e] at h
    exact h rfl
  · intro t s' e
    rw [e] at h
    obtain ⟨hc, r, hp, hf⟩ := h
    exact check_ok hc hp hf

/-- C53. What the target tests: if a table passes on every path from the entry, then each block that
`dominates` calls a dominator of a reachable block is one. -/
theorem C53_domtree_oracle (f : Nat → List Nat) (idom : List (Option Nat))
    (h : ∀ r, Follows f 0 r → violations idom [0] (0 :: r) = .ok ()) (a b : Nat) (hab : a < idom.length) (hb : Reaches f 0 b)
    (hd : Domtree.dominates? idom (some a) (some b) = some true) : Dom f 0 a b := by
  intro l hw
  obtain ⟨vis, hv, hsub⟩ := path_passes h hw
  exact hsub a (violation_mem hab hv hd)

/-- C53. The target cannot tell that dominators are missing: a table without any passes on every path. -/
theorem C53_domtree_oracle_misses (n : Nat) (path vis : List Nat) (h : ∀ b ∈ path, b < n) : violations (List.replicate n none) vis path = .ok () := by
  induction path generalizing vis with
  | nil => rfl
  | cons b bs ih =>
    have hb : b < n := h b List.mem_cons_self
    have hg : (List.replicate n (none : Option Nat))[b]? = some none := by
      rw [List.getElem?_replicate, if_pos hb]
    have hall : (List.range (List.replicate n (none : Option Nat)).length).all (agrees (List.replicate n none) [b] b) = true := by
      rw [List.all_eq_true]
      intro a _
      unfold agrees
      rw [decide_eq_true_iff]
      by_cases e : a = b
      · subst e
        unfold Domtree.dominates? Domtree.dominatesFuel
        rw [if_pos rfl, decide_eq_true List.mem_cons_self]
      · rw [decide_eq_false (by rw [List.mem_singleton]; exact e)]
        unfold Domtree.dominates?
        rw [List.length_replicate]
        show Domtree.dominatesFuel _ ((n + 1) + 1) _ _ = _
        unfold Domtree.dominatesFuel
        rw [if_neg (by intro e'; injection e' with e'; exact e e')]
        dsimp only
        rw [hg]
        dsimp only
        unfold Domtree.dominatesFuel
        rw [if_neg (by intro e'; cases e')]
    unfold violations
    rw [hg]
    dsimp only
    unfold climb
    dsimp only
    rw [if_pos hall]
    exact ih _ fun x hx => h x (List.mem_cons_of_mem _ hx)

/-- A graph with a fork that joins, and a path around a loop. -/
def demo : List Nat := [3, 2, 1, 2, 1, 3, 1, 3, 2, 0, 1, 6, 1, 0, 0, 0, 0, 1]

example : (match genCase demo with | .ok (t, _) => some (t.cfg.succs, t.path, match check t with | .ok () => true | _ => false) | .error _ => none) =
    some ([[1, 2], [3], [3], [0, 1]], [0, 2, 3, 0, 1, 3, 1], true) := by decide +kernel

/-- A wrong table does not pass: block 1 does not dominate block 3. -/
example : (match violations [none, some 0, some 0, some 1] [0] [0, 2, 3] with | .error .assertion => true | _ => false) = true := by decide +kernel

end FuzzDom

/-! ### Parallel moves -/

namespace FuzzMoves

open Moves (exec)

/-- C53. Whatever is chosen, the generator makes a set of moves, and the target does not fail on it. -/
theorem C53_moves_target (s : List Nat) : ∃ t s', genCase s = .ok (t, s') ∧ check t = .ok () := by
  obtain ⟨t, s', h, hc⟩ := genCase_ok s
  exact ⟨t, s', h, check_ok hc⟩

/-- C53. What the target tests: each location that is written at all ends up with the value its move
asks for; if none does, it keeps its value unless it was offered as a scratch location. -/
theorem C53_moves_oracle {t : Case} (h : CaseOk t) (out : List (Move Unit)) :
    passes t out = true ↔ ∀ m ∈ out, (∀ p ∈ t.moves, p.2 = m.dst → exec (fun a => a) out m.dst = p.1) ∧
      ((∀ p ∈ t.moves, p.2 ≠ m.dst) → exec (fun a => a) out m.dst = m.dst ∨ m.dst ∈ t.avail ∨
        (m.dst.isStack = true ∧ ∃ s, m.dst.asStack = some s ∧ 32 ≤ s.index)) := by
  obtain ⟨hkey, hsim⟩ := simulate_spec out
  have hmem : ∀ l, (∃ e ∈ simulate out, e.1 = l) ↔ ∃ m ∈ out, m.dst = l := simulate_keys out
  have hval : ∀ e ∈ simulate out, exec (fun a => a) out e.1 = e.2 := by
    intro e he
    rw [← hsim e.1, hkey e he]
    rfl
  unfold passes
  rw [List.all_eq_true]
  constructor
  · intro ha m hm
    obtain ⟨e, he, e1⟩ := (hmem m.dst).mpr ⟨m, hm, rfl⟩
    have := (assertion_iff h e.1 e.2).mp (ha e he)
    rw [← hval e he, e1] at this
    exact this
  · intro ha e he
    obtain ⟨m, hm, e1⟩ := (hmem e.1).mp ⟨e, he, rfl⟩
    refine (assertion_iff h e.1 e.2).mpr ?_
    have := ha m hm
    rw [e1, hval e he] at this
    exact this

/-- C53. The target cannot tell that moves are missing: no moves at all pass. -/
theorem C53_moves_oracle_misses (t : Case) : passes t [] = true := rfl

/-- Two registers are exchanged, and a slot is copied to another; there is no free register. -/
def demo : List Nat := [1, 1, 3, 1, 4, 1, 1, 4, 1, 3, 1, 0, 5, 0, 6, 0, 0]

example : (match genCase demo with | .ok (t, _) => some (t.moves.length, t.avail.length, match check t with | .ok () => true | _ => false) | .error _ => none) =
    some (3, 0, true) := by decide +kernel

/-- Carrying out the moves one after the other does not pass. -/
example : (match genCase demo with | .ok (t, _) => some (passes t (t.moves.map (fun p => ⟨p.1, p.2, ()⟩))) | .error _ => none) = some false := by decide +kernel

end FuzzMoves

end Regalloc
