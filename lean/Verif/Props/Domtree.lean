import Verif.Proofs.Domtree
import Verif.Props.Postorder

/-
C09: dominator tree. `postOrd` is whatever the postorder computation of the same
graph returned; predecessor lists agree with successor lists.
-/
namespace Regalloc
open Domtree

/-- Predecessor lists of reachable blocks are valid blocks and agree with the
successor lists. -/
def PredsMatch (n entry : Nat) (succs preds : Nat → List Nat) : Prop :=
  (∀ x, Reaches succs entry x → ∀ p ∈ preds x, p < n) ∧
  (∀ x p, Reaches succs entry x → Reaches succs entry p → (p ∈ preds x ↔ x ∈ succs p))

/-- The computation finishes on every graph without panicking, and `dominates`
on its result answers exactly the path-based dominance question for every
reachable block. -/
theorem C09_dominates (n entry : Nat) (succs preds : Nat → List Nat) (postOrd : List Nat)
    (hpo : Postorder.calculate? n entry succs = some (.ok postOrd))
    (hp : PredsMatch n entry succs preds) :
    ∃ idom, calculate? n preds postOrd entry = some idom ∧
      ∀ a b, Reaches succs entry b →
        ∃ r, dominates? idom (some a) (some b) = some r ∧ (r = true ↔ Dom succs entry a b) := by
  rcases Postorder.calculate_spec n entry succs with ⟨rpo, h, R⟩ | ⟨b, h, _⟩
  · rw [h] at hpo
    simp only [Option.some.injEq, Postorder.Res.ok.injEq] at hpo
    subst hpo
    obtain ⟨idom, h1, T, h3, h4⟩ := calculate_spec n entry succs preds rpo R hp.1 hp.2
    refine ⟨idom, h1, ?_⟩
    intro a b hb
    refine dominates_spec T (fun x => rpo.idxOf x) (fun x p h => (h3 x p h).1) _ a b hb
      (fun x hx => R.lt x ((R.mem x).mpr hx)) ?_
    have := List.idxOf_lt_length_of_mem ((R.mem b).mpr hb)
    rw [T.len]
    omega
  · rw [h] at hpo; simp at hpo

/-- The computed parent of a reachable non-entry block is its immediate
dominator: a strict dominator which every other strict dominator dominates. The
entry and unreachable blocks have no parent. -/
theorem C09_immediate_dominator (n entry : Nat) (succs preds : Nat → List Nat) (postOrd : List Nat)
    (hpo : Postorder.calculate? n entry succs = some (.ok postOrd))
    (hp : PredsMatch n entry succs preds) :
    ∃ idom, calculate? n preds postOrd entry = some idom ∧ idom.length = n ∧
      idom[entry]? = some none ∧
      (∀ x, x < n → ¬ Reaches succs entry x → idom[x]? = some none) ∧
      (∀ x, Reaches succs entry x → x ≠ entry → ∃ p, idom[x]? = some (some p) ∧ p ≠ x ∧
        Dom succs entry p x ∧ ∀ d, Dom succs entry d x → d ≠ x → Dom succs entry d p) := by
  rcases Postorder.calculate_spec n entry succs with ⟨rpo, h, R⟩ | ⟨b, h, _⟩
  · rw [h] at hpo
    simp only [Option.some.injEq, Postorder.Res.ok.injEq] at hpo
    subst hpo
    obtain ⟨idom, h1, T, _, _⟩ := calculate_spec n entry succs preds rpo R hp.1 hp.2
    exact ⟨idom, h1, T.len, T.root, T.unreachable, T.strict⟩
  · rw [h] at hpo; simp at hpo

/-- An unreachable block is dominated only by itself according to `dominates`. -/
theorem C09_unreachable (n entry : Nat) (succs preds : Nat → List Nat) (postOrd : List Nat)
    (hpo : Postorder.calculate? n entry succs = some (.ok postOrd))
    (hp : PredsMatch n entry succs preds) :
    ∃ idom, calculate? n preds postOrd entry = some idom ∧
      ∀ a b, b < n → ¬ Reaches succs entry b → dominates? idom (some a) (some b) = some (decide (a = b)) := by
  obtain ⟨idom, h1, h2, _, h4, _⟩ := C09_immediate_dominator n entry succs preds postOrd hpo hp
  refine ⟨idom, h1, ?_⟩
  intro a b hb hr
  unfold dominates?
  simp only [dominatesFuel, h4 b hb hr]
  by_cases e : a = b <;> simp [e]

/-- An irreducible graph (a loop 1 ⇄ 2 entered at both ends) with an unreachable
block 4 jumping into it. -/
def irreducible : Nat → List Nat
  | 0 => [1, 2]
  | 1 => [2, 3]
  | 2 => [1, 3]
  | 3 => []
  | 4 => [3]
  | _ => []

def irreduciblePreds : Nat → List Nat
  | 0 => []
  | 1 => [0, 2]
  | 2 => [0, 1]
  | 3 => [1, 2, 4]
  | _ => []

example : Postorder.calculate? 5 0 irreducible = some (.ok [3, 2, 1, 0]) := by decide +kernel
example : calculate? 5 irreduciblePreds [3, 2, 1, 0] 0 = some [none, some 0, some 0, some 0, none] := by
  decide +kernel
example : PredsMatch 5 0 irreducible irreduciblePreds := by
  have key : ∀ x, x ∈ [0, 1, 2, 3] ↔ Reaches irreducible 0 x := by
    intro x
    rw [← (C08_lists_reachable_once 5 0 irreducible [3, 2, 1, 0] (by decide +kernel)).2.1 x]
    simp only [List.mem_cons, List.not_mem_nil, or_false]
    omega
  constructor
  · intro x hx p hp
    have := (key x).mpr hx
    simp at this
    rcases this with rfl | rfl | rfl | rfl <;> simp [irreduciblePreds] at hp <;> omega
  · intro x p hx hp
    have h1 := (key x).mpr hx
    have h2 := (key p).mpr hp
    simp at h1 h2
    rcases h1 with rfl | rfl | rfl | rfl <;> rcases h2 with rfl | rfl | rfl | rfl <;>
      simp [irreducible, irreduciblePreds]

end Regalloc
