import Verif.Model.Function
import Verif.Spec.Graph

/-
Specification vocabulary for C11 and C32: critical edges, executions as block
sequences and how often an edge is traversed.
-/
namespace Regalloc

/-- Predecessor lists are the successor lists turned around, edge by edge, and
every block number is valid. -/
structure EdgesMatch (f : Func) : Prop where
  succLt : ∀ a b, a < f.numBlocks → b ∈ f.succs a → b < f.numBlocks
  predLt : ∀ a b, b < f.numBlocks → a ∈ f.preds b → a < f.numBlocks
  iff : ∀ a b, a < f.numBlocks → b < f.numBlocks → (a ∈ f.preds b ↔ b ∈ f.succs a)
  entryLt : f.entry < f.numBlocks

/-- Decidable form, for concrete examples. -/
def edgesMatchB (f : Func) : Bool :=
  (List.range f.numBlocks).all (fun a => (f.succs a).all (· < f.numBlocks) && (f.preds a).all (· < f.numBlocks)
    && (List.range f.numBlocks).all (fun b => decide (a ∈ f.preds b ↔ b ∈ f.succs a))) &&
  decide (f.entry < f.numBlocks)

theorem EdgesMatch.of_decide {f : Func} (h : edgesMatchB f = true) : EdgesMatch f := by
  simp only [edgesMatchB, Bool.and_eq_true, List.all_eq_true, List.mem_range, decide_eq_true_eq] at h
  exact ⟨fun a b ha hb => (h.1 a ha).1.1 b hb, fun a b hb ha => (h.1 b hb).1.2 a ha,
    fun a b ha hb => (h.1 a ha).2 b hb, h.2⟩

/-- The block can be entered in more than one way: two incoming edges, or one
incoming edge besides the function's entry. -/
def MultiIn (f : Func) (b : Nat) : Prop :=
  1 < (f.preds b).length ∨ (b = f.entry ∧ f.preds b ≠ [])

/-- The edge leaves a block with several successors and enters a block that can
be entered in several ways. -/
def CriticalEdge (f : Func) (a b : Nat) : Prop :=
  b ∈ f.succs a ∧ 1 < (f.succs a).length ∧ MultiIn f b

/-- The terminator of a block on an edge into a multi-entry block has operands. -/
def BadBranchArg (f : Func) (a : Nat) : Prop :=
  (∃ b ∈ f.succs a, MultiIn f b) ∧ f.operands (f.lastInst a) ≠ []

/-- Number of traversals of edge `a → b` in a block sequence (latest first). -/
def traversals (a b : Nat) : List Nat → Nat
  | y :: x :: l => (if x = a ∧ y = b then 1 else 0) + traversals a b (x :: l)
  | _ => 0

end Regalloc
