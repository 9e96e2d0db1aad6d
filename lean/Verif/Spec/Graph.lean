/-
Specification vocabulary for control-flow graphs: reachability, paths,
dominance. Nothing here mentions the algorithms.
-/
namespace Regalloc

/-- `Walk succs entry b l`: `l` is the list of blocks visited by some path from
`entry` to `b`, latest first. -/
inductive Walk (succs : Nat → List Nat) (entry : Nat) : Nat → List Nat → Prop
  | start : Walk succs entry entry [entry]
  | step {a b : Nat} {l : List Nat} : Walk succs entry a l → b ∈ succs a → Walk succs entry b (b :: l)

/-- `b` is reachable from `a`. -/
def Reaches (succs : Nat → List Nat) (a b : Nat) : Prop := ∃ l, Walk succs a b l

/-- `a` dominates `b`: every path from the entry to `b` passes through `a`. -/
def Dom (succs : Nat → List Nat) (entry a b : Nat) : Prop := ∀ l, Walk succs entry b l → a ∈ l

theorem Reaches.refl (succs : Nat → List Nat) (a : Nat) : Reaches succs a a := ⟨_, .start⟩

theorem Reaches.step {succs : Nat → List Nat} {a b c : Nat} (h : Reaches succs a b) (hc : c ∈ succs b) :
    Reaches succs a c := by
  obtain ⟨l, hl⟩ := h
  exact ⟨_, hl.step hc⟩

theorem Reaches.trans {succs : Nat → List Nat} {a b c : Nat} (h : Reaches succs a b)
    (h' : Reaches succs b c) : Reaches succs a c := by
  obtain ⟨l', hl'⟩ := h'
  induction hl' with
  | start => exact h
  | step _ hs ih => exact ih.step hs

end Regalloc
