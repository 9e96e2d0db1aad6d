import Verif.Model.Checker
import Verif.Spec.Exec

/-
Vocabulary for the statements about the checker (C12, C13).
-/
namespace Regalloc
namespace Checker

/-- Each move in the block either copies a location the analysis knows something
about, or overwrites one it knows nothing about. (When neither holds the checker
keeps the stale knowledge about the overwritten location.) -/
def MovesTracked : CState → List CInst → Prop
  | _, [] => True
  | S, ci :: cis =>
    (∀ into from_, ci = .move into from_ → S.get from_ = none → S.get into = none) ∧
    ∀ S', update? S ci = some S' → MovesTracked S' cis

/-- Instruction-level conditions the checker relies on without checking them. -/
structure InstOk (f : Func) (out : Output) (i : Nat) : Prop where
  /-- one allocation per operand -/
  len : ∃ as, out.instAllocs i = some as ∧ as.length = (f.operands i).length
  /-- SSA: an instruction does not read what it defines -/
  useDef : ∀ v ∈ opReads (f.operands i), v ∉ opWrites (f.operands i)
  /-- SSA: definitions are distinct registers -/
  defs : (opWrites (f.operands i)).Nodup
  /-- an early definition listed after a late one does not share its location -/
  order : ∀ l1 p l2 q l3, (f.operands i).zip ((out.instAllocs i).getD []) = l1 ++ p :: (l2 ++ q :: l3) →
    p.1.kind = .Def → p.1.pos = .Late → q.1.kind = .Def → q.1.pos = .Early → p.2 ≠ q.2
  /-- no late uses next to a reused input (the checker skips them) -/
  reuse : hasReuse (f.operands i) = true → ∀ o ∈ f.operands i,
    ¬ (o.kind = .Use ∧ o.pos = .Late ∧ o.asFixedNonallocatable = none)

/-- Function-level conditions. -/
structure FuncOk (f : Func) (out : Output) : Prop where
  entryLt : f.entry < f.numBlocks
  sorted : out.edits.Pairwise (fun a b => a.1 ≤ b.1)
  succLt : ∀ b, b < f.numBlocks → ∀ t ∈ f.succs b, t < f.numBlocks
  nonempty : ∀ b, b < f.numBlocks → (f.insns b).1 < (f.insns b).2
  /-- no two edges between the same blocks, unless they pass no arguments -/
  edges : ∀ b, b < f.numBlocks → ∀ (k k' s : Nat), (f.succs b)[k]? = some s → (f.succs b)[k']? = some s →
    k = k' ∨ f.params s = []
  params : ∀ b, b < f.numBlocks → (f.params b).Nodup
  /-- only the last instruction of a block is a branch -/
  branchLast : ∀ b, b < f.numBlocks → ∀ i ∈ f.blockInsts b, f.isBranch i = true → i = f.lastInst b
  insts : ∀ b, b < f.numBlocks → ∀ i ∈ f.blockInsts b, InstOk f out i

/-- `MovesTracked` for every block, from the states the analysis computes. -/
def NoStaleMoves (f : Func) (out : Output) : Prop :=
  ∀ p bbIn, prepare? f out = some p → analyze? f p = some bbIn →
    ∀ b, b < f.numBlocks → ∀ S, bbIn[b]? = some S → MovesTracked S (p.insts b)

/-- Decision procedure for `MovesTracked`, used on examples. -/
def movesTrackedB : CState → List CInst → Bool
  | _, [] => true
  | S, ci :: cis =>
    (match ci with
      | .move into from_ => (S.get from_).isSome || (S.get into).isNone
      | _ => true) &&
    (match update? S ci with
      | none => true
      | some S' => movesTrackedB S' cis)

/-- Decision procedure for `NoStaleMoves`. -/
def noStaleMovesB (f : Func) (out : Output) : Bool :=
  match prepare? f out with
  | none => true
  | some p =>
    match analyze? f p with
    | none => true
    | some bbIn => (List.range f.numBlocks).all (fun b =>
        match bbIn[b]? with
        | none => true
        | some S => movesTrackedB S (p.insts b))

theorem movesTracked_of_decide (cis : List CInst) : ∀ S, movesTrackedB S cis = true → MovesTracked S cis := by
  induction cis with
  | nil => intro S _; trivial
  | cons ci cis ih =>
    intro S h
    unfold movesTrackedB at h
    rw [Bool.and_eq_true] at h
    refine ⟨?_, ?_⟩
    · intro into from_ e hn
      subst e
      have h1 := h.1
      simp only [hn] at h1
      simpa using h1
    · intro S' hu
      have h2 := h.2
      rw [hu] at h2
      exact ih S' h2

theorem NoStaleMoves.of_decide {f : Func} {out : Output} (h : noStaleMovesB f out = true) : NoStaleMoves f out := by
  intro p bbIn hp ha b hb S hS
  unfold noStaleMovesB at h
  rw [hp] at h
  simp only [ha, List.all_eq_true] at h
  have := h b (by simpa using hb)
  rw [hS] at this
  exact movesTracked_of_decide _ _ this

/-- What each constraint demands of the location `a` of operand `o`, as documented
at `/repo/src/lib.rs:567-585`; `as` are the locations of all operands. -/
def Allowed (env : MachineEnv) (as : List Allocation) (o : Op) (a : Allocation) : Prop :=
  match o.constraint with
  | .Any => True
  | .Reg => ∃ p, a.asReg = some p ∧ p ∉ env.fixedStackSlots
  | .Stack => a.isStack = true ∨ ∃ p, a.asReg = some p ∧ p ∈ env.fixedStackSlots
  | .FixedReg p => a = .reg p
  | .Reuse k => as[k]? = some a ∧ a.asReg ≠ none
  | .Limit n => ∃ p, a.asReg = some p ∧ p.hwEnc < n

/-- A location in memory: a spill slot, or a register standing for a fixed stack slot. -/
def InMemory (env : MachineEnv) (a : Allocation) : Prop :=
  a.isStack = true ∨ ∃ p, a.asReg = some p ∧ p ∈ env.fixedStackSlots

/-- The API preconditions under which the checker must not panic. -/
structure WellFormed (f : Func) (out : Output) : Prop where
  succLt : ∀ b, b < f.numBlocks → ∀ t ∈ f.succs b, t < f.numBlocks
  sorted : out.edits.Pairwise (fun a b => a.1 ≤ b.1)
  allocs : ∀ b, b < f.numBlocks → ∀ i ∈ f.blockInsts b,
    ∃ as, out.instAllocs i = some as ∧ as.length = (f.operands i).length
  args : ∀ b, b < f.numBlocks → ∀ i ∈ f.blockInsts b, f.isBranch i = true →
    ∀ (k s : Nat), (f.succs b)[k]? = some s → (f.args b i k).length = (f.params s).length
  reuse : ∀ b, b < f.numBlocks → ∀ i ∈ f.blockInsts b, ∀ o ∈ f.operands i, ∀ k,
    o.constraint = .Reuse k → k < (f.operands i).length

end Checker
end Regalloc
