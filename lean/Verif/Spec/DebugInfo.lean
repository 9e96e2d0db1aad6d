import Verif.Spec.Exec
import Verif.Spec.Cfg
import Verif.Model.Cfg
import Verif.Spec.ApplyMoves

/-
Specification vocabulary for debug locations: where a value is at a point of the program, in
terms of executions (`Spec/Exec.lean`).
-/
namespace Regalloc.Debug

open Exec

variable {Val : Type}

/-- What is executed of a block that starts with instruction `lo` up to point `p`, inclusive:
instruction `i` runs between points `2 * i` and `2 * i + 1`, and then the edits placed at the
point. -/
def upTo (out : Output) (lo p : Nat) : List InstOrEdit :=
  (List.range' (2 * lo) (p + 1 - 2 * lo)).flatMap fun q =>
    (if q % 2 = 1 then [.inst (q / 2)] else []) ++ (out.edits.filter (fun pe => decide (pe.1 = q))).map (fun pe => .edit pe.2)

/-- The block reached from `b` by leaving blocks by the successors chosen by `ks`, with what
registers hold there, before allocation. -/
def origReach (f : Func) (sem : Sem Val) : List Nat → Nat → (VReg → Val) → Trace Val → Option (Nat × (VReg → Val) × Trace Val)
  | [], b, V, tr => some (b, V, tr)
  | k :: ks, b, V, tr =>
    let r := origInsts f sem (f.blockInsts b) V tr
    match (f.succs b)[k]? with
    | none => none
    | some s => origReach f sem ks s (assignParams (edgeMoves f b k s) r.1) r.2

/-- The same after allocation. -/
def allocReach (f : Func) (out : Output) (sem : Sem Val) (junk : Nat → Allocation → Val) :
    List Nat → Nat → (Allocation → Val) → Trace Val → Option (Nat × (Allocation → Val) × Trace Val)
  | [], b, A, tr => some (b, A, tr)
  | k :: ks, b, A, tr =>
    let r := allocItems f out sem junk (out.blockInstsAndEdits f b) A tr
    match (f.succs b)[k]? with
    | none => none
    | some s => allocReach f out sem junk ks s r.1 r.2

/-- Whenever execution is at point `p` of block `b`, the value of the virtual register `v` is in
location `a`: on every path, whatever instructions compute and whatever registers hold in the
beginning. -/
def Locates (f : Func) (out : Output) (v : VReg) (a : Allocation) (b p : Nat) : Prop :=
  ∀ (Val : Type) (sem : Sem Val) (junk : Nat → Allocation → Val) (ks : List Nat) (V V' : VReg → Val) (A A' : Allocation → Val)
    (trA trV : Trace Val),
    allocReach f out sem junk ks f.entry A [] = some (b, A', trA) → origReach f sem ks f.entry V [] = some (b, V', trV) →
    (allocItems f out sem junk (upTo out (f.insns b).1 p) A' trA).1 a =
      (origInsts f sem (List.range' (f.insns b).1 ((p + 1) / 2 - (f.insns b).1)) V' trV).1 v

/-- Instruction `j` is the branch at the end of `b`, to a block with several predecessors. -/
def IntoJoin (f : Func) (b j : Nat) : Prop := j = f.lastInst b ∧ ∃ c ∈ f.succs b, 1 < Cfg.inEdges f c

/-- Instruction `j` defines register `v`. -/
def DefinesIn (f : Func) (j v : Nat) : Prop := ∃ k o, Apply.OpAt f j k o ∧ o.kind = .Def ∧ o.vreg.vreg = v

/-- An output of instruction `j` reuses the location of an input other than `v`. -/
def ReusesOther (f : Func) (j v : Nat) : Prop :=
  ∃ k o m o', Apply.OpAt f j k o ∧ o.constraint = .Reuse m ∧ Apply.OpAt f j m o' ∧ o'.vreg.vreg ≠ v

end Regalloc.Debug
