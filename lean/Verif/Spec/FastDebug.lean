import Verif.Spec.DebugInfo
import Verif.Spec.Liveness

/-
Specification vocabulary for C49, the debug locations of the single-pass allocator: where a value
is before an instruction, and whether it is still to be read there.
-/
namespace Regalloc.FastDebug

open Exec Liveness

/-- Executions that start with instruction `j` of block `b`. -/
def ExecFrom (f : Func) (b j : Nat) (t : List Access) : Prop :=
  let rest := (List.range' j ((f.insns b).2 - j)).flatMap (fun i => instTrace (f.operands i))
  t = rest ∨ ∃ i c t', (f.succs b)[i]? = some c ∧ Liveness.Exec f c t' ∧
    t = rest ++ ((f.args b (f.lastInst b) i).map (fun p => Access.read p.vreg) ++ t')

/-- What register `v` holds before instruction `j` of block `b` may still be read. -/
def ReadLater (f : Func) (b j v : Nat) : Prop := ∃ t, ExecFrom f b j t ∧ ReadsFirst v t

/-- What register `v` holds at the start of some block may still be read: it is a parameter of
that block, or was written before. -/
def LiveAtStart (f : Func) (v : Nat) : Prop := ∃ c, c < f.numBlocks ∧ ReadLater f c (f.insns c).1 v

/-- Every instruction that reads register `v` reads it in a register, of its choice or of ours. -/
def ReadInRegs (f : Func) (v : Nat) : Prop :=
  ∀ b, b < f.numBlocks → ∀ i ∈ f.blockInsts b, ∀ o ∈ f.operands i, o.kind = .Use → o.vreg.vreg = v →
    o.constraint = .Reg ∨ ∃ p, o.constraint = .FixedReg p

/-- Whenever execution is in block `b` and instruction `j - 1` with the edits that follow it is
done (if `j` is the first instruction: when the block is entered), the value of `v` is in location
`a`: on every path, whatever instructions compute and whatever registers hold in the beginning. -/
def HoldsBefore (f : Func) (out : Output) (v : VReg) (a : Allocation) (b j : Nat) : Prop :=
  ∀ (Val : Type) (sem : Sem Val) (junk : Nat → Allocation → Val) (ks : List Nat) (V V' : VReg → Val) (A A' : Allocation → Val)
    (trA trV : Trace Val),
    Debug.allocReach f out sem junk ks f.entry A [] = some (b, A', trA) →
    Debug.origReach f sem ks f.entry V [] = some (b, V', trV) →
    (allocItems f out sem junk (if j ≤ (f.insns b).1 then [] else Debug.upTo out (f.insns b).1 (2 * j - 1)) A' trA).1 a =
      (origInsts f sem (List.range' (f.insns b).1 (j - (f.insns b).1)) V' trV).1 v

/-- Point `p` is where register `v` gets its value: the start of the block it is a parameter of,
or right after the instruction that defines it. -/
def ValueStarts (f : Func) (v p : Nat) : Prop :=
  ∃ b, b < f.numBlocks ∧
    ((∃ q ∈ f.params b, q.vreg = v ∧ p = 2 * (f.insns b).1) ∨
      ∃ i ∈ f.blockInsts b, (∃ r ∈ opWrites (f.operands i), r.vreg = v) ∧ p = 2 * i + 1)

/-- Point `p` is right behind an access to register `v`: after an instruction that reads it early,
before the instruction after one that reads or writes it, or before a branch that passes it on. -/
def AccessEnds (f : Func) (v p : Nat) : Prop :=
  ∃ b, b < f.numBlocks ∧ ∃ i ∈ f.blockInsts b,
    (v ∈ regsAt (f.operands i) .Use .Early ∧ p = 2 * i + 1) ∨
    ((v ∈ regsAt (f.operands i) .Use .Late ∨ ∃ r ∈ opWrites (f.operands i), r.vreg = v) ∧ p = 2 * (i + 1)) ∨
    (∃ k s, (f.succs b)[k]? = some s ∧ (∃ r ∈ f.args b (f.lastInst b) k, r.vreg = v) ∧ i = f.lastInst b ∧ p = 2 * i)

end Regalloc.FastDebug
