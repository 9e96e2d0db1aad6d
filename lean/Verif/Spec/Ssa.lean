import Verif.Model.Function
import Verif.Spec.Graph

/-
Specification vocabulary for C10: the register reads and writes an execution
path performs, in order.
-/
namespace Regalloc

/-- One register event of an execution. -/
inductive RegEvent
  | write (v : VReg)
  | read (inst : Nat) (v : VReg)
  deriving DecidableEq, Repr

/-- Registers read by the operands of an instruction. -/
def opReads (ops : List Op) : List VReg :=
  (ops.filter (fun o => o.kind = .Use ∧ o.asFixedNonallocatable = none)).map Op.vreg

/-- Registers written by the operands of an instruction. -/
def opWrites (ops : List Op) : List VReg :=
  (ops.filter (fun o => o.kind = .Def)).map Op.vreg

/-- An instruction reads its uses, then writes its definitions. -/
def instEvents (f : Func) (i : Nat) : List RegEvent :=
  (opReads (f.operands i)).map (.read i) ++ (opWrites (f.operands i)).map .write

/-- Entering a block writes its parameters; then its instructions execute. -/
def blockEvents (f : Func) (b : Nat) : List RegEvent :=
  (f.params b).map .write ++ (f.blockInsts b).flatMap (instEvents f)

/-- Events of a path, given as the visited blocks, latest first. -/
def pathEvents (f : Func) (l : List Nat) : List RegEvent := l.reverse.flatMap (blockEvents f)

/-- Every read on the path is preceded by a write of the same register number. -/
def ReadsDefined (es : List RegEvent) : Prop :=
  ∀ pre i v post, es = pre ++ .read i v :: post → ∃ w, .write w ∈ pre ∧ w.vreg = v.vreg

/-- All definitions in the program text. -/
def allWrites (f : Func) : List VReg :=
  (List.range f.numBlocks).flatMap (fun b =>
    f.params b ++ (f.blockInsts b).flatMap (fun i => opWrites (f.operands i)))

/-- Exactly the last instruction of each block is a branch or return, and branch
arguments match the target's parameters in number. -/
def TerminatorsOk (f : Func) : Prop :=
  ∀ b, b < f.numBlocks → ∀ i ∈ f.blockInsts b,
    ((f.isBranch i = true ∨ f.isRet i = true) ↔ i + 1 = (f.insns b).2) ∧
    (i + 1 = (f.insns b).2 → f.isBranch i = true →
      ∀ k s, (f.succs b)[k]? = some s → (f.args b i k).length = (f.params s).length)

end Regalloc
