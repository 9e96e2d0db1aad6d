import Verif.Model.Function
import Verif.Spec.Graph

/-
Specification vocabulary for C24: what executions read and write, and which registers
may be read before they are written.
-/
namespace Regalloc.Liveness

/-- One access to a register, by number. -/
inductive Access
  | read (v : Nat)
  | write (v : Nat)
  deriving DecidableEq, Repr

/-- Registers used (or defined) by an instruction at one position; operands naming
reserved physical registers do not count. -/
def regsAt (ops : List Op) (k : OperandKind) (p : OperandPos) : List Nat :=
  (ops.filter (fun o => o.kind = k ∧ o.pos = p ∧ o.asFixedNonallocatable = none)).map (·.vreg.vreg)

/-- An instruction reads its early uses, writes its early definitions, reads its late uses,
writes its late definitions. -/
def instTrace (ops : List Op) : List Access :=
  (regsAt ops .Use .Early).map .read ++ (regsAt ops .Def .Early).map .write ++
  (regsAt ops .Use .Late).map .read ++ (regsAt ops .Def .Late).map .write

/-- A block writes its parameters and runs its instructions. -/
def blockTrace (f : Func) (b : Nat) : List Access :=
  (f.params b).map (fun p => .write p.vreg) ++ (f.blockInsts b).flatMap (fun i => instTrace (f.operands i))

/-- Executions from the start of a block up to the end of some later block. Leaving
through the `i`-th successor reads the arguments passed to it. -/
inductive Exec (f : Func) : Nat → List Access → Prop
  | stop (b : Nat) : Exec f b (blockTrace f b)
  | step {b c i : Nat} {t : List Access} : (f.succs b)[i]? = some c → Exec f c t →
      Exec f b (blockTrace f b ++ (f.args b (f.lastInst b) i).map (fun p => .read p.vreg) ++ t)

/-- The execution reads the register before writing it. -/
def ReadsFirst (v : Nat) (t : List Access) : Prop :=
  ∃ pre post, t = pre ++ .read v :: post ∧ .write v ∉ pre

/-- Some execution from the start of the block reads the register before writing it. -/
def MayRead (f : Func) (b v : Nat) : Prop := ∃ t, Exec f b t ∧ ReadsFirst v t

/-- Some execution does so once the block has been left (its own branch arguments are
read before that). -/
def MayReadAfter (f : Func) (b v : Nat) : Prop := ∃ c ∈ f.succs b, MayRead f c v

/-- No instruction uses and defines one register at the same position (in SSA form no
instruction uses a register it defines). -/
def NoTies (f : Func) : Prop :=
  ∀ i p v, v ∈ regsAt (f.operands i) .Use p → v ∉ regsAt (f.operands i) .Def p

/-- Blocks with successors end in a branch. -/
def BranchesOk (f : Func) : Prop := ∀ b, f.succs b ≠ [] → f.isBranch (f.lastInst b) = true

end Regalloc.Liveness
