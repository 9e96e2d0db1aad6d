import Verif.Model.Output
import Verif.Spec.Ssa

/-
Specification: what it means to execute a function before and after register
allocation. Values and instruction behaviour are arbitrary. The same instruction
semantics is used for both programs; only the locations of its operands differ:
virtual registers before, allocations after.

An instruction reads its early uses, writes its early definitions, reads its late
uses, writes its late definitions (`/repo/src/lib.rs:607-627`), and finally leaves
arbitrary values in its clobbered registers. Operands naming a non-allocatable
register are not virtual-register reads and are left out of the reads.
-/
namespace Regalloc
namespace Exec

/-- What an execution shows: the instructions executed and the values they read. -/
abbrev Trace (Val : Type) := List (Nat × List Val × List Val)

/-- Behaviour of instructions at some moment: the value written to operand `k` as a function of
the values read. -/
structure InstSem (Val : Type) where
  early : Nat → List Val → Nat → Val
  late : Nat → List Val → List Val → Nat → Val

/-- Behaviour of instructions. What they compute may depend on everything that was executed
before, for instance by way of memory. -/
abbrev Sem (Val : Type) := Trace Val → InstSem Val

variable {Val L : Type}

def upd [DecidableEq L] (σ : L → Val) (l : L) (x : Val) : L → Val := fun m => if m = l then x else σ m

/-- Values read by the uses at position `pos`. -/
def reads (pos : OperandPos) (ol : List (Op × L)) (σ : L → Val) : List Val :=
  (ol.filter (fun p => p.1.kind = .Use ∧ p.1.pos = pos ∧ p.1.asFixedNonallocatable = none)).map (fun p => σ p.2)

/-- Write the definitions at position `pos`; operand `k`, counted from `k0`, gets `g k`. -/
def writesFrom [DecidableEq L] (pos : OperandPos) (g : Nat → Val) : Nat → List (Op × L) → (L → Val) → (L → Val)
  | _, [], σ => σ
  | k, p :: ps, σ =>
    writesFrom pos g (k + 1) ps (if p.1.kind = .Def ∧ p.1.pos = pos then upd σ p.2 (g k) else σ)

/-- One instruction on operands located at `ol`. -/
def stepInst [DecidableEq L] (sem : InstSem Val) (i : Nat) (ol : List (Op × L)) (σ : L → Val) :
    (Nat × List Val × List Val) × (L → Val) :=
  let e := reads .Early ol σ
  let σ1 := writesFrom .Early (sem.early i e) 0 ol σ
  let l := reads .Late ol σ1
  ((i, e, l), writesFrom .Late (sem.late i e l) 0 ol σ1)

/-! ### Before allocation -/

def origInsts (f : Func) (sem : Sem Val) : List Nat → (VReg → Val) → Trace Val → (VReg → Val) × Trace Val
  | [], V, tr => (V, tr)
  | i :: is, V, tr =>
    let r := stepInst (sem tr) i ((f.operands i).map (fun o => (o, o.vreg))) V
    origInsts f sem is r.2 (tr ++ [r.1])

/-- Simultaneous assignment of branch arguments to block parameters. -/
def assignParams : List (VReg × VReg) → (VReg → Val) → (VReg → Val)
  | [], V => V
  | m :: ms, V => fun v => if v = m.1 then V m.2 else assignParams ms V v

/-- Assignments made when leaving block `b` by its `k`-th successor `s`. -/
def edgeMoves (f : Func) (b k s : Nat) : List (VReg × VReg) :=
  if f.isBranch (f.lastInst b) then (f.params s).zip (f.args b (f.lastInst b) k) else []

/-- Execute from block `b`, leaving by the successors chosen by `ks`. -/
def origRun (f : Func) (sem : Sem Val) : List Nat → Nat → (VReg → Val) → Trace Val → Trace Val
  | [], b, V, tr => (origInsts f sem (f.blockInsts b) V tr).2
  | k :: ks, b, V, tr =>
    let r := origInsts f sem (f.blockInsts b) V tr
    match (f.succs b)[k]? with
    | none => r.2
    | some s => origRun f sem ks s (assignParams (edgeMoves f b k s) r.1) r.2

/-! ### After allocation -/

/-- Execute the items of a block. `junk` supplies the values clobbers leave
behind, at each moment anew. -/
def allocItems (f : Func) (out : Output) (sem : Sem Val) (junk : Nat → Allocation → Val) :
    List InstOrEdit → (Allocation → Val) → Trace Val → (Allocation → Val) × Trace Val
  | [], A, tr => (A, tr)
  | .edit e :: is, A, tr => allocItems f out sem junk is (upd A e.dst (A e.src)) tr
  | .inst i :: is, A, tr =>
    let r := stepInst (sem tr) i ((f.operands i).zip ((out.instAllocs i).getD [])) A
    let A' := fun a => if a ∈ (f.clobbers i).map Allocation.reg then junk tr.length a else r.2 a
    allocItems f out sem junk is A' (tr ++ [r.1])

def allocRun (f : Func) (out : Output) (sem : Sem Val) (junk : Nat → Allocation → Val) :
    List Nat → Nat → (Allocation → Val) → Trace Val → Trace Val
  | [], b, A, tr => (allocItems f out sem junk (out.blockInstsAndEdits f b) A tr).2
  | k :: ks, b, A, tr =>
    let r := allocItems f out sem junk (out.blockInstsAndEdits f b) A tr
    match (f.succs b)[k]? with
    | none => r.2
    | some s => allocRun f out sem junk ks s r.1 r.2

/-- Executing the output shows the instructions what executing the function
shows them, whatever the instructions compute, on the path `ks`. -/
def SameOn (f : Func) (out : Output) (ks : List Nat) : Prop :=
  ∀ (Val : Type) (sem : Sem Val) (junk : Nat → Allocation → Val) (V : VReg → Val) (A : Allocation → Val),
    allocRun f out sem junk ks f.entry A [] = origRun f sem ks f.entry V []

/-! ### Reading only defined registers -/

/-- Instructions `is` read only registers in `D` or defined by earlier ones. -/
def InstsDefined (f : Func) : List Nat → (VReg → Prop) → Prop
  | [], _ => True
  | i :: is, D => (∀ v ∈ opReads (f.operands i), D v) ∧
      InstsDefined f is (fun v => D v ∨ v ∈ opWrites (f.operands i))

/-- Registers defined after executing block `b`. -/
def blockDefined (f : Func) (b : Nat) (D : VReg → Prop) : VReg → Prop :=
  fun v => D v ∨ ∃ i ∈ f.blockInsts b, v ∈ opWrites (f.operands i)

/-- On the path `ks` from `b`, operands and branch arguments read only registers
in `D` or defined earlier on the path. -/
def NoUndefinedReads (f : Func) : List Nat → Nat → (VReg → Prop) → Prop
  | [], b, D => InstsDefined f (f.blockInsts b) D
  | k :: ks, b, D => InstsDefined f (f.blockInsts b) D ∧
      match (f.succs b)[k]? with
      | none => True
      | some s => (∀ m ∈ edgeMoves f b k s, blockDefined f b D m.2) ∧
          NoUndefinedReads f ks s (fun v => blockDefined f b D v ∨ v ∈ (edgeMoves f b k s).map Prod.fst)

end Exec
end Regalloc
