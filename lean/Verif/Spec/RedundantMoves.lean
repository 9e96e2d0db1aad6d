import Verif.Model.RedundantMoves
import Verif.Spec.Moves

/-
Specification for C19: machine states and executions with and without elision.
-/
namespace Regalloc
namespace RedundantMoves

open Moves (Store)

variable {V : Type}

/-- Copy `src` to `dst`. -/
def copy (σ : Store V) (src dst : Allocation) : Store V := fun l => if l = dst then σ src else σ l

/-- What can happen to the machine between two moves, as the tracker is told: `a` may
change to any value (also one computed from the state), or everything may. -/
inductive Event (V : Type)
  | move (src dst : Allocation) (v : Option VReg)
  | clobber (a : Allocation) (g : Store V → V)
  | reset (g : Store V → Store V)

/-- Execute every move. -/
def runAll : Store V → List (Event V) → Store V
  | σ, [] => σ
  | σ, .move src dst _ :: es => runAll (copy σ src dst) es
  | σ, .clobber a g :: es => runAll (fun l => if l = a then g σ else σ l) es
  | σ, .reset g :: es => runAll (g σ) es

/-- Execute only the moves the eliminator does not elide. -/
def runElided : RedundantMoves → Store V → List (Event V) → Store V
  | _, σ, [] => σ
  | s, σ, .move src dst v :: es =>
    let r := s.processMove src dst v
    runElided r.2 (if r.1 then σ else copy σ src dst) es
  | s, σ, .clobber a g :: es => runElided (s.clearAlloc a) (fun l => if l = a then g σ else σ l) es
  | _, σ, .reset g :: es => runElided empty (g σ) es

/-- Execute the moves of `ms` placed at point `q`, in order. -/
def movesAt (ms : List PMove) (q : Nat) (σ : Store V) : Store V :=
  (ms.filter (fun m => m.pos = q)).foldl (fun σ m => copy σ m.src m.dst) σ

/-- Execute `n` program points from `q` on: at each point the moves placed there, and
after the moves before an instruction, that instruction. -/
def runPoints (eff : Nat → Store V → Store V) (ms : List PMove) : Nat → Nat → Store V → Store V
  | _, 0, σ => σ
  | q, n + 1, σ =>
    let σ := movesAt ms q σ
    runPoints eff ms (q + 1) n (if q % 2 = 0 then eff (q / 2) σ else σ)

/-- Instruction effects respect the allocator's knowledge: only locations of definitions,
clobbers and dedicated scratch registers change. -/
def EffOk (e : RMEnv) (eff : Nat → Store V → Store V) : Prop :=
  ∀ i σ l, (∀ (k : Nat) (o : Op), (e.f.operands i)[k]? = some o → o.kind = .Def → l ≠ e.getAlloc i k) →
    (∀ p ∈ e.f.clobbers i, l ≠ Allocation.reg p) → (∀ p ∈ e.scratch, l ≠ Allocation.reg p) → eff i σ l = σ l

end RedundantMoves
end Regalloc
