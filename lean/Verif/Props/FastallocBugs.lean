import Verif.Model.Fastalloc
import Verif.Model.Ssa
import Verif.Spec.Exec

/-
C28, limits of validity: three valid SSA functions the single-pass allocator
accepts and compiles to code that hands an instruction a wrong value. They show
which hypotheses the positive theorem (`Props/Fastalloc.lean`) needs.
-/
namespace Regalloc
namespace Fast
open Exec

/-- A wrong value is observable with the given instruction behaviour. -/
def wrongOn (cx : Cx) (ks : List Nat) : Bool :=
  let sem : Sem Nat := fun _ => ⟨fun i l k => 1000 + 100 * i + l.sum + k, fun i e l k => 10000 + 100 * i + e.sum * 3 + l.sum + k⟩
  match run cx with
  | .ok out => decide (allocRun cx.f out sem (fun _ _ => 77) ks cx.f.entry (fun _ => 8) [] ≠
      origRun cx.f sem ks cx.f.entry (fun _ => 7) [])
  | .error _ => false

theorem not_same_of_wrong {cx : Cx} {ks : List Nat} (h : wrongOn cx ks = true) :
    ∃ out, run cx = .ok out ∧ ¬ SameOn cx.f out ks := by
  unfold wrongOn at h
  dsimp only at h
  split at h
  · next out e => exact ⟨out, e, fun hs => of_decide_eq_true h (hs _ _ _ _ _)⟩
  · cases h

/-- The function passes the control-flow analysis and the SSA validation. -/
def Accepted (f : Func) : Prop := ∃ info, Cfg.init f = .ok info ∧ Ssa.validate f info = .ok ()

def acceptedB (f : Func) : Bool :=
  match Cfg.init f with
  | .ok info => decide (Ssa.validate f info = .ok ())
  | _ => false

theorem accepted_of {f : Func} (h : acceptedB f = true) : Accepted f := by
  unfold acceptedB at h
  split at h
  · next info e => exact ⟨info, e, of_decide_eq_true h⟩
  · cases h

namespace Bug

def p (n : Nat) : PReg := PReg.new n .Int
def v (n : Nat) : VReg := VReg.new n .Int

/-- Three integer registers, no dedicated scratch register. -/
def env : MachineEnv :=
  ⟨fun c => match c with
    | .Int => PRegSet.ofList [p 0, p 1, p 2]
    | .Float => PRegSet.ofList [PReg.new 0 .Float]
    | .Vector => PRegSet.ofList [PReg.new 0 .Vector],
   fun _ => PRegSet.empty, fun _ => none, []⟩

/-- One block holding the given instructions. -/
def single (n : Nat) (ops : Nat → List Op) : Cx :=
  ⟨⟨n, 1, 0, fun _ => (0, n), fun _ => [], fun _ => [], fun _ => [], fun i => i == n - 1, fun _ => false,
    fun _ _ _ => [], ops, fun _ => [], 5⟩, env, fun _ => 1, false⟩

/-- `v2 := op v1` with the result reusing the input, which is fixed to a register
and needed again, in that same register, afterwards. -/
def reuseFixed : Cx := single 3 fun
  | 0 => [⟨v 1, .Reg, .Def, .Late⟩]
  | 1 => [⟨v 2, .Reuse 1, .Def, .Late⟩, ⟨v 1, .FixedReg (p 0), .Use, .Early⟩]
  | 2 => [⟨v 1, .FixedReg (p 0), .Use, .Early⟩, ⟨v 2, .Reg, .Use, .Early⟩]
  | _ => []

/-- A definition constrained to the stack of a register later used in a register
and on the stack. -/
def stackDef : Cx := single 2 fun
  | 0 => [⟨v 1, .Stack, .Def, .Late⟩]
  | 1 => [⟨v 1, .Reg, .Use, .Early⟩]
  | _ => []

/-- Blocks 0 → 2 → 1: block 2 defines what block 1 uses. Block order is free
(`/repo/doc/GENERAL.md:62-66`). -/
def layout : Cx :=
  ⟨⟨4, 3, 0, fun b => if b = 0 then (0, 1) else if b = 1 then (1, 2) else (2, 4),
    fun b => if b = 0 then [2] else if b = 2 then [1] else [],
    fun b => if b = 2 then [0] else if b = 1 then [2] else [],
    fun _ => [], fun i => i == 1, fun i => i == 0 || i == 3, fun _ _ _ => [],
    fun i => if i = 1 then [⟨v 1, .Reg, .Use, .Early⟩] else if i = 2 then [⟨v 1, .Reg, .Def, .Late⟩] else [],
    fun _ => [], 3⟩, env, fun _ => 1, false⟩

end Bug

/-- C28 fails: a block laid out after a block that uses its definition. The value is
never stored where the use expects it. -/
theorem C28_layout_violation : Accepted Bug.layout.f ∧
    ∃ out, run Bug.layout = .ok out ∧ ¬ SameOn Bug.layout.f out [0, 0] :=
  ⟨accepted_of (by decide +kernel), not_same_of_wrong (by decide +kernel)⟩

/-- C28 fails: a definition reusing an input that is fixed to a register and lives
on in it. The input's value is overwritten by the result. -/
theorem C28_reuse_fixed_violation :
    Accepted Bug.reuseFixed.f ∧
    ∃ out, run Bug.reuseFixed = .ok out ∧ ¬ SameOn Bug.reuseFixed.f out [] :=
  ⟨accepted_of (by decide +kernel), not_same_of_wrong (by decide +kernel)⟩

/-- C28 fails: a definition on the stack whose register is needed in a register
afterwards. The store of the register to the slot comes before the load. -/
theorem C28_stack_def_violation :
    Accepted Bug.stackDef.f ∧
    ∃ out, run Bug.stackDef = .ok out ∧ ¬ SameOn Bug.stackDef.f out [] :=
  ⟨accepted_of (by decide +kernel), not_same_of_wrong (by decide +kernel)⟩

end Fast
end Regalloc
