import Verif.Model.PRegSet

/-
Model of `/repo/src/ion/requirement.rs`. A bundle is seen as the list of its live
ranges, a range as the list of its uses, in order.
-/
namespace Regalloc

/-- `/repo/src/ion/requirement.rs:60-67` `Requirement`. -/
inductive Requirement
  | Any
  | Register
  | FixedReg (p : PReg)
  | Limit (n : Nat)
  | Stack
  | FixedStack (p : PReg)
  deriving DecidableEq, Repr

/-- `/repo/src/ion/requirement.rs:20-38` `RequirementConflictAt`; program points
are numbers. -/
inductive RequirementConflictAt
  | StackToReg (p : Nat)
  | RegToStack (p : Nat)
  | Other (p : Nat)
  deriving DecidableEq, Repr

/-- `/repo/src/ion/requirement.rs:42-47` `should_trim_edges_around_split`. -/
def RequirementConflictAt.shouldTrim : RequirementConflictAt → Bool
  | .RegToStack _ => false
  | .StackToReg _ => false
  | .Other _ => true

/-- `/repo/src/ion/requirement.rs:50-56` `suggested_split_point`. -/
def RequirementConflictAt.splitPoint : RequirementConflictAt → Nat
  | .RegToStack p => p
  | .StackToReg p => p
  | .Other p => p

namespace Requirement

/-- `/repo/src/ion/requirement.rs:70-93` `merge`; `none` is `Err`. The arms are
tried in the order of the code. -/
def merge : Requirement → Requirement → Option Requirement
  | o, .Any => some o
  | .Any, o => some o
  | .Register, .Register => some .Register
  | .Stack, .Stack => some .Stack
  | .Limit a, .Limit b => some (.Limit (min a b))
  | .FixedReg a, .FixedReg b => if a = b then some (.FixedReg a) else none
  | .FixedStack a, .FixedStack b => if a = b then some (.FixedStack a) else none
  | .Limit a, .Register => some (.Limit a)
  | .Register, .Limit a => some (.Limit a)
  | .Limit a, .FixedReg b => if a > b.hwEnc then some (.FixedReg b) else none
  | .FixedReg b, .Limit a => if a > b.hwEnc then some (.FixedReg b) else none
  | .Register, .FixedReg p => some (.FixedReg p)
  | .FixedReg p, .Register => some (.FixedReg p)
  | .Stack, .FixedStack p => some (.FixedStack p)
  | .FixedStack p, .Stack => some (.FixedStack p)
  | _, _ => none

/-- `/repo/src/ion/requirement.rs:96-102` `is_stack`. -/
def isStack : Requirement → Bool
  | .Stack => true
  | .FixedStack _ => true
  | _ => false

/-- `/repo/src/ion/requirement.rs:105-111` `is_reg`. -/
def isReg : Requirement → Bool
  | .Register => true
  | .FixedReg _ => true
  | .Limit _ => true
  | _ => false

/-- `/repo/src/ion/requirement.rs:116-130` `requirement_from_operand`; `is_stack`
is set from `fixed_stack_slots` (`/repo/src/ion/liveranges.rs:104-120`). -/
def ofConstraint (env : MachineEnv) : OperandConstraint → Requirement
  | .FixedReg p => if p ∈ env.fixedStackSlots then .FixedStack p else .FixedReg p
  | .Reg => .Register
  | .Reuse _ => .Register
  | .Limit n => .Limit n
  | .Stack => .Stack
  | .Any => .Any

/-- A use as `compute_requirement` sees it: position and constraint. -/
structure ReqUse where
  pos : Nat
  constraint : OperandConstraint
  deriving Repr

/-- Loop over the uses of one range, `/repo/src/ion/requirement.rs:142-163`; the
state is the requirement so far and the last position. -/
def computeRange (env : MachineEnv) : List ReqUse → Requirement × Nat → Except RequirementConflictAt (Requirement × Nat)
  | [], st => .ok st
  | u :: us, (req, last) =>
    let r := ofConstraint env u.constraint
    match req.merge r with
    | some m => computeRange env us (m, u.pos)
    | none =>
      if req.isStack && r.isReg then .error (.StackToReg u.pos)
      else if req.isReg && r.isStack then .error (.RegToStack last)
      else .error (.Other u.pos)

/-- Loop over the ranges, `/repo/src/ion/requirement.rs:140-164`. -/
def computeRanges (env : MachineEnv) : List (List ReqUse) → Requirement × Nat → Except RequirementConflictAt (Requirement × Nat)
  | [], st => .ok st
  | us :: rest, st =>
    match computeRange env us st with
    | .error e => .error e
    | .ok st => computeRanges env rest st

/-- `/repo/src/ion/requirement.rs:132-167` `compute_requirement`. -/
def compute (env : MachineEnv) (ranges : List (List ReqUse)) : Except RequirementConflictAt Requirement :=
  match computeRanges env ranges (.Any, 0) with
  | .error e => .error e
  | .ok (r, _) => .ok r

/-- `/repo/src/ion/requirement.rs:169-181` `merge_bundle_requirements`. -/
def mergeBundles (env : MachineEnv) (a b : List (List ReqUse)) : Option Requirement :=
  match compute env a, compute env b with
  | .ok ra, .ok rb => ra.merge rb
  | _, _ => none

end Requirement
end Regalloc
