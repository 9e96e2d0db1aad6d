import Verif.Model.Output

/-
Model of `/repo/src/checker.rs`.

Hash sets are lists compared as sets; hash maps are association lists with at
most one entry per key, compared as maps. No result below depends on list order.
Simplifications: `Allocation::kind` is taken to be total (every constructed
allocation has one of the three kinds, C05); the `debug_assert!` on instruction
order in `prepare` and tracing are left out.
-/
namespace Regalloc
namespace Checker

/-- `/repo/src/checker.rs:184-191` `CheckerValue`. -/
inductive CVal
  | univ
  | vregs (s : List VReg)
  deriving Repr, DecidableEq

/-- Set equality, `PartialEq` of `CheckerValue`. -/
def CVal.same : CVal → CVal → Bool
  | .univ, .univ => true
  | .vregs s, .vregs t => s.all (· ∈ t) && t.all (· ∈ s)
  | _, _ => false

/-- `/repo/src/checker.rs:218-230` `CheckerValue::meet_with`. -/
def CVal.meet : CVal → CVal → CVal
  | a, .univ => a
  | .univ, b => b
  | .vregs s, .vregs t => .vregs (s.filter (· ∈ t))

/-- `/repo/src/checker.rs:236-246` `CheckerValue::remove_vreg`; `none` is the panic. -/
def CVal.removeVreg? (v : VReg) : CVal → Option CVal
  | .univ => none
  | .vregs s => some (.vregs (s.filter (· ≠ v)))

/-- A hash map from allocations to values. -/
abbrev CMap := List (Allocation × CVal)

namespace CMap

/-- `HashMap::get`. -/
def get (m : CMap) (a : Allocation) : Option CVal :=
  match m with
  | [] => none
  | p :: m => if p.1 = a then some p.2 else get m a

/-- `HashMap::remove`. -/
def del (m : CMap) (a : Allocation) : CMap := m.filter (fun p => p.1 ≠ a)

/-- `HashMap::insert`. -/
def put (m : CMap) (a : Allocation) (v : CVal) : CMap := (a, v) :: m.del a

/-- `PartialEq` of hash maps. -/
def same (m n : CMap) : Bool :=
  m.all (fun p => match n.get p.1 with | some w => p.2.same w | none => false) &&
  n.all (fun p => (m.get p.1).isSome)

/-- `/repo/src/checker.rs:398-407` `merge_map`. -/
def merge (into from_ : CMap) : CMap :=
  into.filterMap (fun p => match from_.get p.1 with | some w => some (p.1, p.2.meet w) | none => none)

/-- `/repo/src/checker.rs:624-628` `CheckerState::remove_vreg`. -/
def removeVreg? (v : VReg) : CMap → Option CMap
  | [] => some []
  | p :: m =>
    match p.2.removeVreg? v, removeVreg? v m with
    | some w, some m' => some ((p.1, w) :: m')
    | _, _ => none

end CMap

/-- `/repo/src/checker.rs:288-291` `CheckerState`. -/
inductive CState
  | top
  | allocs (m : CMap)
  deriving Repr

/-- `PartialEq` of `CheckerState`. -/
def CState.same : CState → CState → Bool
  | .top, .top => true
  | .allocs m, .allocs n => m.same n
  | _, _ => false

/-- `/repo/src/checker.rs:294-299` `get_value`. -/
def CState.get : CState → Allocation → Option CVal
  | .top, _ => none
  | .allocs m, a => m.get a

/-- `/repo/src/checker.rs:323-328` `become_defined`: the map to work on. -/
def CState.defined : CState → CMap
  | .top => []
  | .allocs m => m

/-- `/repo/src/checker.rs:416-431` `CheckerState::meet_with`. -/
def CState.meet : CState → CState → CState
  | s, .top => s
  | .top, t => t
  | .allocs m, .allocs n => .allocs (m.merge n)

/-- `/repo/src/checker.rs:698-723` `CheckerInst`. Parallel moves are `(dest, src)`. -/
inductive CInst
  | move (into from_ : Allocation)
  | pmove (moves : List (VReg × VReg))
  | op (inst : Nat) (operands : List Op) (allocs : List Allocation) (clobbers : List PReg)
  deriving Repr

/-- New label set of one location under a parallel move,
`/repo/src/checker.rs:587-599`. -/
def pmoveVal (moves : List (VReg × VReg)) : CVal → CVal
  | .univ => .univ
  | .vregs s =>
    let insertions := s.flatMap (fun v => (moves.filter (fun mv => mv.2 = v)).map Prod.fst)
    .vregs (s.filter (fun v => v ∉ moves.map Prod.fst) ++ insertions)

/-- Definitions of an instruction, `/repo/src/checker.rs:611-617`. -/
def applyDefs? : List (Op × Allocation) → CMap → Option CMap
  | [], m => some m
  | p :: ps, m =>
    if p.1.kind ≠ .Def then applyDefs? ps m
    else
      match m.removeVreg? p.1.vreg with
      | none => none
      | some m' => applyDefs? ps (m'.put p.2 (.vregs [p.1.vreg]))

/-- `/repo/src/checker.rs:542-622` `update`; `none` is the panic on `Universe`. -/
def update? (s : CState) (ci : CInst) : Option CState :=
  let m := s.defined
  match ci with
  | .move into from_ =>
    match m.get from_ with
    | some v => some (.allocs (m.put into v))
    | none => some (.allocs m)
  | .pmove moves => some (.allocs (m.map (fun p => (p.1, pmoveVal moves p.2))))
  | .op _ ops as cl =>
    match applyDefs? (ops.zip as) m with
    | none => none
    | some m' => some (.allocs (cl.foldl (fun m c => m.del (.reg c)) m'))

/-- Updates in sequence. -/
def updates? : CState → List CInst → Option CState
  | s, [] => some s
  | s, ci :: cis =>
    match update? s ci with
    | none => none
    | some s' => updates? s' cis

/-- `/repo/src/checker.rs:116-172` `CheckerError` (payload reduced). -/
inductive CheckerError
  | missingAllocation (inst : Nat)
  | unknownValue (inst : Nat)
  | incorrectValues (inst : Nat)
  | notReg (inst : Nat)
  | notFixedReg (inst : Nat)
  | notReuse (inst : Nat)
  | notStack (inst : Nat)
  | outsideLimit (inst : Nat)
  | stackToStack (into from_ : Allocation)
  deriving Repr, DecidableEq

/-- Result of a check: passed, error, or indexing panic. -/
inductive Res
  | ok
  | error (e : CheckerError)
  | panic
  deriving Repr, DecidableEq

/-- `/repo/src/checker.rs:631-694` `check_constraint`. -/
def checkConstraint (env : MachineEnv) (i : Nat) (o : Op) (a : Allocation) (as : List Allocation) : Res :=
  match o.constraint with
  | .Any => .ok
  | .Reg =>
    match a.asReg with
    | some p => if p ∈ env.fixedStackSlots then .error (.notReg i) else .ok
    | none => .error (.notReg i)
  | .Stack =>
    if a.kind? ≠ some .Stack then
      match a.asReg with
      | some p => if p ∈ env.fixedStackSlots then .ok else .error (.notStack i)
      | none => .error (.notStack i)
    else .ok
  | .FixedReg p => if a ≠ .reg p then .error (.notFixedReg i) else .ok
  | .Reuse idx =>
    if a.kind? ≠ some .Reg then .error (.notReg i)
    else
      match as[idx]? with
      | none => .panic
      | some b => if a ≠ b then .error (.notReuse i) else .ok
  | .Limit max =>
    match a.asReg with
    | some p => if p.hwEnc ≥ max then .error (.outsideLimit i) else .ok
    | none => .ok

/-- `/repo/src/checker.rs:433-466` `check_val`. -/
def checkVal (env : MachineEnv) (s : CState) (i : Nat) (o : Op) (a : Allocation) (as : List Allocation) : Res :=
  if a = .none then .error (.missingAllocation i)
  else
    if o.kind = .Use ∧ o.asFixedNonallocatable = none then
      match s.get a with
      | none | some .univ => .error (.unknownValue i)
      | some (.vregs vs) => if o.vreg ∈ vs then checkConstraint env i o a as else .error (.incorrectValues i)
    else checkConstraint env i o a as

/-- Operand loop of `check`, `/repo/src/checker.rs:499-520`. -/
def checkOps (env : MachineEnv) (s : CState) (pos : OperandPos) (i : Nat) (as : List Allocation) :
    List (Op × Allocation) → Res
  | [] => .ok
  | p :: ps =>
    if p.1.pos ≠ pos then checkOps env s pos i as ps
    else
      match checkVal env s i p.1 p.2 as with
      | .ok => checkOps env s pos i as ps
      | r => r

/-- Some operand has a `Reuse` constraint. -/
def hasReuse (ops : List Op) : Bool :=
  ops.any (fun o => match o.constraint with | .Reuse _ => true | _ => false)

/-- The `is_stack` closure, `/repo/src/checker.rs:524-530`. -/
def isStackAlloc (env : MachineEnv) (a : Allocation) : Bool :=
  match a.asReg with
  | some p => decide (p ∈ env.fixedStackSlots)
  | none => a.isStack

/-- `/repo/src/checker.rs:471-539` `check`; Before is `Early`, After is `Late`. -/
def check (env : MachineEnv) (s : CState) (pos : OperandPos) (ci : CInst) : Res :=
  match ci with
  | .op i ops as _ =>
    if hasReuse ops ∧ pos = .Late then .ok else checkOps env s pos i as (ops.zip as)
  | .move into from_ =>
    if isStackAlloc env into ∧ isStackAlloc env from_ then .error (.stackToStack into from_) else .ok
  | .pmove _ => .ok

/-- `/repo/src/checker.rs:790-800` and `:830-840`: the checker instruction for an item. -/
def itemInst? (f : Func) (out : Output) : InstOrEdit → Option CInst
  | .inst i =>
    match out.instAllocs i with
    | none => none
    | some as => some (.op i (f.operands i) as (f.clobbers i))
  | .edit e => some (.move e.dst e.src)

/-- `mapM` in `Option`. -/
def mapAll {α β : Type} (g : α → Option β) : List α → Option (List β)
  | [] => some []
  | a :: l =>
    match g a, mapAll g l with
    | some b, some bs => some (b :: bs)
    | _, _ => none

/-- `/repo/src/checker.rs:771-788` `prepare`, the instructions of a block. -/
def blockInsts? (f : Func) (out : Output) (b : Nat) : Option (List CInst) :=
  mapAll (itemInst? f out) (out.blockInstsAndEdits f b)

/-- The assertion of `/repo/src/checker.rs:808-816` for one branch. -/
def argsMatch (f : Func) (b i : Nat) : Bool :=
  (f.succs b).zipIdx.all (fun p => (f.args b i p.2).length == (f.params p.1).length)

/-- The branch instructions of a block in the order they are handled. -/
def branches (f : Func) (out : Output) (b : Nat) : List Nat :=
  ((out.blockInstsAndEdits f b).filterMap (fun x => match x with | .inst i => some i | .edit _ => none)).filter
    (fun i => f.isBranch i)

/-- `/repo/src/checker.rs:804-827`: parallel moves collected for edge `(b, s)`. -/
def edgeInsts (f : Func) (out : Output) (b s : Nat) : List CInst :=
  (branches f out b).flatMap (fun i =>
    ((f.succs b).zipIdx.filter (fun p => p.1 = s ∧ (f.args b i p.2).length > 0)).map
      (fun p => .pmove ((f.params s).zip (f.args b i p.2))))

/-- Prepared checker, `/repo/src/checker.rs:729-737`. -/
structure Prep where
  insts : Nat → List CInst
  edges : Nat → Nat → List CInst

/-- `Checker::prepare`; `none` is a panic. -/
def prepare? (f : Func) (out : Output) : Option Prep :=
  match mapAll (blockInsts? f out) (List.range f.numBlocks) with
  | none => none
  | some bb =>
    if (List.range f.numBlocks).all (fun b => (branches f out b).all (argsMatch f b)) then
      some ⟨fun b => (bb[b]?).getD [], edgeInsts f out⟩
    else none

/-- State of the worklist: input state per block and the queue, next block first. -/
structure Work where
  bbIn : List CState
  queue : List Nat

/-- Successor loop, `/repo/src/checker.rs:873-908`. `none` is a panic. -/
def visitSuccs? (p : Prep) (b : Nat) (s : CState) : List Nat → Work → Option Work
  | [], w => some w
  | t :: ts, w =>
    match updates? s (p.edges b t), w.bbIn[t]? with
    | some s', some cur =>
      let new := s'.meet cur
      if new.same cur then visitSuccs? p b s ts w
      else visitSuccs? p b s ts
        ⟨w.bbIn.set t new, if t ∈ w.queue then w.queue else t :: w.queue⟩
    | _, _ => none

/-- Body of the worklist loop, `/repo/src/checker.rs:864-909`. -/
def visit? (f : Func) (p : Prep) (b : Nat) (w : Work) : Option Work :=
  match w.bbIn[b]? with
  | none => none
  | some s0 =>
    match updates? s0 (p.insts b) with
    | none => none
    | some s => visitSuccs? p b s (f.succs b) w

/-- `/repo/src/checker.rs:843-910` `analyze` with bounded iterations. -/
def analyzeLoop (f : Func) (p : Prep) : Nat → Work → Option (List CState)
  | _, ⟨bbIn, []⟩ => some bbIn
  | 0, ⟨_, _ :: _⟩ => none
  | fuel + 1, ⟨bbIn, b :: q⟩ =>
    match visit? f p b ⟨bbIn, q⟩ with
    | none => none
    | some w => analyzeLoop f p fuel w

/-- Locations and labels the prepared instructions can create; used only to
bound the number of iterations. -/
def CInst.locs : CInst → List Allocation
  | .move into _ => [into]
  | .pmove _ => []
  | .op _ _ as _ => as

def CInst.labels : CInst → List VReg
  | .move _ _ => []
  | .pmove moves => moves.map Prod.fst
  | .op _ ops _ _ => ops.map Op.vreg

def allInsts (f : Func) (p : Prep) : List CInst :=
  (List.range f.numBlocks).flatMap (fun b => p.insts b ++ (f.succs b).flatMap (p.edges b))

def fuel (f : Func) (p : Prep) : Nat :=
  let h := ((allInsts f p).flatMap CInst.locs).length * (((allInsts f p).flatMap CInst.labels).length + 1) + 1
  f.numBlocks * (h + 1) + 1

/-- `analyze` from the initial state of `Checker::new`, `/repo/src/checker.rs:738-768`. -/
def analyze? (f : Func) (p : Prep) : Option (List CState) :=
  analyzeLoop f p (fuel f p) ⟨List.replicate f.numBlocks .top, List.range f.numBlocks⟩

/-- Instruction loop of `find_errors`, `/repo/src/checker.rs:917-928`. -/
def blockErrors? (env : MachineEnv) : CState → List CInst → Option (List CheckerError)
  | _, [] => some []
  | s, ci :: cis =>
    match check env s .Early ci, update? s ci with
    | .panic, _ => none
    | _, none => none
    | r1, some s' =>
      match check env s' .Late ci, blockErrors? env s' cis with
      | .panic, _ => none
      | _, none => none
      | r2, some es =>
        some ((match r1 with | .error e => [e] | _ => []) ++ (match r2 with | .error e => [e] | _ => []) ++ es)

/-- `/repo/src/checker.rs:913-937` `find_errors` (hash order of blocks replaced by
numeric order; it affects only the order of the errors). -/
def findErrors? (f : Func) (env : MachineEnv) (p : Prep) (bbIn : List CState) : Option (List CheckerError) :=
  match mapAll (fun b => match bbIn[b]? with | none => none | some s => blockErrors? env s (p.insts b))
      (List.range f.numBlocks) with
  | none => none
  | some ess => some ess.flatten

/-- `Checker::new`, `prepare` and `run`: `some []` is acceptance, `none` a panic. -/
def run? (f : Func) (env : MachineEnv) (out : Output) : Option (List CheckerError) :=
  match prepare? f out with
  | none => none
  | some p =>
    match analyze? f p with
    | none => none
    | some bbIn => findErrors? f env p bbIn

end Checker
end Regalloc
