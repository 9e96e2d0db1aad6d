import Verif.Model.Function
import Verif.Model.IndexSet

/-
Model of `compute_liveness`, `/repo/src/ion/liveranges.rs:276-368`. The vectors
`liveins` and `liveouts`, indexed by block, are functions. Statistics, tracing and the
recording of register classes (`observe_vreg_class`) are left out.
-/
namespace Regalloc.Liveness

/-- Operand loop body, `/repo/src/ion/liveranges.rs:317-333`. -/
def opStep (pos : OperandPos) (live : IndexSet) (op : Op) : IndexSet :=
  if op.asFixedNonallocatable.isSome then live
  else if op.pos = pos then
    match op.kind with
    | .Use => live.set op.vreg.vreg true
    | .Def => live.set op.vreg.vreg false
  else live

/-- One instruction, `/repo/src/ion/liveranges.rs:315-335`. -/
def instStep (f : Func) (live : IndexSet) (inst : Nat) : IndexSet :=
  [OperandPos.Late, .Early].foldl (fun live pos => (f.operands inst).foldl (opStep pos) live) live

/-- Outgoing block parameters, `/repo/src/ion/liveranges.rs:305-312`. -/
def branchStep (f : Func) (b : Nat) (live : IndexSet) : IndexSet :=
  if f.isBranch (f.lastInst b) then
    (List.range (f.succs b).length).foldl (fun live i =>
      (f.args b (f.lastInst b) i).foldl (fun live (p : VReg) => live.set p.vreg true) live) live
  else live

/-- Live set at the start of the block from the one at its end,
`/repo/src/ion/liveranges.rs:301-340`. -/
def transfer (f : Func) (b : Nat) (out : IndexSet) : IndexSet :=
  (f.params b).foldl (fun live (p : VReg) => live.set p.vreg false)
    ((f.blockInsts b).reverse.foldl (instStep f) (branchStep f b out))

/-- Loop state: the two vectors, the queue and the set of queued blocks,
`/repo/src/ion/liveranges.rs:278-292`. -/
structure State where
  liveins : Nat → IndexSet
  liveouts : Nat → IndexSet
  queue : List Nat
  queued : List Nat

/-- Assignment to one entry of a vector. -/
def upd {α : Type} (g : Nat → α) (i : Nat) (x : α) : Nat → α := fun j => if j = i then x else g j

/-- Predecessor loop body, `/repo/src/ion/liveranges.rs:342-349`. -/
def predStep (ord : HashOrder) (live : IndexSet) (st : State) (pred : Nat) : State :=
  let (out, changed) := (st.liveouts pred).unionWith ord live
  let st := { st with liveouts := upd st.liveouts pred out }
  if changed then
    if pred ∈ st.queued then st
    else { st with queued := pred :: st.queued, queue := st.queue ++ [pred] }
  else st

/-- Body of the `while let`, `/repo/src/ion/liveranges.rs:294-353`; `block` has just been
popped. -/
def visit (ord : HashOrder) (f : Func) (st : State) (block : Nat) : State :=
  let st := { st with queued := st.queued.filter (· ≠ block) }
  let live := transfer f block (st.liveouts block)
  let st := (f.preds block).foldl (predStep ord live) st
  { st with liveins := upd st.liveins block live }

/-- The `while let` loop; `none` means out of fuel. -/
def loop (ord : HashOrder) (f : Func) : Nat → State → Option State
  | 0, _ => none
  | fuel + 1, st =>
    match st.queue with
    | [] => some st
    | block :: rest => loop ord f fuel (visit ord f { st with queue := rest } block)

/-- State before the loop, `/repo/src/ion/liveranges.rs:278-292`. -/
def start (postorder : List Nat) : State :=
  ⟨fun _ => .new, fun _ => .new, postorder, postorder⟩

/-- Every time a block is queued again, its live-out set has gained one of the `2^30`
register numbers. -/
def fuel (f : Func) (postorder : List Nat) : Nat := 2 ^ 30 * f.numBlocks + postorder.length + 1

/-- `/repo/src/ion/liveranges.rs:276-368` `compute_liveness`. -/
def compute (ord : HashOrder) (f : Func) (postorder : List Nat) : Option (Except RegAllocError State) :=
  match loop ord f (fuel f postorder) (start postorder) with
  | none => none
  | some st => if (st.liveins f.entry).isEmpty then some (.ok st) else some (.error .entryLivein)

/-- `/repo/src/ion/liveranges.rs:272-274` `is_live_in`. -/
def State.isLiveIn (st : State) (block vreg : Nat) : Bool := (st.liveins block).get vreg

end Regalloc.Liveness
