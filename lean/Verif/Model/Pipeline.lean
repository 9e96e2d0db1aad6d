import Verif.Model.Cfg
import Verif.Model.Liveness
import Verif.Model.FixMulti
import Verif.Model.Merge
import Verif.Model.Process
import Verif.Model.SpillSlots
import Verif.Model.ApplyMoves
import Verif.Model.InsertedMoves

/-
The backtracking allocator as a whole: `/repo/src/ion/mod.rs:83-140`, composed of the models of
its passes. Left out: the optional check for SSA form (`:122-124`, see `Model/Ssa.lean`),
annotations, statistics, debug locations, and the reuse of the context's memory.
-/
namespace Regalloc.Pipeline

/-- What an unstable sort may do to the order of its input before a stable one. -/
structure Shuffle where
  f : (α : Type) → List α → List α
  perm : ∀ (α : Type) (l : List α), (f α l).Perm l

/-- What the allocator is given: the function, each virtual register with the class of its
operands, `allow_multiple_vreg_defs`, the machine, `spillslot_size` and
`multi_spillslot_named_by_last_slot`. Then what the model leaves open: the order of hash maps,
the order of equal elements under unstable sorts, the sums of the weights of ranges, and how many
rounds the allocation loop may take. -/
structure Input where
  f : Func
  vreg : Nat → VReg
  multi : Bool
  env : MachineEnv
  size : RegClass → UInt32
  byLast : Bool
  ord : HashOrder
  tie : Shuffle
  total : Ion.St → Nat → Nat
  fuel : Nat

/-- How the allocator fails: by an error, or by a panic. `fuel` is an artefact of the model. -/
inductive Fail
  | error (e : RegAllocError)
  | panic
  | fuel
  deriving DecidableEq, Repr

variable (i : Input)

/-- `VReg::class`; the class of a register of the function is always known. -/
def Input.cls (v : Nat) : RegClass := ((i.vreg v).class?).getD .Int

/-- `spillslot_size` as a number. -/
def Input.sizeN (c : RegClass) : Nat := (i.size c).toNat

/-- The live ranges of all registers, each with its register. -/
def allRanges (n : Nat) (rs : Nat → List Build.LR) : List (Nat × Build.LR) :=
  (List.range n).flatMap (fun v => (rs v).map (fun r => (v, r)))

/-- The list of register `v`, among numbered ranges. -/
def entriesOf (all : List (Nat × Build.LR)) (v : Nat) : List Ion.Entry :=
  all.zipIdx.filterMap (fun x => if x.1.1 = v then some ⟨x.1.2.range, x.2⟩ else none)

/-- A live range in the arena. -/
def arenaOf (all : List (Nat × Build.LR)) (j : Nat) : Ion.LRange :=
  match all[j]? with
  | some (v, r) => ⟨r.range, some v, none, r.startsAtDef, r.uses⟩
  | none => Ion.LRange.fresh ⟨0, 0⟩

/-- The arenas as `build_liveranges` and `fixup_multi_fixed_vregs` leave them. Here ranges get
their numbers register by register; in the code they get them as they are built, block by block.
The numbers serve as names only. -/
def arenas (n : Nat) (rs : Nat → List Build.LR) : Ion.St where
  ranges := arenaOf (allRanges n rs)
  nRanges := (allRanges n rs).length
  bundles := fun _ => Ion.Bundle.fresh
  nBundles := 0
  spillsets := fun _ => ⟨none, none, .Int, none, false, 0, ⟨0, 0⟩⟩
  nSpillsets := 0
  vregs := entriesOf (allRanges n rs)
  queue := []
  spilled := []

/-- `pregs[p].allocations` before the allocation: the reservations, in order (the code keeps them
in an ordered map, `/repo/src/ion/data_structures.rs:158-175`). -/
def reservations (pregs : List (PReg × RKey)) (p : PReg) : PregMap.PMap :=
  isort (fun a b => decide (a.1.fr ≤ b.1.fr)) ((pregs.filter (fun x => decide (x.1 = p))).map (fun x => (x.2, none)))

/-- Lexicographic order of keys, `/repo/src/ion/data_structures.rs:366-375` and `:391-399`. -/
def lexLe : List Nat → List Nat → Bool
  | [], _ => true
  | _, [] => false
  | a :: as, b :: bs => a < b || (a = b && lexLe as bs)

/-- `blockparam_outs`, sorted (`/repo/src/ion/liveranges.rs:763`). -/
def sortedOuts (outs : List (Nat × Nat × Nat × Nat)) : List Apply.Out :=
  isort (fun a b => lexLe [a.fromVreg, a.fromBlock, a.toBlock, a.toVreg] [b.fromVreg, b.fromBlock, b.toBlock, b.toVreg])
    (outs.map (fun x => ⟨x.2.2.2, x.1, x.2.1, x.2.2.1⟩))

/-- `blockparam_ins`, sorted (`/repo/src/ion/liveranges.rs:762`). -/
def sortedIns (ins : List (Nat × Nat × Nat)) : List Apply.In :=
  isort (fun a b => lexLe [a.toVreg, a.toBlock, a.fromBlock] [b.toVreg, b.toBlock, b.fromBlock])
    (ins.map (fun x => ⟨x.2.2, x.2.1, x.1⟩))

/-- `multi_fixed_reg_fixups`: those of `build_liveranges` first, in the order in which they were
pushed. -/
def allFixups (first : List Build.Fixup) (second : List Apply.Fixup) : List Apply.Fixup :=
  first.reverse.map (fun fx => ⟨fx.pos, fx.slot, fx.slot, fx.preg, fx.vreg, .Initial⟩) ++ second

/-- Operands assigned by `build_liveranges`. -/
def assigned (l : List (Nat × Nat × PReg)) (j k : Nat) : Allocation :=
  match l.find? (fun x => decide (x.1 = j ∧ x.2.1 = k)) with
  | some x => Allocation.reg x.2.2
  | none => Allocation.none

/-- What the allocation loop reads. -/
def params (info : Cfg.Info) : Ion.Params where
  env := i.env
  insnBlock := fun j => ((info.insnBlock[j]?).getD none).getD i.f.numBlocks
  depth := fun b => (info.approxLoopDepth[b]?).getD 0
  blockEntry := fun b => (info.blockEntry[b]?).getD 0
  numInsts := i.f.numInsts
  total := i.total

/-- The part of the spill sets that `allocate_spillslots` reads. -/
def setsOf (st : Ion.St) : List Spill.SpillSet :=
  (List.range st.nSpillsets).map (fun t => ⟨(st.spillsets t).required, (st.spillsets t).cls, (st.spillsets t).range⟩)

/-- `/repo/src/ion/moves.rs:58-74` `get_alloc_for_range`, from the slot of each spill set and the
location of each slot. Every range is in a bundle, and a spill set without a slot has no ranges
without a register (proved). -/
def allocOf (st : Ion.St) (slotOf : Nat → Option Nat) (slots : List SpillSlot) (j : Nat) : Allocation :=
  match (st.ranges j).bundle with
  | none => Allocation.none
  | some b =>
    match (st.bundles b).alloc with
    | some p => Allocation.reg p
    | none =>
      match (slotOf (st.bundles b).spillset).bind (fun s => slots[s]?) with
      | some s => Allocation.stack s
      | none => Allocation.none

/-- The ranges of a register at the end, `/repo/src/ion/moves.rs:83-90`. -/
def finalRanges (st : Ion.St) (loc : Nat → Allocation) (v : Nat) : List Apply.FRange :=
  isort (fun a b => decide (a.range.fr ≤ b.range.fr)) (i.tie.f _ ((st.vregs v).map (fun e =>
    ⟨(st.ranges e.index).range, (st.ranges e.index).startsAtDef, (st.ranges e.index).uses, loc e.index⟩)))

/-- `preferred_victim_by_class`, `/repo/src/ion/liveranges.rs:117-125`. -/
def victim (env : MachineEnv) (c : RegClass) : PReg :=
  (env.nonPreferred c).maxPreg.getD ((env.preferred c).maxPreg.getD PReg.invalid)

/-- What `resolve_inserted_moves` reads. -/
def moveEnv (info : Cfg.Info) (maps : PReg → PregMap.PMap) (allocs : Nat → Nat → Allocation) : ResolveMoves.MoveEnv where
  f := i.f
  getAlloc := allocs
  insnBlock := (params i info).insnBlock
  machine := i.env
  maps := maps
  isStackReg := fun p => decide (p ∈ i.env.fixedStackSlots)
  victim := victim i.env
  size := i.size
  byLast := i.byLast

/-- What `apply_allocations_and_insert_moves` reads. -/
def applyEnv (info : Cfg.Info) (ls : Liveness.State) (b : Build.St) (second : List Apply.Fixup) (st : Ion.St)
    (loc : Nat → Allocation) : Apply.Env where
  f := i.f
  numVregs := i.f.numVregs
  vreg := i.vreg
  ranges := finalRanges i st loc
  insnBlock := (params i info).insnBlock
  liveIn := fun c v => ls.isLiveIn c v
  ins := sortedIns b.ins
  outs := sortedOuts b.outs
  fixups := allFixups b.fixups second
  allocs := assigned b.allocs

/-- The first half, `/repo/src/ion/mod.rs:83-95`: `cfginfo.init` and `Env::init` up to
`merge_vreg_bundles`. -/
structure Front where
  info : Cfg.Info
  ls : Liveness.State
  b0 : Build.St
  b1 : Build.St
  second : List Apply.Fixup
  st : Ion.St

/-- `CFGInfo::init`, `compute_liveness`, `build_liveranges`, `fixup_multi_fixed_vregs` and
`merge_vreg_bundles`. -/
def front : Except Fail Front :=
  match Cfg.init i.f with
  | .panic => .error .panic
  | .err e => .error (.error e)
  | .ok info =>
    match Liveness.compute i.ord i.f info.postorder with
    | none => .error .panic
    | some (.error e) => .error (.error e)
    | some (.ok ls) =>
      match Build.build i.ord i.multi i.f ls.liveouts with
      | .error .panic => .error .panic
      | .error .tooManyOperands => .error (.error .tooManyOperands)
      | .ok b0 =>
        match Build.fixupMulti i.env i.f.numVregs b0 with
        | .error _ => .error .panic
        | .ok (b1, second) =>
          match Ion.mergeVregBundles i.env i.f i.cls ((sortedOuts b1.outs).map (fun o => (o.fromVreg, o.toVreg)))
              (arenas i.f.numVregs b1.ranges) with
          | none => .error .panic
          | some st => .ok ⟨info, ls, b0, b1, second, st⟩

/-- `/repo/src/ion/mod.rs:92-106`: the allocation, slots, moves. The moves are sorted by an
unstable sort (`/repo/src/ion/moves.rs:782-783`). -/
def back (fr : Front) : Except Fail Output :=
  match Ion.allocate (params i fr.info) i.fuel ⟨fr.st, reservations fr.b1.pregs⟩ with
  | .error .tooManyLiveRegs => .error (.error .tooManyLiveRegs)
  | .error .fuel => .error .fuel
  | .error _ => .error .panic
  | .ok q =>
    match Spill.allocateSpillslots i.byLast i.sizeN 0 (setsOf q.st) with
    | none => .error .panic
    | some (ss, slots, num) =>
      match Apply.apply (applyEnv i fr.info fr.ls fr.b1 fr.second q.st (allocOf q.st ss.assigned slots)) with
      | none => .error .panic
      | some (ms, allocs) =>
        match ResolveMoves.resolveSorted (moveEnv i fr.info q.maps allocs)
            (isort (fun a b => decide (a.pp.key ≤ b.pp.key)) (i.tie.f _ ms)) ⟨num, fun _ => []⟩ with
        | none => .error .panic
        | some (edits, s) => .ok (Apply.outputOf i.f s.num.toNat edits allocs)

/-- `/repo/src/ion/mod.rs:112-140` `run`. -/
def run : Except Fail Output :=
  match front i with
  | .error e => .error e
  | .ok fr => back i fr

end Regalloc.Pipeline
