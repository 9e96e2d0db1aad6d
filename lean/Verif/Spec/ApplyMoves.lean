import Verif.Model.ApplyMoves
import Verif.Model.Output
import Verif.Spec.LiveRanges
import Verif.Spec.Liveness
import Verif.Spec.Cfg
import Verif.Spec.InsertedMoves
import Verif.Spec.Exec

/-
Specification vocabulary for C38: which functions are accepted, and when an assignment of
locations to live ranges is valid. Nothing here mentions moves: a valid assignment says where
values are to be found, and the pass has to insert the moves that make it so.
-/
namespace Regalloc.Apply

open Build (reusedReg defPoint recordPoint DefinedAt)

/-- The point lies in the range. -/
def FRange.Has (r : FRange) (p : Nat) : Prop := r.range.fr ≤ p ∧ p < r.range.to

/-- Some instruction defines the register at point `p`. -/
def DefAt (f : Func) (v p : Nat) : Prop := ∃ b, b < f.numBlocks ∧ DefinedAt f b v p

/-- Operand `k` of instruction `i`, which lies in a block, is `o` and names a virtual register. -/
def OpAt (f : Func) (i k : Nat) (o : Op) : Prop :=
  (∃ b, b < f.numBlocks ∧ i ∈ f.blockInsts b) ∧ (f.operands i)[k]? = some o ∧ o.asFixedNonallocatable = none

/-- What the interface requires of the function, besides `Build.Ready`. -/
structure Accepted (x : Env) : Prop where
  ready : Build.Ready x.f
  edges : EdgesMatch x.f
  entry : x.f.entry < x.f.numBlocks
  /-- Program points fit into 32 bits. -/
  small : ∀ b, b < x.f.numBlocks → (x.f.insns b).2 ≤ 2 ^ 30
  insts : ∀ b, b < x.f.numBlocks → (x.f.insns b).2 ≤ x.f.numInsts
  succs_nodup : ∀ b, (x.f.succs b).Nodup
  entry_params : x.f.params x.f.entry = []
  /-- A register is a parameter of one block only. -/
  params_once : ∀ b c v, v ∈ (x.f.params b).map VReg.vreg → v ∈ (x.f.params c).map VReg.vreg → b = c
  /-- No edge leads from a block with several successors to one with several predecessors, and
  a return does not have successors. -/
  critical : ∀ b c, c ∈ x.f.succs b → 1 < Cfg.inEdges x.f c → x.f.succs b = [c] ∧ x.f.isRet (x.f.lastInst b) = false
  /-- A branch to a block with several predecessors has no operands. -/
  join_ops : ∀ b c, c ∈ x.f.succs b → 1 < Cfg.inEdges x.f c → x.f.operands (x.f.lastInst b) = []
  /-- Registers are named consistently and below the number of registers. -/
  index : ∀ v, v < x.numVregs → (x.vreg v).vreg = v
  named : ∀ i, ∀ o ∈ x.f.operands i, o.asFixedNonallocatable = none → o.vreg = x.vreg o.vreg.vreg ∧ o.vreg.vreg < x.numVregs
  named_params : ∀ b, ∀ p ∈ x.f.params b, p = x.vreg p.vreg ∧ p.vreg < x.numVregs
  named_args : ∀ b k, ∀ a ∈ x.f.args b (x.f.lastInst b) k, a = x.vreg a.vreg
  /-- Arguments have the class of the parameter. -/
  args_class : ∀ b k c, (x.f.succs b)[k]? = some c →
    ∀ m ∈ (x.f.params c).zip (x.f.args b (x.f.lastInst b) k), m.1.class? = m.2.class?
  /-- An output that reuses an input is a late definition and names an early use of its class. -/
  reuse : ∀ i k j o, OpAt x.f i k o → o.constraint = .Reuse j → o.kind = .Def ∧ o.pos = .Late ∧
    ∃ o', OpAt x.f i j o' ∧ o'.kind = .Use ∧ o'.pos = .Early ∧ o'.vreg.class? = o.vreg.class?

/-- What the proof requires beyond that. Without it the pass may insert wrong moves. -/
structure FuncOk (x : Env) : Prop extends Accepted x where
  /-- A branch to a block with several predecessors has no clobbers. -/
  join_clobbers : ∀ b c, c ∈ x.f.succs b → 1 < Cfg.inEdges x.f c → x.f.clobbers (x.f.lastInst b) = []
  /-- An instruction has at most one output that reuses an input. -/
  reuse_one : ∀ i k k' j j' o o', OpAt x.f i k o → OpAt x.f i k' o' → o.constraint = .Reuse j → o'.constraint = .Reuse j' →
    k = k'

/-- What is required of one fixup: it names an early use and a use of the same register, and
its register is reserved at the point of the fixup. -/
structure FixupOk (x : Env) (e : ResolveMoves.MoveEnv) (fx : Fixup) : Prop where
  op : ∃ i o o', fx.pos = ptBefore i ∧ OpAt x.f i fx.toSlot o ∧ OpAt x.f i fx.fromSlot o' ∧ o.kind = .Use ∧ o.pos = .Early ∧
    o'.kind = .Use ∧ o.vreg.vreg = fx.vreg ∧ o'.vreg.vreg = fx.vreg
  cls : fx.preg.class? = (x.vreg fx.vreg).class?
  scratch : ∀ c, e.machine.scratch c ≠ some fx.preg
  recorded : ∃ m ∈ e.maps fx.preg, m.1.Covers fx.pos
  free : ∀ v, ∀ r ∈ x.ranges v, r.Has fx.pos → r.alloc ≠ Allocation.reg fx.preg
  /-- The register is not given to an output that overwrites an input, unless that input is the
  value to be copied. -/
  reuse : ∀ i k j o o', fx.pos = ptBefore i → OpAt x.f i k o → o.constraint = .Reuse j → OpAt x.f i j o' →
    (∃ r ∈ x.ranges o.vreg.vreg, r.Has (ptAfter i) ∧ r.alloc = Allocation.reg fx.preg) → o'.vreg.vreg = fx.vreg
  initial : fx.level = .Initial → fx.fromSlot = fx.toSlot
  /-- The source is not itself changed by a fixup of the second level. -/
  secondary : fx.level = .Secondary → ∀ fy ∈ x.fixups, fy.level = .Secondary → fy.pos = fx.pos → fy.toSlot ≠ fx.fromSlot

/-- The ranges of the registers, with their locations, are a valid assignment. -/
structure Valid (x : Env) (e : ResolveMoves.MoveEnv) (num : Nat) : Prop where
  /-- The block of each instruction is known. -/
  blocks : ∀ b, b < x.f.numBlocks → ∀ i, x.insnBlock i = b ↔ (x.f.insns b).1 ≤ i ∧ i < (x.f.insns b).2
  /-- Ranges are sorted by their first point, not empty, and start in a block. -/
  sorted : ∀ v, (x.ranges v).Pairwise (fun r r' => r.range.fr ≤ r'.range.fr)
  only : ∀ v, x.numVregs ≤ v → x.ranges v = []
  nonempty : ∀ v, ∀ r ∈ x.ranges v, r.range.fr < r.range.to
  inside : ∀ v, ∀ r ∈ x.ranges v, ∃ b, b < x.f.numBlocks ∧ Build.InBlock x.f b r.range.fr
  /-- A range is marked if it starts at a definition. Otherwise it starts at the start of a
  block, or before an instruction up to which an earlier range of the register reaches. -/
  marked : ∀ v, ∀ r ∈ x.ranges v, (r.startsAtDef = true ↔ DefAt x.f v r.range.fr)
  begins : ∀ v, ∀ r ∈ x.ranges v, r.startsAtDef = false → (∃ b, b < x.f.numBlocks ∧ r.range.fr = entryPt x.f b) ∨
    (r.range.fr % 2 = 0 ∧ ∃ q ∈ x.ranges v, q.range.fr < r.range.fr ∧ r.range.fr ≤ q.range.to)
  /-- A range that contains the start of a block belongs to a register that is live there, is a
  parameter, or is defined right there. -/
  entered : ∀ v, ∀ r ∈ x.ranges v, ∀ b, b < x.f.numBlocks → Reaches x.f.succs x.f.entry b → r.Has (entryPt x.f b) →
    x.liveIn b v = true ∨ v ∈ (x.f.params b).map VReg.vreg ∨ DefAt x.f v (entryPt x.f b)
  live_param : ∀ b v, b < x.f.numBlocks → v < x.numVregs → x.liveIn b v = true → v ∉ (x.f.params b).map VReg.vreg
  entry_live : ∀ v, v < x.numVregs → x.liveIn x.f.entry v = false
  /-- A range that starts within another range of the register contains no start of a block
  after its own start. -/
  overlap : ∀ v, ∀ q ∈ x.ranges v, ∀ r ∈ x.ranges v, q.range.fr < r.range.fr → r.range.fr < q.range.to →
    ∀ b, b < x.f.numBlocks → r.Has (entryPt x.f b) → r.range.fr = entryPt x.f b
  /-- Each operand is recorded in exactly one range, at its point, and nothing else is. -/
  recorded : ∀ i k o, OpAt x.f i k o → ∃ r ∈ x.ranges o.vreg.vreg, ∃ u ∈ r.uses, u.slot = k ∧ u.pos = recordPoint x.f i o
  records : ∀ v, ∀ r ∈ x.ranges v, ∀ u ∈ r.uses, r.Has u.pos ∧ ∃ i o, OpAt x.f i u.slot o ∧ o.vreg.vreg = v ∧
    u.pos = recordPoint x.f i o ∧ ∀ j, u.op.constraint = .Reuse j ↔ o.constraint = .Reuse j
  once : ∀ v, ∀ r ∈ x.ranges v, ∀ u ∈ r.uses, ∀ r' ∈ x.ranges v, ∀ u' ∈ r'.uses, u.pos / 2 = u'.pos / 2 → u.slot = u'.slot →
    r = r'
  /-- A range that contains the point of a definition has recorded it, and reaches to the end of
  the instruction. -/
  defs : ∀ i k o, OpAt x.f i k o → o.kind = .Def → ∀ r ∈ x.ranges o.vreg.vreg, r.Has (defPoint i o) →
    ptBefore (i + 1) ≤ r.range.to ∧ ∃ u ∈ r.uses, u.slot = k ∧ u.pos = recordPoint x.f i o
  /-- Ranges of different registers that share a point have different locations. -/
  apart : ∀ v v' p, v ≠ v' → ∀ r ∈ x.ranges v, ∀ r' ∈ x.ranges v', r.Has p → r'.Has p → r.alloc ≠ r'.alloc
  /-- Values that are needed after an instruction are not in registers it clobbers. -/
  clobbers : ∀ b, b < x.f.numBlocks → ∀ i ∈ x.f.blockInsts b, ∀ p ∈ x.f.clobbers i, ∀ v, ∀ r ∈ x.ranges v, r.Has (ptAfter i) →
    r.alloc ≠ Allocation.reg p
  /-- Registers that are not allocatable hold no values, and operands naming them are assigned. -/
  nonalloc : ∀ b, b < x.f.numBlocks → ∀ i ∈ x.f.blockInsts b, ∀ (k : Nat) (o : Op) (p : PReg), (x.f.operands i)[k]? = some o →
    o.asFixedNonallocatable = some p → x.allocs i k = Allocation.reg p ∧ ∀ v, ∀ r ∈ x.ranges v, r.alloc ≠ Allocation.reg p
  nonalloc_name : ∀ i, ∀ o ∈ x.f.operands i, o.asFixedNonallocatable ≠ none → ∀ v, v < x.numVregs → o.vreg ≠ x.vreg v
  /-- Locations are registers of the right class, recorded for every point of the range, or
  slots in use. Dedicated scratch registers hold no values. -/
  location : ∀ v, ∀ r ∈ x.ranges v,
    (∃ p, r.alloc = Allocation.reg p ∧ p.class? = (x.vreg v).class? ∧ (∀ c, e.machine.scratch c ≠ some p) ∧
      ∀ pt, r.Has pt → ∃ m ∈ e.maps p, m.1.Covers pt) ∨
    (∃ s, r.alloc.asReg = none ∧ r.alloc.asStack = some s ∧ s.index < num)
  class_known : ∀ v, ∀ r ∈ x.ranges v, (x.vreg v).class? ≠ none
  class_same : ∀ v v', ∀ r ∈ x.ranges v, ∀ r' ∈ x.ranges v', r.alloc = r'.alloc → (x.vreg v).class? = (x.vreg v').class?
  /-- Parameters and arguments are listed and sorted. -/
  ins : ∀ q, q ∈ x.ins ↔ ∃ b, b < x.f.numBlocks ∧ q.toBlock = b ∧ q.fromBlock ∈ x.f.preds b ∧ q.toVreg ∈ (x.f.params b).map VReg.vreg
  ins_sorted : x.ins.Pairwise (fun a b => pairLt (b.toVreg, b.toBlock) (a.toVreg, a.toBlock) = false)
  outs : ∀ q ∈ x.outs, ∃ k : Nat, (x.f.succs q.fromBlock)[k]? = some q.toBlock ∧
    ∃ m ∈ (x.f.params q.toBlock).zip (x.f.args q.fromBlock (x.f.lastInst q.fromBlock) k), m.1.vreg = q.toVreg ∧ m.2.vreg = q.fromVreg
  fixups : ∀ fx ∈ x.fixups, FixupOk x e fx
  fixups_order : x.fixups.Pairwise (fun a b => a.level = .Secondary → b.level = .Secondary)
  fixups_slots : x.fixups.Pairwise (fun a b => a.pos = b.pos → a.toSlot ≠ b.toSlot)
  fixups_regs : ∀ fx ∈ x.fixups, ∀ fy ∈ x.fixups, fx.pos = fy.pos → fx.preg = fy.preg → fx = fy

/-- Arguments are sorted by the register and the block they come from. -/
def OutsSorted (os : List Out) : Prop :=
  os.Pairwise (fun a b => pairLt (b.fromVreg, b.fromBlock) (a.fromVreg, a.fromBlock) = false)

/-- A value that is needed at the start of a block is in some range at the end of each
predecessor: a register that is live there, and the argument of each parameter, which is listed. -/
structure Arrives (x : Env) : Prop where
  live : ∀ b v, b < x.f.numBlocks → v < x.numVregs → x.liveIn b v = true → ∀ p ∈ x.f.preds b, ∃ r ∈ x.ranges v, r.Has (exitPt x.f p)
  passed : ∀ q ∈ x.ins, ∃ o ∈ x.outs, o.fromBlock = q.fromBlock ∧ o.toVreg = q.toVreg ∧
    ∃ r ∈ x.ranges o.fromVreg, r.Has (exitPt x.f q.fromBlock)
  sorted : OutsSorted x.outs

end Regalloc.Apply
