import Verif.Model.Function
import Verif.Model.Domtree

/-
Model of `/repo/src/cfg.rs` and of the placement of edge moves
(`choose_move_location`, `/repo/src/ion/moves.rs:173-219`).
-/
namespace Regalloc

/-- Result of a Rust function that may fail with an error or panic. -/
inductive Outcome (α : Type)
  | ok (a : α)
  | err (e : RegAllocError)
  | panic
  deriving Repr, DecidableEq

namespace Outcome

def bind {α β : Type} : Outcome α → (α → Outcome β) → Outcome β
  | ok a, f => f a
  | err e, _ => err e
  | panic, _ => panic

instance : Monad Outcome where
  pure := ok
  bind := bind

/-- `None` is a panic. -/
def ofOption {α : Type} : Option α → Outcome α
  | some a => ok a
  | none => panic

end Outcome

namespace Cfg

/-- `/repo/src/cfg.rs:27-40` `CFGInfo`. Block entry/exit are point indices. -/
structure Info where
  postorder : List Nat
  domtree : List (Option Nat)
  insnBlock : List (Option Nat)
  blockEntry : List Nat
  blockExit : List Nat
  approxLoopDepth : List Nat
  deriving Repr

/-- In-edges of a block, counting the function entry,
`/repo/src/cfg.rs:93` and `:111`. -/
def inEdges (f : Func) (b : Nat) : Nat := (f.preds b).length + (if b = f.entry then 1 else 0)

/-- `/repo/src/cfg.rs:83-85`: record the block of each instruction; an
instruction number out of range is an indexing panic. -/
def markInsns (b : Nat) : List Nat → List (Option Nat) → Option (List (Option Nat))
  | [], m => some m
  | i :: is, m => if i < m.length then markInsns b is (m.set i (some b)) else none

/-- `/repo/src/cfg.rs:93-102`: critical-edge check. -/
def critCheck (f : Func) (b : Nat) : Option RegAllocError :=
  if inEdges f b > 1 then
    match (f.preds b).find? (fun p => (f.succs p).length > 1) with
    | some p => some (.critEdge p b)
    | none => none
  else none

/-- `/repo/src/cfg.rs:109-122`: branch-argument check. -/
def branchArgCheck (f : Func) (b : Nat) : Option RegAllocError :=
  if (f.succs b).any (fun s => inEdges f s > 1) then
    if (f.operands (f.lastInst b)).isEmpty then none else some (.disallowedBranchArg (f.lastInst b))
  else none

/-- State of the per-block loop. -/
structure Scan where
  insnBlock : List (Option Nat)
  blockEntry : List Nat
  blockExit : List Nat
  backIn : List Nat
  backOut : List Nat

/-- `/repo/src/cfg.rs:124-129`: count back edges. -/
def countBack (b : Nat) : List Nat → List Nat × List Nat → Option (List Nat × List Nat)
  | [], c => some c
  | s :: ss, c =>
    if s ≤ b then
      match c.1[s]?, c.2[b]? with
      | some x, some y => countBack b ss (c.1.set s (x + 1), c.2.set b (y + 1))
      | _, _ => none
    else countBack b ss c

/-- Body of the block loop, `/repo/src/cfg.rs:81-130`. -/
def scanBlock (f : Func) (st : Scan) (b : Nat) : Outcome Scan :=
  match markInsns b (f.blockInsts b) st.insnBlock with
  | none => .panic
  | some m =>
    match critCheck f b with
    | some e => .err e
    | none =>
      match branchArgCheck f b with
      | some e => .err e
      | none =>
        match countBack b (f.succs b) (st.backIn, st.backOut) with
        | none => .panic
        | some c => .ok ⟨m, st.blockEntry.set b (ptBefore (f.insns b).1),
            st.blockExit.set b (ptAfter (f.lastInst b)), c.1, c.2⟩

def scanBlocks (f : Func) : List Nat → Scan → Outcome Scan
  | [], st => .ok st
  | b :: bs, st =>
    match scanBlock f st b with
    | .ok st' => scanBlocks f bs st'
    | .err e => .err e
    | .panic => .panic

/-- Loop-depth state: stack of outstanding back edges (top first), depth and the
remaining outgoing back edges of the block. `none` = underflow panic. The `while`
of `/repo/src/cfg.rs:144-151`. -/
def popBack : Nat → List Nat → Nat → Option (List Nat × Nat)
  | 0, st, d => some (st, d)
  | _ + 1, [], d => some ([], d)
  | out + 1, t :: st, d =>
    if t = 0 then none
    else if t - 1 = 0 then if d = 0 then none else popBack out st (d - 1)
    else popBack out ((t - 1) :: st) d

/-- `/repo/src/cfg.rs:132-152`. -/
def loopDepths (backIn backOut : List Nat) : List Nat → List Nat → Nat → List Nat → Option (List Nat)
  | [], _, _, acc => some acc.reverse
  | b :: bs, st, d, acc =>
    match backIn[b]?, backOut[b]? with
    | some i, some o =>
      let d' := if i > 0 then d + 1 else d
      let st' := if i > 0 then i :: st else st
      match popBack o st' d' with
      | none => none
      | some r => loopDepths backIn backOut bs r.1 r.2 (d' :: acc)
    | _, _ => none

/-- The invalid point `ProgPoint::before(Inst::invalid())` used as filler. -/
def invalidPoint : Nat := 2 ^ 32 - 2

/-- `/repo/src/cfg.rs:50-155` `CFGInfo::init`. -/
def init (f : Func) : Outcome Info :=
  match Postorder.calculate? f.numBlocks f.entry f.succs with
  | none => .panic
  | some (.bb b) => .err (.bb b)
  | some (.ok post) =>
    match Domtree.calculate? f.numBlocks f.preds post f.entry with
    | none => .panic
    | some dom =>
      match scanBlocks f (List.range f.numBlocks)
          ⟨List.replicate f.numInsts none, List.replicate f.numBlocks invalidPoint,
           List.replicate f.numBlocks invalidPoint, List.replicate f.numBlocks 0,
           List.replicate f.numBlocks 0⟩ with
      | .err e => .err e
      | .panic => .panic
      | .ok st =>
        match loopDepths st.backIn st.backOut (List.range f.numBlocks) [] 0 [] with
        | none => .panic
        | some depths => .ok ⟨post, dom, st.insnBlock, st.blockEntry, st.blockExit, depths⟩

/-- `/repo/src/ion/moves.rs:173-219` `choose_move_location`: the program point
for the moves of an edge and whether it is at the tail of `from` (`true`) or the
head of `to`. `none` is the panic. -/
def chooseMoveLocation (f : Func) (src dst : Nat) : Option (Nat × Bool) :=
  let outs := (f.succs src).length + (if f.isRet (f.lastInst src) then 1 else 0)
  let ins := inEdges f dst
  if ins > 1 ∧ outs ≤ 1 then some (ptBefore (f.lastInst src), true)
  else if ins ≤ 1 then some (ptBefore (f.insns dst).1, false)
  else none

end Cfg
end Regalloc
