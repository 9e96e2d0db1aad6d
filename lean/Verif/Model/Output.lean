import Verif.Model.Function

/-
Model of `Output` and its accessors (`/repo/src/lib.rs:1474-1639`) and of the
operand-allocation table both allocators fill in.
-/
namespace Regalloc

/-- `/repo/src/lib.rs:1474-1482` `Edit`. -/
structure Edit where
  src : Allocation
  dst : Allocation
  deriving DecidableEq, Repr

/-- `/repo/src/lib.rs:1486-1490` `InstOrEdit`. -/
inductive InstOrEdit
  | inst (i : Nat)
  | edit (e : Edit)
  deriving DecidableEq, Repr

/-- `/repo/src/lib.rs:1577-1603` `Output` (debug locations and statistics
separate). -/
structure Output where
  numSpillslots : Nat
  edits : List (Nat × Edit)
  allocs : List Allocation
  offsets : List Nat
  deriving Repr

/-- `/repo/src/lib.rs:1493-1499` `OutputIter`. -/
structure OutputIter where
  edits : List (Nat × Edit)
  first : Nat
  stop : Nat

/-- `/repo/src/lib.rs:1503-1522` `OutputIter::next`. -/
def OutputIter.next (it : OutputIter) : Option (InstOrEdit × OutputIter) :=
  if it.stop - it.first = 0 then none
  else
    match it.edits with
    | (p, e) :: rest =>
      if p ≤ ptBefore it.first then some (.edit e, { it with edits := rest })
      else some (.inst it.first, { it with first := it.first + 1 })
    | [] => some (.inst it.first, { it with first := it.first + 1 })

/-- Draining the iterator; `fuel` bounds the number of items. -/
def OutputIter.drain : Nat → OutputIter → List InstOrEdit
  | 0, _ => []
  | fuel + 1, it =>
    match it.next with
    | none => []
    | some (x, it') => x :: drain fuel it'

/-- `/repo/src/lib.rs:1618-1638` `block_insts_and_edits`, drained. The binary
search for the first edit not before the block is modelled by `dropWhile`; the
two agree on edits sorted by point. -/
def Output.blockInstsAndEdits (out : Output) (f : Func) (b : Nat) : List InstOrEdit :=
  let r := f.insns b
  OutputIter.drain (r.2 - r.1 + out.edits.length + 1)
    ⟨out.edits.dropWhile (fun pe => pe.1 < ptBefore r.1), r.1, r.2⟩

/-- `/repo/src/lib.rs:1606-1614` `inst_allocs`; `none` is an indexing panic. -/
def Output.instAllocs (out : Output) (i : Nat) : Option (List Allocation) :=
  match out.offsets[i]? with
  | none => none
  | some start =>
    match (if i + 1 = out.offsets.length then some out.allocs.length else out.offsets[i + 1]?) with
    | none => none
    | some stop =>
      if start ≤ stop ∧ stop ≤ out.allocs.length then some ((out.allocs.drop start).take (stop - start))
      else none

/-- Table creation, `/repo/src/ion/liveranges.rs:134-142`; the single-pass
allocator's `/repo/src/fastalloc/mod.rs:35-54` computes the same table. `lens`
are the operand counts. Simplification: offsets are not truncated to `u32`. -/
def buildTable : List Nat → List Allocation × List Nat → List Allocation × List Nat
  | [], t => t
  | n :: lens, t => buildTable lens (t.1 ++ List.replicate n Allocation.none, t.2 ++ [t.1.length])

/-- `/repo/src/ion/moves.rs:52-56` `set_alloc` (and
`/repo/src/fastalloc/mod.rs:69-73`); `none` is an indexing panic. -/
def setAlloc (t : List Allocation × List Nat) (i slot : Nat) (a : Allocation) :
    Option (List Allocation × List Nat) :=
  match t.2[i]? with
  | none => none
  | some start => if start + slot < t.1.length then some (t.1.set (start + slot) a, t.2) else none

/-- `/repo/src/ion/moves.rs:46-50` `get_alloc`. -/
def getAlloc (t : List Allocation × List Nat) (i slot : Nat) : Option Allocation :=
  match t.2[i]? with
  | none => none
  | some start => t.1[start + slot]?

end Regalloc
