import Verif.Model.PRegSet

/-
Model of `/repo/src/ion/reg_traversal.rs`. A `PRegSetIter` is represented by the
list of items it still has to yield (`C06_iteration` proves what that list is).
-/
namespace Regalloc

/-- `/repo/src/ion/reg_traversal.rs:6-9` `Cursor`. -/
structure Cursor where
  first : List PReg
  second : List PReg
  deriving Repr

/-- `/repo/src/ion/reg_traversal.rs:13-22` `Cursor::new`. -/
def Cursor.new (registers : PRegSet) (cls : RegClass) (offsetHint : Nat) : Cursor :=
  let mask := PRegSet.empty.addUpTo (PReg.new (offsetHint % PReg.MAX) cls)
  ⟨(registers.intersectFrom mask.invert).toList, (registers.intersectFrom mask).toList⟩

/-- `/repo/src/ion/reg_traversal.rs:24-26` `Cursor::next`. -/
def Cursor.next (c : Cursor) : Option (PReg × Cursor) :=
  match c.first with
  | p :: ps => some (p, { c with first := ps })
  | [] =>
    match c.second with
    | p :: ps => some (p, { c with second := ps })
    | [] => none

/-- Items left in a cursor. -/
def Cursor.size (c : Cursor) : Nat := c.first.length + c.second.length

theorem Cursor.next_size {c c' : Cursor} {p : PReg} (h : c.next = some (p, c')) : c'.size < c.size := by
  cases c with
  | mk a b =>
    cases a with
    | cons x xs =>
      simp only [Cursor.next, Option.some.injEq, Prod.mk.injEq] at h
      obtain ⟨-, rfl⟩ := h; simp only [Cursor.size, List.length_cons]; omega
    | nil =>
      cases b with
      | cons x xs =>
        simp only [Cursor.next, Option.some.injEq, Prod.mk.injEq] at h
        obtain ⟨-, rfl⟩ := h; simp [Cursor.size]
      | nil => simp [Cursor.next] at h

/-- `/repo/src/ion/reg_traversal.rs:43-51` `RegTraversalIter`. -/
structure RegTraversalIter where
  isFixed : Bool
  fixed : Option PReg
  useHint : Bool
  hint : Option PReg
  preferred : Cursor
  nonPreferred : Cursor
  limit : Option Nat
  deriving Repr

namespace RegTraversalIter

/-- `/repo/src/ion/reg_traversal.rs:54-82` `new` (the debug assertions that `fixed`
and `hint` are not the invalid register are left to the caller). -/
def new (env : MachineEnv) (cls : RegClass) (fixed hint : Option PReg) (offset : Nat) (limit : Option Nat) :
    RegTraversalIter :=
  ⟨fixed.isSome, fixed, hint.isSome, hint, Cursor.new (env.preferred cls) cls offset,
    Cursor.new (env.nonPreferred cls) cls offset, limit⟩

/-- `hw_enc < limit.unwrap_or(usize::MAX)`; encodings are below `usize::MAX`. -/
def within (limit : Option Nat) (p : PReg) : Bool :=
  match limit with
  | none => true
  | some n => decide (p.hwEnc < n)

/-- The `while let` loops of `/repo/src/ion/reg_traversal.rs:99-111`: the next
register of a cursor that is neither the hint nor outside the limit. -/
def scan (hint : Option PReg) (limit : Option Nat) (c : Cursor) : Option PReg × Cursor :=
  match h : c.next with
  | none => (none, c)
  | some (p, c') => if some p = hint || !(within limit p) then scan hint limit c' else (some p, c')
  termination_by c.size
  decreasing_by exact Cursor.next_size h

/-- `/repo/src/ion/reg_traversal.rs:87-112` `next`. -/
def next (it : RegTraversalIter) : Option PReg × RegTraversalIter :=
  if it.isFixed then (it.fixed, { it with fixed := none })
  else
    match it.useHint, it.hint with
    | true, some h =>
      let it := { it with useHint := false }
      if within it.limit h then (some h, it) else rest it
    | _, _ => rest it
where
  /-- the two scans -/
  rest (it : RegTraversalIter) : Option PReg × RegTraversalIter :=
    match scan it.hint it.limit it.preferred with
    | (some p, c) => (some p, { it with preferred := c })
    | (none, c) =>
      let it := { it with preferred := c }
      match scan it.hint it.limit it.nonPreferred with
      | (some p, c) => (some p, { it with nonPreferred := c })
      | (none, c) => (none, { it with nonPreferred := c })

/-- All the registers an iterator yields until its first `None`, at most `fuel`. -/
def collect : Nat → RegTraversalIter → List PReg
  | 0, _ => []
  | n + 1, it =>
    match it.next with
    | (none, _) => []
    | (some p, it) => p :: collect n it

/-- The whole traversal. 600 exceeds the number of registers (proved). -/
def all (it : RegTraversalIter) : List PReg := collect 600 it

end RegTraversalIter
end Regalloc
