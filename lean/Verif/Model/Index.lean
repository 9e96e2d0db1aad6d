import Verif.Model.Lib
import Verif.Model.Function

/-
Model of `/repo/src/index.rs` (index types, index-addressed storage, ranges of instructions) and of
`/repo/src/fastalloc/iter.rs` (views of an operand list). A failed debug assertion, an overflow and
an access out of bounds are `none`.
-/
namespace Regalloc

/-- `/repo/src/index.rs:101-108` `is_valid`. -/
def Inst.isValid (i : Inst) : Bool := i != Inst.invalid

/-- `/repo/src/index.rs:92-95` `index`, with its assertion. -/
def Inst.index? (i : Inst) : Option Nat := if i.isValid then some i.idx.toNat else none

/-- `/repo/src/index.rs:110-113` `next`. A valid index is below `u32::MAX`, so the sum does not overflow. -/
def Inst.next? (i : Inst) : Option Inst := if i.isValid then some ⟨i.idx + 1⟩ else none

/-- `/repo/src/index.rs:115-118` `prev`; the difference may underflow. -/
def Inst.prev? (i : Inst) : Option Inst := if i.isValid then (if i.idx = 0 then none else some ⟨i.idx - 1⟩) else none

/-- `/repo/src/index.rs:146` `InstRange`. -/
structure InstRange where
  fr : Inst
  to : Inst

namespace InstRange

/-- `/repo/src/index.rs:150-153` `new`. -/
def new? (a b : Inst) : Option InstRange :=
  match a.index?, b.index? with
  | some i, some j => if i ≤ j then some ⟨a, b⟩ else none
  | _, _ => none

/-- `/repo/src/index.rs:174-176` `len`; the difference may underflow. -/
def len? (r : InstRange) : Option Nat :=
  match r.to.index?, r.fr.index? with
  | some j, some i => if i ≤ j then some (j - i) else none
  | _, _ => none

/-- `/repo/src/index.rs:156-159` `first`. -/
def first? (r : InstRange) : Option Inst :=
  match r.len? with
  | some n => if n > 0 then some r.fr else none
  | none => none

/-- `/repo/src/index.rs:162-165` `last`. -/
def last? (r : InstRange) : Option Inst :=
  match r.len? with
  | some n => if n > 0 then r.to.prev? else none
  | none => none

/-- `/repo/src/index.rs:168-171` `rest`. -/
def rest? (r : InstRange) : Option InstRange :=
  match r.len? with
  | some n =>
    if n > 0 then
      match r.fr.next? with
      | some a => InstRange.new? a r.to
      | none => none
    else none
  | none => none

/-- `/repo/src/index.rs:179-181` `iter`, as the list of what it yields from the front. -/
def iter? (r : InstRange) : Option (List Inst) :=
  match r.fr.index?, r.to.index? with
  | some i, some j => some ((List.range' i (j - i)).map Inst.new)
  | _, _ => none

end InstRange

/-- `/repo/src/index.rs:6-9`: storage addressed by an index type. -/
structure Storage (α : Type) where
  items : List α

namespace Storage
variable {α : Type}

/-- `/repo/src/index.rs:34-39` `push`. -/
def push (s : Storage α) (x : α) : Storage α × Inst := (⟨s.items ++ [x]⟩, ⟨UInt32.ofNat s.items.length⟩)

/-- `/repo/src/index.rs:42-49` `Index`. -/
def get? (s : Storage α) (i : Inst) : Option α :=
  match i.index? with
  | some n => s.items[n]?
  | none => none

/-- `/repo/src/index.rs:51-56` `IndexMut`: assignment through the reference. -/
def set? (s : Storage α) (i : Inst) (x : α) : Option (Storage α) :=
  match i.index? with
  | some n => if n < s.items.length then some ⟨s.items.set n x⟩ else none
  | none => none

end Storage

namespace Views

/-- `/repo/src/fastalloc/iter.rs:10-19` `matches`: operands with their positions. -/
def byPred (ops : List Op) (p : Op → Bool) : List (Nat × Op) := ((ops.zipIdx).map (fun x => (x.2, x.1))).filter (fun x => p x.2)

/-- `/repo/src/fastalloc/iter.rs:21-23`. -/
def defOps (ops : List Op) : List (Nat × Op) := byPred ops (fun o => o.kind = .Def)
/-- `/repo/src/fastalloc/iter.rs:25-27`. -/
def useOps (ops : List Op) : List (Nat × Op) := byPred ops (fun o => o.kind = .Use)
/-- `/repo/src/fastalloc/iter.rs:29-31`. -/
def reuse (ops : List Op) : List (Nat × Op) := byPred ops (fun o => match o.constraint with | .Reuse _ => true | _ => false)
/-- `/repo/src/fastalloc/iter.rs:33-35`. -/
def fixed (ops : List Op) : List (Nat × Op) := byPred ops (fun o => match o.constraint with | .FixedReg _ => true | _ => false)
/-- `/repo/src/fastalloc/iter.rs:37-39`. -/
def anyReg (ops : List Op) : List (Nat × Op) := byPred ops (fun o => o.constraint = .Reg)
/-- `/repo/src/fastalloc/iter.rs:41-43`. -/
def late (ops : List Op) : List (Nat × Op) := byPred ops (fun o => o.pos = .Late)
/-- `/repo/src/fastalloc/iter.rs:45-47`. -/
def early (ops : List Op) : List (Nat × Op) := byPred ops (fun o => o.pos = .Early)

end Views
end Regalloc
