import Verif.Model.Lib

/-
Model of `/repo/src/fastalloc/vregset.rs`. `none` is a panic.
-/
namespace Regalloc

/-- `/repo/src/fastalloc/vregset.rs:8-13` `VRegNode`. -/
structure VRegNode where
  next : Nat
  prev : Nat
  vreg : VReg
  deriving DecidableEq, Repr

/-- `/repo/src/fastalloc/vregset.rs:17-20` `VRegSet`. -/
structure VRegSet where
  items : List VRegNode
  head : Nat
  deriving Repr

namespace VRegSet

/-- `/repo/src/fastalloc/vregset.rs:23-35` `with_capacity`. -/
def withCapacity (n : Nat) : VRegSet := ⟨List.replicate (n + 1) ⟨n, n, VReg.invalid⟩, n⟩

/-- `items[i].next = x`. -/
def setNext? (d : List VRegNode) (i x : Nat) : Option (List VRegNode) :=
  match d[i]? with
  | none => none
  | some nd => some (d.set i { nd with next := x })

/-- `items[i].prev = x`. -/
def setPrev? (d : List VRegNode) (i x : Nat) : Option (List VRegNode) :=
  match d[i]? with
  | none => none
  | some nd => some (d.set i { nd with prev := x })

/-- `/repo/src/fastalloc/vregset.rs:37-47` `insert`, with the debug assertion. -/
def insert? (s : VRegSet) (v : VReg) : Option VRegSet := do
  let nd ← s.items[v.vreg]?
  if nd.vreg ≠ VReg.invalid then none
  else
    let nh ← s.items[s.head]?
    let d := s.items.set v.vreg ⟨nh.next, s.head, v⟩
    let d ← setNext? d s.head v.vreg
    let d ← setPrev? d nh.next v.vreg
    some ⟨d, s.head⟩

/-- `/repo/src/fastalloc/vregset.rs:49-55` `remove`. -/
def remove? (s : VRegSet) (k : Nat) : Option VRegSet := do
  let nd ← s.items[k]?
  let d ← setNext? s.items nd.prev nd.next
  let d ← setPrev? d nd.next nd.prev
  let nk ← d[k]?
  some ⟨d.set k { nk with vreg := VReg.invalid }, s.head⟩

/-- `/repo/src/fastalloc/vregset.rs:57-59` `is_empty`. -/
def isEmpty? (s : VRegSet) : Option Bool := (s.items[s.head]?).map (fun nd => nd.next == s.head)

/-- `/repo/src/fastalloc/vregset.rs:79-87` iteration to the end; `none` on a panic
or when the fuel runs out. -/
def iterLoop (s : VRegSet) : Nat → Nat → Option (List VReg)
  | 0, _ => none
  | fuel + 1, cur =>
    if cur ≠ s.head then
      match s.items[cur]? with
      | none => none
      | some nd => (iterLoop s fuel nd.next).map (nd.vreg :: ·)
    else some []

/-- `/repo/src/fastalloc/vregset.rs:61-67` `iter`, collected. -/
def toList? (s : VRegSet) : Option (List VReg) :=
  match s.items[s.head]? with
  | none => none
  | some nd => iterLoop s (s.items.length + 1) nd.next

end VRegSet
end Regalloc
