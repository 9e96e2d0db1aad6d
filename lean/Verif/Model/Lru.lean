import Verif.Model.PRegSet

/-
Model of `/repo/src/fastalloc/lru.rs`. `u8` fields are `Nat`s below 256; `none`
is a panic (index out of range, explicit panic, or failed debug validation, which
is included as if always enabled).
-/
namespace Regalloc

/-- `/repo/src/fastalloc/lru.rs:22-28` `LruNode`. -/
structure LruNode where
  prev : Nat
  next : Nat
  deriving DecidableEq, Repr

/-- `/repo/src/fastalloc/lru.rs:10-20` `Lru`. -/
structure Lru where
  data : List LruNode
  head : Nat
  cls : RegClass
  deriving Repr

namespace Lru

/-- `u8::MAX`. -/
def U8MAX : Nat := 255

/-- `data[i].next = x`. -/
def setNext? (d : List LruNode) (i x : Nat) : Option (List LruNode) :=
  match d[i]? with
  | none => none
  | some nd => some (d.set i ⟨nd.prev, x⟩)

/-- `data[i].prev = x`. -/
def setPrev? (d : List LruNode) (i x : Nat) : Option (List LruNode) :=
  match d[i]? with
  | none => none
  | some nd => some (d.set i ⟨x, nd.next⟩)

/-- Loop of `/repo/src/fastalloc/lru.rs:42-50`: register `i` of `regs` gets its
neighbours. -/
def initNodes (regs : List PReg) : Nat → List LruNode → List LruNode
  | 0, d => d
  | i + 1, d =>
    let d := initNodes regs i d
    let n := regs.length
    let enc (k : Nat) : Nat := ((regs[k]?).map PReg.hwEnc).getD 0
    d.set (enc i) ⟨enc (if i = 0 then n - 1 else i - 1), enc (if i ≥ n - 1 then 0 else i + 1)⟩

/-- `/repo/src/fastalloc/lru.rs:31-59` `new`. All indices used are in range. -/
def new (cls : RegClass) (s : PRegSet) : Lru :=
  let regs := s.toList
  ⟨initNodes regs regs.length (List.replicate (PReg.MAX + 1) ⟨U8MAX, U8MAX⟩),
    match regs with
    | [] => U8MAX
    | r :: _ => r.hwEnc,
    cls⟩

/-- `/repo/src/fastalloc/lru.rs:182-184` `is_empty`. -/
def isEmpty (l : Lru) : Bool := l.head == U8MAX

/-- Cycle search of `/repo/src/fastalloc/lru.rs:194-207`; `false` is a panic. -/
def validateLoop (l : Lru) : Nat → Nat → List Nat → Bool
  | 0, _, _ => false
  | fuel + 1, node, seen =>
    if node = l.head then true
    else if node ∈ seen then false
    else
      match l.data[node]? with
      | none => false
      | some nd => validateLoop l fuel nd.next (node :: seen)

/-- Node check of `/repo/src/fastalloc/lru.rs:208-235`. -/
def validateNode (l : Lru) (i : Nat) : Bool :=
  match l.data[i]? with
  | none => false
  | some nd =>
    if nd.prev = U8MAX ∧ nd.next = U8MAX then true
    else if nd.prev = U8MAX ∨ nd.next = U8MAX then false
    else
      match l.data[nd.prev]?, l.data[nd.next]? with
      | some p, some n => decide (p.next = i) && decide (n.prev = i)
      | _, _ => false

/-- `/repo/src/fastalloc/lru.rs:187-237` `validate_lru`. -/
def validate (l : Lru) : Bool :=
  if l.head = U8MAX then true
  else
    match l.data[l.head]? with
    | none => false
    | some nd => validateLoop l (l.data.length + 1) nd.next [] && (List.range l.data.length).all (validateNode l)

/-- Result of an operation ending in `validate_lru`. -/
def checked (l : Lru) : Option Lru := if l.validate then some l else none

/-- `/repo/src/fastalloc/lru.rs:133-161` `remove`. -/
def remove? (l : Lru) (x : Nat) : Option Lru := do
  let nd ← l.data[x]?
  let d ← setNext? l.data nd.prev nd.next
  -- the code re-reads data[hw_enc].prev here
  let nd1 ← d[x]?
  let d ← setPrev? d nd.next nd1.prev
  let d ← setPrev? d x U8MAX
  let d ← setNext? d x U8MAX
  let head := if x = l.head then (if x = nd.next then U8MAX else nd.next) else l.head
  checked ⟨d, head, l.cls⟩

/-- `/repo/src/fastalloc/lru.rs:164-180` `insert_before`. -/
def insertBefore? (l : Lru) (i j : Nat) : Option Lru := do
  let nj ← l.data[j]?
  let d ← setNext? l.data nj.prev i
  let d ← setPrev? d j i
  if i < d.length then checked ⟨d.set i ⟨nj.prev, j⟩, l.head, l.cls⟩ else none

/-- `/repo/src/fastalloc/lru.rs:62-84` `poke`. -/
def poke? (l : Lru) (p : PReg) : Option Lru :=
  let x := p.hwEnc
  if x = l.head then some l
  else
    match l.data[l.head]? with
    | none => none
    | some nd =>
      if nd.prev ≠ x then
        match l.remove? x with
        | none => none
        | some l1 =>
          match l1.insertBefore? x l1.head with
          | none => none
          | some l2 => checked { l2 with head := x }
      else checked { l with head := x }

/-- `/repo/src/fastalloc/lru.rs:87-104` `pop` (it removes nothing). -/
def pop? (l : Lru) : Option PReg :=
  if l.isEmpty then none
  else
    match l.data[l.head]? with
    | none => none
    | some nd => if l.validate then some (PReg.new nd.prev l.cls) else none

/-- Loop of `/repo/src/fastalloc/lru.rs:118-130`. The outer `Option` is `none` on a
panic (or missing fuel). -/
def lastLoop (l : Lru) (f : PReg → Bool) (init : Nat) : Nat → Nat → Option (Option PReg)
  | 0, _ => none
  | fuel + 1, last =>
    let p := PReg.new last l.cls
    if f p then some (some p)
    else
      match l.data[last]? with
      | none => none
      | some nd => if nd.prev = init then some none else lastLoop l f init fuel nd.prev

/-- `/repo/src/fastalloc/lru.rs:113-130` `last_satisfying`. -/
def lastSatisfying? (l : Lru) (f : PReg → Bool) : Option (Option PReg) :=
  if l.isEmpty then none
  else
    match l.data[l.head]? with
    | none => none
    | some nd => lastLoop l f nd.prev (l.data.length + 1) nd.prev

/-- `/repo/src/fastalloc/lru.rs:107-110` `last`. -/
def last? (l : Lru) (s : PRegSet) : Option (Option PReg) := l.lastSatisfying? s.contains

end Lru
end Regalloc
