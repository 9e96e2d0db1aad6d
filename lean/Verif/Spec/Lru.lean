import Verif.Model.Lru

/-
Specification of the LRU (C15) from the history of uses alone.
-/
namespace Regalloc
namespace Lru

/-- When register `x` was last used: 0 if never, otherwise one plus its last
position in the history (oldest use first). -/
def lastUse : List PReg → PReg → Nat
  | [], _ => 0
  | h :: hist, x =>
    let n := lastUse hist x
    if n ≠ 0 then n + 1 else if h = x then 1 else 0

/-- Poke each register of the history in turn; `none` if one of them panics. -/
def pokes? : Lru → List PReg → Option Lru
  | l, [] => some l
  | l, p :: ps =>
    match l.poke? p with
    | none => none
    | some l' => pokes? l' ps

/-- The registers met by following the `next` links from the head until it comes
round again. -/
def follow (l : Lru) : Nat → Nat → List Nat
  | 0, _ => []
  | fuel + 1, x =>
    match l.data[x]? with
    | none => []
    | some nd => x :: (if nd.next = l.head then [] else follow l fuel nd.next)

/-- The ring as a list of hardware encodings, most recent first. -/
def ringList (l : Lru) : List Nat := if l.isEmpty then [] else l.follow (l.data.length + 1) l.head

end Lru
end Regalloc
