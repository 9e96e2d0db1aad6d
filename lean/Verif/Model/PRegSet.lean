/-
Model of `PRegSet`, `/repo/src/lib.rs:211-401`. The array `[u64; 4]` is a
function `Fin 4 → BitVec 64`.
-/
import Verif.Model.Lib

namespace Regalloc

/-- `/repo/src/lib.rs:221-223`. -/
structure PRegSet where
  bits : Fin 4 → BitVec 64

namespace PRegSet

instance : DecidableEq PRegSet := fun a b =>
  if h : ∀ i, a.bits i = b.bits i then
    isTrue (by cases a; cases b; congr; exact funext h)
  else isFalse (by rintro rfl; exact h (fun _ => rfl))

/-- `/repo/src/lib.rs:233-237` `empty`. -/
def empty : PRegSet := ⟨fun _ => 0⟩

instance : Inhabited PRegSet := ⟨empty⟩

/-- `/repo/src/lib.rs:240-243` `split_index`, word part; a `u8` index shifted by
6 is always below 4. -/
def word (r : PReg) : Fin 4 :=
  ⟨r.index >>> 6, by
    have := r.bits.toNat_lt
    rw [Nat.shiftRight_eq_div_pow]; unfold PReg.index; omega⟩

/-- `/repo/src/lib.rs:240-243` `split_index`, bit part. -/
def bit (r : PReg) : Nat := r.index &&& 63

/-- Store into one word of the array. -/
def setWord (s : PRegSet) (i : Fin 4) (w : BitVec 64) : PRegSet :=
  ⟨fun j => if j = i then w else s.bits j⟩

/-- `/repo/src/lib.rs:246-249` `contains`. -/
def contains (s : PRegSet) (r : PReg) : Bool :=
  (s.bits (word r) &&& (1#64 <<< bit r)) != 0#64

/-- `/repo/src/lib.rs:252-257` `with`. -/
def with_ (s : PRegSet) (r : PReg) : PRegSet :=
  s.setWord (word r) (s.bits (word r) ||| (1#64 <<< bit r))

/-- `/repo/src/lib.rs:260-263` `add`. -/
def add (s : PRegSet) (r : PReg) : PRegSet :=
  s.setWord (word r) (s.bits (word r) ||| (1#64 <<< bit r))

/-- `/repo/src/lib.rs:266-269` `remove`. -/
def remove (s : PRegSet) (r : PReg) : PRegSet :=
  s.setWord (word r) (s.bits (word r) &&& ~~~(1#64 <<< bit r))

/-- `/repo/src/lib.rs:273-277` `union_from`, also `|` (327-335). -/
def unionFrom (s t : PRegSet) : PRegSet := ⟨fun i => s.bits i ||| t.bits i⟩

/-- `/repo/src/lib.rs:279-283` `intersect_from`, also `&` (317-325). -/
def intersectFrom (s t : PRegSet) : PRegSet := ⟨fun i => s.bits i &&& t.bits i⟩

/-- `/repo/src/lib.rs:285-291` `invert`. -/
def invert (s : PRegSet) : PRegSet := ⟨fun i => ~~~(s.bits i)⟩

/-- Position of a class in the word array (`regclass as usize`, lib.rs:294). -/
def classWord (c : RegClass) : Fin 4 := ⟨c.toNat, by cases c <;> decide⟩

/-- `/repo/src/lib.rs:293-295` `is_empty`. -/
def isEmpty (s : PRegSet) (c : RegClass) : Bool := s.bits (classWord c) == 0#64

/-- `u64::count_ones`. -/
def countOnes (w : BitVec 64) : Nat := (List.range 64).countP (fun i => w.getLsbD i)

/-- `/repo/src/lib.rs:298-300` `len`. -/
def len (s : PRegSet) : Nat :=
  countOnes (s.bits 0) + countOnes (s.bits 1) + countOnes (s.bits 2) + countOnes (s.bits 3)

/-- `/repo/src/lib.rs:308-314` `add_up_to`. -/
def addUpTo (s : PRegSet) (r : PReg) : PRegSet :=
  ⟨fun i => if i < word r then BitVec.allOnes 64
            else if i = word r then (1#64 <<< bit r) - 1#64
            else s.bits i⟩

/-! ### Iteration, lib.rs:356-375 -/

/-- `/repo/src/lib.rs:356-359` `PRegSetIter`. -/
structure Iter where
  set : PRegSet
  cur : Nat

/-- `/repo/src/lib.rs:363-374` `PRegSetIter::next`. `get_mut(cur)?` returns
`None` once `cur` is past the array. -/
def Iter.next (it : Iter) : Option (PReg × Iter) :=
  if h : it.cur < 4 then
    let w := it.set.bits ⟨it.cur, h⟩
    if w ≠ 0#64 then
      let b := w.ctz.toNat
      some (PReg.fromIndex (b + it.cur * 64),
        { it with set := it.set.setWord ⟨it.cur, h⟩ (w &&& ~~~(1#64 <<< b)) })
    else Iter.next { it with cur := it.cur + 1 }
  else none
  termination_by 4 - it.cur

/-- Collect an iterator; `fuel` bounds the number of items (257 always suffices,
see `toList_mem`). -/
def Iter.collect : Nat → Iter → List PReg
  | 0, _ => []
  | n + 1, it =>
    match it.next with
    | none => []
    | some (p, it') => p :: Iter.collect n it'

/-- `/repo/src/lib.rs:337-354` `into_iter`, collected. -/
def toList (s : PRegSet) : List PReg := Iter.collect 257 ⟨s, 0⟩

/-- `/repo/src/lib.rs:303-305` `max_preg`. -/
def maxPreg (s : PRegSet) : Option PReg := s.toList.getLast?

/-- `/repo/src/lib.rs:393-401` `FromIterator`. -/
def ofList (l : List PReg) : PRegSet := l.foldl add empty

end PRegSet

/-- `/repo/src/lib.rs:1531-1572` `MachineEnv`. -/
structure MachineEnv where
  preferred : RegClass → PRegSet
  nonPreferred : RegClass → PRegSet
  scratch : RegClass → Option PReg
  fixedStackSlots : List PReg

/-- `/repo/src/lib.rs:377-391` `From<&MachineEnv> for PRegSet`. -/
def PRegSet.ofEnv (env : MachineEnv) : PRegSet :=
  let r := [RegClass.Int, .Float, .Vector].foldl (fun s c => s.unionFrom (env.preferred c)) empty
  [RegClass.Int, .Float, .Vector].foldl (fun s c => s.unionFrom (env.nonPreferred c)) r

end Regalloc
