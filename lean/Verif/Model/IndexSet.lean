/-
Model of `/repo/src/indexset.rs`.

Simplifications:
* `usize` and `u32` indices are `Nat`; the truncation `as u32` is `% 2^32`.
* In small mode only the first `len` entries of the two arrays are kept, as a
  list of pairs of length `len` (the rest of `values` is never written and stays
  zero; the rest of `keys` is never read).
* The hash map is a list of pairs with distinct keys. Its iteration order is
  unspecified, so every operation that iterates takes an `Order`, an arbitrary
  rearrangement, as an extra argument.
-/
namespace Regalloc

abbrev Word := BitVec 64

/-- An iteration order of the hash map: any function that permutes its input. -/
structure HashOrder where
  f : List (Nat × Word) → List (Nat × Word)
  perm : ∀ l, (f l).Perm l

/-- `/repo/src/indexset.rs:17-24` `AdaptiveMap`. -/
inductive AdaptiveMap
  | Small (es : List (Nat × Word))
  | Large (es : List (Nat × Word))
  deriving DecidableEq, Repr

namespace AdaptiveMap

/-- `/repo/src/indexset.rs:12`. -/
def SMALL_ELEMS : Nat := 12

/-- `/repo/src/indexset.rs:29-35` `new`. -/
def new : AdaptiveMap := Small []

/-- the stored entries. -/
def entries : AdaptiveMap → List (Nat × Word)
  | Small es => es
  | Large es => es

/-- position of a key. -/
def keyPos (es : List (Nat × Word)) (key : Nat) : Option Nat :=
  es.findIdx? (fun e => e.1 == key)

/-- `HashMap::entry(key).or_insert(0)`: the map and the position of the entry. -/
def hashEntry (es : List (Nat × Word)) (key : Nat) : AdaptiveMap × Nat :=
  match keyPos es key with
  | some i => (Large es, i)
  | none => (Large (es ++ [(key, 0)]), es.length)

/-- `/repo/src/indexset.rs:38-88` `get_or_insert`: the new map and the position
of the entry to which the returned reference points. -/
def getOrInsert (m : AdaptiveMap) (key : Nat) : AdaptiveMap × Nat :=
  match m with
  | Small es =>
    match keyPos es key with
    | some i => (Small es, i)
    | none =>
      if es.length ≠ SMALL_ELEMS then (Small (es ++ [(key, 0)]), es.length)
      else
        match es.findIdx? (fun e => e.2 == 0) with
        | some i => (Small (es.modify i (fun e => (key, e.2))), i)
        | none => hashEntry es key
  | Large es => hashEntry es key

/-- write through the reference returned by `get_or_insert` / `get_mut`. -/
def modifyAt (m : AdaptiveMap) (i : Nat) (f : Word → Word) : AdaptiveMap :=
  match m with
  | Small es => Small (es.modify i (fun e => (e.1, f e.2)))
  | Large es => Large (es.modify i (fun e => (e.1, f e.2)))

/-- `/repo/src/indexset.rs:91-107` `get_mut`: position of the entry. -/
def getMut (m : AdaptiveMap) (key : Nat) : Option Nat := keyPos m.entries key

/-- `/repo/src/indexset.rs:109-128` `get`. -/
def get (m : AdaptiveMap) (key : Nat) : Option Word :=
  (m.entries.find? (fun e => e.1 == key)).map (·.2)

/-- `/repo/src/indexset.rs:129-138` `iter` (collected). -/
def iter (ord : HashOrder) : AdaptiveMap → List (Nat × Word)
  | Small es => es
  | Large es => ord.f es

/-- `/repo/src/indexset.rs:140-145` `is_empty`. -/
def isEmpty (m : AdaptiveMap) : Bool := m.entries.all (fun e => e.2 == 0)

end AdaptiveMap

/-- `/repo/src/indexset.rs:270-286` `SetBitsIter::next`. -/
def setBitsNext (w : Word) : Option (Nat × Word) :=
  if w = 0 then none else some (w.ctz.toNat, w &&& (w - 1))

/-- `SetBitsIter` collected; the fuel (65) is never exhausted. -/
def setBits : Nat → Word → List Nat
  | 0, _ => []
  | n + 1, w =>
    match setBitsNext w with
    | none => []
    | some (i, w') => i :: setBits n w'

/-- `/repo/src/indexset.rs:174-176` `IndexSet`. -/
structure IndexSet where
  elems : AdaptiveMap
  deriving DecidableEq, Repr

namespace IndexSet

/-- `/repo/src/indexset.rs:178`. -/
def BITS_PER_WORD : Nat := 64

/-- `(bit_index / BITS_PER_WORD) as u32`, `/repo/src/indexset.rs:189,195,201`. -/
def wordIndex (i : Nat) : Nat := (i / BITS_PER_WORD) % 2 ^ 32

/-- `/repo/src/indexset.rs:181-185` `new`. -/
def new : IndexSet := ⟨.new⟩

/-- `/repo/src/indexset.rs:206-213` `set` (with `elem`, 188-191, and
`maybe_elem_mut`, 194-197). -/
def set (s : IndexSet) (idx : Nat) (val : Bool) : IndexSet :=
  let bit := idx % BITS_PER_WORD
  if val then
    let r := s.elems.getOrInsert (wordIndex idx)
    ⟨r.1.modifyAt r.2 (fun w => w ||| (1#64 <<< bit))⟩
  else
    match s.elems.getMut (wordIndex idx) with
    | some i => ⟨s.elems.modifyAt i (fun w => w &&& ~~~(1#64 <<< bit))⟩
    | none => s

/-- `/repo/src/indexset.rs:215-217` `assign`. -/
def assign (_s other : IndexSet) : IndexSet := other

/-- `/repo/src/indexset.rs:220-227` `get`. -/
def get (s : IndexSet) (idx : Nat) : Bool :=
  let bit := idx % BITS_PER_WORD
  match s.elems.get (wordIndex idx) with
  | some w => (w &&& (1#64 <<< bit)) != 0
  | none => false

/-- One iteration of the loop in `union_with`, `/repo/src/indexset.rs:231-239`;
`changed` is accumulated. -/
def unionStep (st : IndexSet × Word) (e : Nat × Word) : IndexSet × Word :=
  if e.2 = 0 then st
  else
    let r := st.1.elems.getOrInsert (wordIndex (e.1 * BITS_PER_WORD))
    let w := ((r.1.entries[r.2]?).map (·.2)).getD 0
    (⟨r.1.modifyAt r.2 (fun w => w ||| e.2)⟩, st.2 ||| (e.2 &&& ~~~w))

/-- `/repo/src/indexset.rs:229-242` `union_with`: new set and `changed`. -/
def unionWith (ord : HashOrder) (s other : IndexSet) : IndexSet × Bool :=
  let r := (other.elems.iter ord).foldl unionStep (s, 0)
  (r.1, r.2 != 0)

/-- `/repo/src/indexset.rs:244-249` `iter`, collected. -/
def iter (ord : HashOrder) (s : IndexSet) : List Nat :=
  (s.elems.iter ord).flatMap (fun e => (setBits 65 e.2).map (fun i => BITS_PER_WORD * e.1 + i))

/-- `/repo/src/indexset.rs:253-258` `is_small`. -/
def isSmall (s : IndexSet) : Bool :=
  match s.elems with
  | .Small _ => true
  | .Large _ => false

/-- `/repo/src/indexset.rs:261-263` `is_empty`. -/
def isEmpty (s : IndexSet) : Bool := s.elems.isEmpty

end IndexSet

end Regalloc
