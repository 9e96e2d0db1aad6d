/-
Model of `LiveRangeKey` and of the `BTreeMap`s keyed by it
(`/repo/src/ion/data_structures.rs:683-783`). Program points are numbers. A map is
its in-order list of entries; `Props/RangeMap.lean` proves that descending any search
tree with this in-order list gives the same lookup.
-/
namespace Regalloc

/-- `/repo/src/ion/data_structures.rs:736-739` `LiveRangeKey`, also `CodeRange`
(`:37-40`): from `fr` (inclusive) to `to` (exclusive). -/
structure RKey where
  fr : Nat
  to : Nat
  deriving DecidableEq, Repr

namespace RKey

/-- `/repo/src/ion/data_structures.rs:772-782` `Ord::cmp` (the same code at `:86-96`
for `CodeRange`). -/
def cmp (a b : RKey) : Ordering :=
  if a.to ≤ b.fr then .lt else if a.fr ≥ b.to then .gt else .eq

/-- `/repo/src/ion/data_structures.rs:759-763` `PartialEq::eq`. -/
def eqv (a b : RKey) : Bool := decide (a.to > b.fr) && decide (a.fr < b.to)

/-- `/repo/src/ion/data_structures.rs:44-46` `is_empty`. -/
def isEmpty (a : RKey) : Bool := decide (a.fr ≥ a.to)

/-- `/repo/src/ion/data_structures.rs:48-50` `contains`. -/
def contains (a b : RKey) : Bool := decide (b.fr ≥ a.fr) && decide (b.to ≤ a.to)

/-- `/repo/src/ion/data_structures.rs:52-54` `contains_point`. -/
def containsPoint (a : RKey) (p : Nat) : Bool := decide (p ≥ a.fr) && decide (p < a.to)

/-- `/repo/src/ion/data_structures.rs:56-58` `overlaps`. -/
def overlaps (a b : RKey) : Bool := decide (b.to > a.fr) && decide (b.fr < a.to)

/-- `/repo/src/ion/data_structures.rs:65-70` `singleton`. -/
def singleton (p : Nat) : RKey := ⟨p, p + 1⟩

/-- `/repo/src/ion/data_structures.rs:74-79` `join`. -/
def join (a b : RKey) : RKey := ⟨min a.fr b.fr, max a.to b.to⟩

end RKey

/-- A `BTreeMap<LiveRangeKey, _>` as its entries in order. -/
abbrev RangeMap (α : Type) := List (RKey × α)

namespace RangeMap

variable {α : Type}

/-- Lookup (`get`/`contains_key`): entries below the key are passed over. -/
def find? : RangeMap α → RKey → Option (RKey × α)
  | [], _ => none
  | (e, v) :: m, k =>
    match k.cmp e with
    | .gt => find? m k
    | .eq => some (e, v)
    | .lt => none

/-- `BTreeMap::insert`: an entry with an `Equal` key keeps its key and gets the new
value; the old value is returned. -/
def insert : RangeMap α → RKey → α → Option α × RangeMap α
  | [], k, x => (none, [(k, x)])
  | (e, v) :: m, k, x =>
    match k.cmp e with
    | .gt => let r := insert m k x; (r.1, (e, v) :: r.2)
    | .eq => (some v, (e, x) :: m)
    | .lt => (none, (k, x) :: (e, v) :: m)

/-- `BTreeMap::remove`. -/
def remove : RangeMap α → RKey → RangeMap α
  | [], _ => []
  | (e, v) :: m, k =>
    match k.cmp e with
    | .gt => (e, v) :: remove m k
    | .eq => m
    | .lt => (e, v) :: m

/-- `BTreeMap::range(k..)`: the entries from the first that is not below `k`. -/
def seek : RangeMap α → RKey → RangeMap α
  | [], _ => []
  | (e, v) :: m, k =>
    match k.cmp e with
    | .gt => seek m k
    | _ => (e, v) :: m

/-- A search tree; a B-tree node with several keys is a chain of right children. -/
inductive Tree (α : Type)
  | leaf
  | node (l : Tree α) (k : RKey) (v : α) (r : Tree α)

/-- In-order entries of a tree. -/
def Tree.entries : Tree α → RangeMap α
  | .leaf => []
  | .node l k v r => l.entries ++ (k, v) :: r.entries

/-- Search by descent. -/
def Tree.search : Tree α → RKey → Option (RKey × α)
  | .leaf, _ => none
  | .node l e v r, k =>
    match k.cmp e with
    | .gt => r.search k
    | .eq => some (e, v)
    | .lt => l.search k

end RangeMap

/-! ### Allocation maps of physical registers -/
namespace PregMap

/-- Value in a register's map: `none` is `LiveRangeIndex::invalid()`, a fixed
reservation; otherwise a live range. -/
abbrev PMap := RangeMap (Option Nat)

/-- `/repo/src/ion/process.rs:32-38` `AllocRegResult`; `Allocated` carries the new map. -/
inductive AllocRegResult
  | Allocated (m : PMap)
  | Conflict (bundles : List Nat) (p : Nat)
  | ConflictWithFixed (w p : Nat)
  | ConflictHighCost
  deriving Repr

/-- Loop that skips entries below the range, `/repo/src/ion/process.rs:105-137`. `none`
if the fuel runs out. -/
def skipLoop (m : PMap) (key : RKey) : Nat → Nat → PMap → Option PMap
  | 0, _, _ => none
  | _ + 1, _, [] => some []
  | fuel + 1, skips, (e, v) :: rest =>
    if e.cmp key = .lt then
      if skips + 1 ≥ 16 then skipLoop m key fuel 0 (RangeMap.seek m ⟨key.fr, key.fr⟩)
      else skipLoop m key fuel (skips + 1) rest
    else some ((e, v) :: rest)

/-- State of the scan. -/
structure Scan where
  rest : PMap
  conflicts : List Nat
  maxWeight : Nat
  first : Option Nat
  deriving Repr

/-- How the scan of one bundle range ends. -/
inductive Step
  | next (s : Scan)
  | stop (s : Scan)
  | ret (r : AllocRegResult)

/-- What is fixed during a scan: bundle of each live range, weight of each bundle,
and the cost limit. -/
structure ScanEnv where
  bundleOf : Nat → Nat
  weight : Nat → Nat
  maxCost : Option Nat

/-- Update of `first_conflict`, `/repo/src/ion/process.rs:174-179`. -/
def firstPoint (first : Option Nat) (e key : RKey) : Option Nat :=
  match first with
  | some p => some p
  | none => some (max e.fr key.fr)

/-- `'alloc` loop, `/repo/src/ion/process.rs:105-188`. -/
def rangeLoop (se : ScanEnv) (m : PMap) (key : RKey) : Nat → Scan → Option Step
  | 0, _ => none
  | fuel + 1, s =>
    match skipLoop m key (s.rest.length + 1) 0 s.rest with
    | none => none
    | some [] => some (.stop { s with rest := [] })
    | some ((e, v) :: rest) =>
      if e.cmp key = .gt then some (.next { s with rest := (e, v) :: rest })
      else
        match v with
        | none => some (.ret (.ConflictWithFixed s.maxWeight e.fr))
        | some i =>
          let b := se.bundleOf i
          let first := firstPoint s.first e key
          if b ∈ s.conflicts then rangeLoop se m key fuel { s with rest := rest, first := first }
          else
            let w := max s.maxWeight (se.weight b)
            if (match se.maxCost with
                | some c => decide (w > c)
                | none => false) then some (.ret .ConflictHighCost)
            else rangeLoop se m key fuel ⟨rest, s.conflicts ++ [b], w, first⟩

/-- `'ranges` loop, `/repo/src/ion/process.rs:99-189`. -/
def scanRanges (se : ScanEnv) (m : PMap) : List (RKey × Nat) → Scan → Option (Scan ⊕ AllocRegResult)
  | [], s => some (.inl s)
  | (key, _) :: rs, s =>
    match rangeLoop se m key (m.length + 1) s with
    | none => none
    | some (.ret r) => some (.inr r)
    | some (.stop s) => some (.inl s)
    | some (.next s) => scanRanges se m rs s

/-- Insertion of the bundle's ranges, `/repo/src/ion/process.rs:199-209`; `none` if the
debug assertion that nothing was there fails. -/
def insertAll : List (RKey × Nat) → PMap → Option PMap
  | [], m => some m
  | (k, i) :: rs, m =>
    match RangeMap.insert m k (some i) with
    | (none, m) => insertAll rs m
    | (some _, _) => none

/-- `/repo/src/ion/process.rs:53-212` `try_to_allocate_bundle_to_reg` on the map of
the register; `rs` are the bundle's ranges. `none` is a panic. -/
def tryAlloc (se : ScanEnv) (m : PMap) (rs : List (RKey × Nat)) : Option AllocRegResult :=
  match rs with
  | [] => none
  | (k0, _) :: _ =>
    match scanRanges se m rs ⟨RangeMap.seek m ⟨k0.fr, k0.fr⟩, [], 0, none⟩ with
    | none => none
    | some (.inr r) => some r
    | some (.inl s) =>
      match s.conflicts, s.first with
      | [], _ => (insertAll rs m).map .Allocated
      | _ :: _, none => none
      | cs, some p => some (.Conflict cs p)

/-- Removal loop of `/repo/src/ion/process.rs:232-239` `evict_bundle`. -/
def evict (m : PMap) (rs : List (RKey × Nat)) : PMap := rs.foldl (fun m r => RangeMap.remove m r.1) m

/-- `/repo/src/ion/liveranges.rs:262-270` `add_liverange_to_preg`; `none` when the debug
assertion fails. -/
def reserve (m : PMap) (k : RKey) : Option PMap :=
  match RangeMap.insert m k none with
  | (none, m) => some m
  | (some _, _) => none

/-- All registers' maps and the bundles, for histories. `ranges b` are the ranges of
bundle `b`, `bundleOf` inverts it, `alloc b` is the register it holds. -/
structure Pool where
  maps : Nat → PMap
  ranges : Nat → List (RKey × Nat)
  bundleOf : Nat → Nat
  alloc : Nat → Option Nat

/-- `try_to_allocate_bundle_to_reg` on the pool: the result and the new pool. -/
def Pool.tryAlloc (s : Pool) (weight : Nat → Nat) (maxCost : Option Nat) (b p : Nat) : Option (AllocRegResult × Pool) :=
  match PregMap.tryAlloc ⟨s.bundleOf, weight, maxCost⟩ (s.maps p) (s.ranges b) with
  | none => none
  | some (.Allocated m) =>
    some (.Allocated m, { s with
      maps := fun q => if q = p then m else s.maps q
      alloc := fun c => if c = b then some p else s.alloc c })
  | some r => some (r, s)

/-- `/repo/src/ion/process.rs:214-244` `evict_bundle` on the pool (the requeue aside). -/
def Pool.evict (s : Pool) (b : Nat) : Pool :=
  match s.alloc b with
  | none => s
  | some p => { s with
      maps := fun q => if q = p then PregMap.evict (s.maps p) (s.ranges b) else s.maps q
      alloc := fun c => if c = b then none else s.alloc c }

end PregMap
end Regalloc
