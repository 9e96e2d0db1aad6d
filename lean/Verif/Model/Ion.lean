import Verif.Model.Function
import Verif.Model.RangeMap
import Verif.Model.Requirement

/-
Data structures of the backtracking allocator, `/repo/src/ion/data_structures.rs`.
Program points are numbers (`ptBefore`, `ptAfter`); a `CodeRange` is an `RKey`.
The arenas indexed by `LiveRangeIndex`, `LiveBundleIndex`, `SpillSetIndex` and
`VRegIndex` are functions on numbers with a count of the elements in use; the
"invalid" index is `none`. Spill weights and the packed words are modelled in
`Model/Weights.lean`; here the flags are separate Booleans.
-/
namespace Regalloc.Ion

/-- Assignment to one element of an arena. -/
def upd {α : Type} (g : Nat → α) (i : Nat) (x : α) : Nat → α := fun j => if j = i then x else g j

/-- `/repo/src/ion/data_structures.rs:178-198` `Use`; the cached weight is omitted. -/
structure Use where
  op : Op
  pos : Nat
  slot : Nat
  deriving DecidableEq, Repr

/-- `/repo/src/ion/data_structures.rs:110-114` `LiveRangeListEntry`. -/
structure Entry where
  range : RKey
  index : Nat
  deriving DecidableEq, Repr

/-- `/repo/src/ion/data_structures.rs:119-127` `LiveRange`, with the `StartsAtDef` flag
as a field and without the cached weight. -/
structure LRange where
  range : RKey
  vreg : Option Nat
  bundle : Option Nat
  startsAtDef : Bool
  uses : List Use
  deriving DecidableEq, Repr

/-- `/repo/src/ion/data_structures.rs:200-207` `LiveBundle`, with the packed flags as
fields; the allocation of a bundle is always a register. -/
structure Bundle where
  ranges : List Entry
  spillset : Nat
  alloc : Option PReg
  prio : Nat
  minimal : Bool
  fixed : Bool
  fixedDef : Bool
  stack : Bool
  limit : Option Nat
  deriving DecidableEq, Repr

/-- `/repo/src/ion/data_structures.rs:295-308` `SpillSet`. -/
structure SpillSet where
  slot : Option Nat
  hint : Option PReg
  cls : RegClass
  spillBundle : Option Nat
  required : Bool
  splits : Nat
  range : RKey
  deriving DecidableEq, Repr

/-- The part of `Ctx` (`/repo/src/ion/data_structures.rs:512-571`) that bundles are
made of. `vregs v` is the range list of `VRegData` (`:312-317`). -/
structure St where
  ranges : Nat → LRange
  nRanges : Nat
  bundles : Nat → Bundle
  nBundles : Nat
  spillsets : Nat → SpillSet
  nSpillsets : Nat
  vregs : Nat → List Entry
  queue : List (Nat × Nat × Option PReg)
  spilled : List Nat

/-- `/repo/src/ion/data_structures.rs:398-407` `LiveRanges::add`. -/
def LRange.fresh (r : RKey) : LRange := ⟨r, none, none, false, []⟩

/-- `/repo/src/ion/data_structures.rs:410-420` `LiveBundles::add`. The invalid spill set of
the fresh bundle is written over before it is read. -/
def Bundle.fresh : Bundle := ⟨[], 0, none, 0, false, false, false, false, none⟩

namespace St

/-- Assignment to fields of one bundle. -/
def modB (st : St) (b : Nat) (g : Bundle → Bundle) : St :=
  { st with bundles := upd st.bundles b (g (st.bundles b)) }

/-- Assignment to fields of one range. -/
def modR (st : St) (r : Nat) (g : LRange → LRange) : St :=
  { st with ranges := upd st.ranges r (g (st.ranges r)) }

/-- Assignment to fields of one spill set. -/
def modS (st : St) (s : Nat) (g : SpillSet → SpillSet) : St :=
  { st with spillsets := upd st.spillsets s (g (st.spillsets s)) }

/-- `for entry in list { self.ranges[entry.index].bundle = b }`. -/
def linkAll (st : St) (es : List Entry) (b : Nat) : St :=
  es.foldl (fun st e => st.modR e.index (fun r => { r with bundle := some b })) st

/-- The uses of a bundle as `compute_requirement` reads them. -/
def reqUses (st : St) (b : Nat) : List (List Requirement.ReqUse) :=
  (st.bundles b).ranges.map (fun e => (st.ranges e.index).uses.map (fun u => ⟨u.pos, u.op.constraint⟩))

end St
end Regalloc.Ion
