import Verif.Model.Lib
import Verif.Model.RangeMap

/-
Model of spill-slot allocation: the index allocator shared by both algorithms
(`/repo/src/ion/spill.rs:159-172`, `/repo/src/fastalloc/mod.rs:86-104`), the slot
assignment of ion (`/repo/src/ion/spill.rs:70-157`) and the slot per virtual register
of fastalloc (`/repo/src/fastalloc/mod.rs:145-150`).
-/
namespace Regalloc.Spill

/-- `u32::is_power_of_two` (standard library). -/
def isPowerOfTwo (size : UInt32) : Bool := (List.range 32).any (fun k => size.toNat == 2 ^ k)

/-- `/repo/src/ion/spill.rs:159-172` `allocate_spillslot`, the same as
`/repo/src/fastalloc/mod.rs:86-104` `allocstack`, from the number of slots in use and
the size. The result is the slot and the new number of slots. `none` stands for the
debug assertions on the size and on the slot index (`/repo/src/lib.rs:514`) and for
32-bit overflow. -/
def allocSlot (byLast : Bool) (num size : UInt32) : Option (SpillSlot × UInt32) :=
  if isPowerOfTwo size then
    if num.toNat + size.toNat < 2 ^ 32 then
      let offset := (num + size - 1) &&& ~~~(size - 1)
      let slot := if byLast then offset + size - 1 else offset
      if offset.toNat + size.toNat < 2 ^ 32 ∧ slot.toNat ≤ SpillSlot.MAX then
        some (SpillSlot.new slot.toNat, offset + size)
      else none
    else none
  else none

/-- A sequence of requests. -/
def allocSlots (byLast : Bool) : UInt32 → List UInt32 → Option (List SpillSlot × UInt32)
  | num, [] => some ([], num)
  | num, size :: sizes =>
    match allocSlot byLast num size with
    | none => none
    | some (slot, num) =>
      match allocSlots byLast num sizes with
      | none => none
      | some (slots, num) => some (slot :: slots, num)

/-! ### Assignment of spill sets to slots (ion) -/

/-- Fields of `SpillSet` that matter here, `/repo/src/ion/data_structures.rs:274-283`. -/
structure SpillSet where
  required : Bool
  cls : RegClass
  range : RKey
  deriving Repr

/-- `/repo/src/ion/data_structures.rs:691-697` `SpillSlotData` without the final
allocation. -/
structure SlotData where
  ranges : RangeMap Nat
  slots : Nat
  deriving Repr

/-- `/repo/src/ion/data_structures.rs:700-704` `SpillSlotList`. -/
structure SlotList where
  slots : List Nat
  probeStart : Nat
  deriving Repr

/-- `/repo/src/ion/data_structures.rs:709-717` `next_index`. -/
def SlotList.nextIndex (l : SlotList) (i : Nat) : Nat := if i = l.slots.length - 1 then 0 else i + 1

/-- State of the assignment; `assigned x` is `spillsets[x].slot`. -/
structure State where
  slots : List SlotData
  byClass : RegClass → SlotList
  assigned : Nat → Option Nat

/-- `/repo/src/ion/spill.rs:70-81` `spillslot_can_fit_spillset`. -/
def canFit (d : SlotData) (range : RKey) : Bool := (RangeMap.find? d.ranges range).isNone

/-- Probe loop, `/repo/src/ion/spill.rs:113-136`: the index in the class list of the
first slot that fits. The outer `none` is an out-of-bounds index. -/
def probe (st : State) (l : SlotList) (range : RKey) : Nat → Nat → Option (Option Nat)
  | 0, _ => some none
  | n + 1, i =>
    match l.slots[i]? with
    | none => none
    | some s =>
      match st.slots[s]? with
      | none => none
      | some d => if canFit d range then some (some i) else probe st l range n (l.nextIndex i)

/-- `/repo/src/ion/spill.rs:83-96` `allocate_spillset_to_spillslot`; `none` when out of
bounds or when the debug assertion fails. -/
def assign (st : State) (x : Nat) (range : RKey) (s : Nat) : Option State :=
  match st.slots[s]? with
  | none => none
  | some d =>
    match RangeMap.insert d.ranges range x with
    | (none, r) => some { st with
        slots := st.slots.set s { d with ranges := r }
        assigned := fun y => if y = x then some s else st.assigned y }
    | (some _, _) => none

/-- One iteration of the loop of `/repo/src/ion/spill.rs:101-149`. -/
def step (size : RegClass → Nat) (st : State) (x : Nat) (ss : SpillSet) : Option State :=
  if ss.required = false then some st
  else
    let l := st.byClass ss.cls
    match probe st l ss.range (min l.slots.length 10) l.probeStart with
    | none => none
    | some (some i) =>
      match l.slots[i]? with
      | none => none
      | some s => assign { st with byClass := fun c => if c = ss.cls then { l with probeStart := i } else st.byClass c } x ss.range s
    | some none =>
      let s := st.slots.length
      assign { st with
        slots := st.slots ++ [⟨[], size ss.cls⟩]
        byClass := fun c => if c = ss.cls then ⟨l.slots ++ [s], (l.slots ++ [s]).length - 1⟩ else st.byClass c } x ss.range s

/-- The loop over the spill sets from index `x`. -/
def assignAll (size : RegClass → Nat) : State → Nat → List SpillSet → Option State
  | st, _, [] => some st
  | st, x, ss :: rest =>
    match step size st x ss with
    | none => none
    | some st => assignAll size st (x + 1) rest

/-- Start of `allocate_spillslots`. -/
def State.init : State := ⟨[], fun _ => ⟨[], 0⟩, fun _ => none⟩

/-- `/repo/src/ion/spill.rs:98-157` `allocate_spillslots`: the final state, the stack
slot of each spill slot and the number of slots in use. -/
def allocateSpillslots (byLast : Bool) (size : RegClass → Nat) (num : UInt32) (sets : List SpillSet) :
    Option (State × List SpillSlot × UInt32) :=
  match assignAll size State.init 0 sets with
  | none => none
  | some st =>
    match allocSlots byLast num (st.slots.map (fun d => UInt32.ofNat d.slots)) with
    | none => none
    | some (slots, num) => some (st, slots, num)

/-! ### One slot per virtual register (fastalloc) -/

/-- `/repo/src/fastalloc/mod.rs:145-150` `get_spillslot` on the table of slots and the
number of slots in use; `cls` is the class of the register. -/
def getSpillslot (byLast : Bool) (size : RegClass → UInt32) (tab : Nat → SpillSlot) (num : UInt32) (v : Nat) (cls : RegClass) :
    Option (SpillSlot × (Nat → SpillSlot) × UInt32) :=
  if (tab v).isInvalid then
    match allocSlot byLast num (size cls) with
    | none => none
    | some (slot, num) => some (slot, fun w => if w = v then slot else tab w, num)
  else some (tab v, tab, num)

/-- A sequence of requests `(vreg, class)`; the slots answered. -/
def getSpillslots (byLast : Bool) (size : RegClass → UInt32) : (Nat → SpillSlot) → UInt32 → List (Nat × RegClass) →
    Option (List SpillSlot × (Nat → SpillSlot) × UInt32)
  | tab, num, [] => some ([], tab, num)
  | tab, num, (v, c) :: rest =>
    match getSpillslot byLast size tab num v c with
    | none => none
    | some (slot, tab, num) =>
      match getSpillslots byLast size tab num rest with
      | none => none
      | some (slots, tab, num) => some (slot :: slots, tab, num)

end Regalloc.Spill
