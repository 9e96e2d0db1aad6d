import Verif.Proofs.PipeSlots
import Verif.Props.Process

/-! The ranges after the allocation loop, and their locations. -/
namespace Regalloc.Pipeline

open Apply (OpAt DefAt entryPt exitPt FRange)
open Build (InBlock DefinedAt UsedAt LiveAt PassedOn Covered usePoint defPoint recordPoint RecordedAs mem_blockInsts)
open Ion (Live Origin Owns Covers Entry)

/-- The loop and the assignment of slots have succeeded. -/
structure LoopOk (i : Input) (fr : Front) (q : Ion.PSt) (ss : Spill.State) (slots : List SpillSlot) (num : UInt32) : Prop where
  placed : Ion.Placed (params i fr.info) ⟨fr.st, reservations fr.b1.pregs⟩ q
  slotted : Slotted q.st ss slots num

/-- `R` is the range `e` of bundle `c`, a part of `e0` of bundle `b0`, which is the range `r0` of register `v`. -/
structure PartOf (i : Input) (fr : Front) (q : Ion.PSt) (loc : Nat → Allocation) (v : Nat) (R : FRange) (c : Nat) (e : Entry)
    (b0 : Nat) (e0 : Entry) (r0 : Build.LR) : Prop where
  live : Live q.st c e
  owns : Owns q.st v e.index
  range : R.range = e.range
  flag : R.startsAtDef = (q.st.ranges e.index).startsAtDef
  uses : R.uses = (q.st.ranges e.index).uses
  alloc : R.alloc = loc e.index
  live0 : Live fr.st b0 e0
  orig : Origin fr.st q.st c e b0 e0
  hv : v < i.f.numVregs
  mem : r0 ∈ fr.b1.ranges v
  stands : Stands fr.st e0 v r0
  neat : Ion.Neat q.st c e

section
variable {i : Input} (hp : ProgramOk i) {fr : Front} (hf : FrontOk i fr) {q : Ion.PSt} {ss : Spill.State} {slots : List SpillSlot}
  {num : UInt32} (hl : LoopOk i fr q ss slots num) {loc : Nat → Allocation}
include hp hf hl

omit hp hf in
theorem mem_final {v : Nat} {R : FRange} : R ∈ finalRanges i q.st loc v ↔ ∃ c e, Live q.st c e ∧ Owns q.st v e.index ∧
    R = ⟨e.range, (q.st.ranges e.index).startsAtDef, (q.st.ranges e.index).uses, loc e.index⟩ := by
  unfold finalRanges
  rw [mem_isort, (i.tie.perm _ _).mem_iff, List.mem_map]
  constructor
  · rintro ⟨x, hx, rfl⟩
    obtain ⟨c, e, h1, h2⟩ := hl.placed.housed v x hx
    refine ⟨c, e, h1, ⟨x, hx, h2.symm⟩, ?_⟩
    rw [← h2, (hl.placed.neat c e h1).range]
  · rintro ⟨c, e, h1, ⟨x, hx, h2⟩, rfl⟩
    refine ⟨x, hx, ?_⟩
    rw [h2, (hl.placed.neat c e h1).range]

theorem entry_part {v c : Nat} {e : Entry} (h1 : Live q.st c e) (h2 : Owns q.st v e.index) :
    ∃ b0 e0 r0, PartOf i fr q loc v ⟨e.range, (q.st.ranges e.index).startsAtDef, (q.st.ranges e.index).uses, loc e.index⟩ c e b0 e0 r0 := by
  have C := corr hp hf
  obtain ⟨b0, e0, h3, h4⟩ := hl.placed.parts c e h1
  obtain ⟨w, r0, h5, h6, h7⟩ := C.live b0 e0 h3
  obtain ⟨x, hx, hx2⟩ := (h4.owner v).mp h2
  have : v = w := C.owner v w x hx e0 h7.mem hx2
  subst this
  exact ⟨b0, e0, r0, h1, h2, rfl, rfl, rfl, rfl, h3, h4, h5, h6, h7, hl.placed.neat c e h1⟩

theorem part {v : Nat} {R : FRange} (h : R ∈ finalRanges i q.st loc v) : ∃ c e b0 e0 r0, PartOf i fr q loc v R c e b0 e0 r0 := by
  obtain ⟨c, e, h1, h2, rfl⟩ := (mem_final hl).mp h
  obtain ⟨b0, e0, r0, h3⟩ := entry_part hp hf hl (loc := loc) h1 h2
  exact ⟨c, e, b0, e0, r0, h3⟩

omit hp hf in
theorem PartOf.back {v : Nat} {R : FRange} {c b0 : Nat} {e e0 : Entry} {r0 : Build.LR} (h : PartOf i fr q loc v R c e b0 e0 r0) :
    R ∈ finalRanges i q.st loc v :=
  (mem_final hl).mpr ⟨c, e, h.live, h.owns, by cases R; simp only [FRange.mk.injEq]; exact ⟨h.range, h.flag, h.uses, h.alloc⟩⟩

/-- A part of the same range, from the state. -/
theorem PartOf.other {v : Nat} {R : FRange} {c b0 : Nat} {e e0 : Entry} {r0 : Build.LR} (h : PartOf i fr q loc v R c e b0 e0 r0)
    {c' : Nat} {e' : Entry} (h1 : Live q.st c' e') (h2 : Origin fr.st q.st c' e' b0 e0) :
    ∃ R' ∈ finalRanges i q.st loc v, PartOf i fr q loc v R' c' e' b0 e0 r0 := by
  have ho : Owns q.st v e'.index := (h2.owner v).mpr ((h.orig.owner v).mp h.owns)
  have hP : PartOf i fr q loc v ⟨e'.range, (q.st.ranges e'.index).startsAtDef, (q.st.ranges e'.index).uses, loc e'.index⟩ c' e' b0 e0 r0 :=
    ⟨h1, ho, rfl, rfl, rfl, rfl, h.live0, h2, h.hv, h.mem, h.stands, hl.placed.neat c' e' h1⟩
  exact ⟨_, hP.back hl, hP⟩

/-- The parts of a range that was built. -/
theorem covered_part {v : Nat} (hv : v < i.f.numVregs) {r0 : Build.LR} (hr : r0 ∈ fr.b1.ranges v) {p : Nat} (h1 : r0.range.fr ≤ p)
    (h2 : p < r0.range.to) : ∃ R ∈ finalRanges i q.st loc v, R.Has p ∧ ∃ c e b0 e0, PartOf i fr q loc v R c e b0 e0 r0 := by
  obtain ⟨b0, e0, h3, h4⟩ := (corr hp hf).back v hv r0 hr
  obtain ⟨c, e, h5, h6, h7⟩ := hl.placed.cover b0 e0 h3 p (by rw [h4.range]; exact ⟨h1, h2⟩)
  have ho : Owns q.st v e.index := (h6.owner v).mpr ⟨e0, h4.mem, rfl⟩
  have hP : PartOf i fr q loc v ⟨e.range, (q.st.ranges e.index).startsAtDef, (q.st.ranges e.index).uses, loc e.index⟩ c e b0 e0 r0 :=
    ⟨h5, ho, rfl, rfl, rfl, rfl, h3, h6, hv, hr, h4, hl.placed.neat c e h5⟩
  exact ⟨_, hP.back hl, h7, _, _, _, _, hP⟩

theorem used_part {v : Nat} (hv : v < i.f.numVregs) {r0 : Build.LR} (hr : r0 ∈ fr.b1.ranges v) {u : Ion.Use} (hu : u ∈ r0.uses) :
    ∃ R ∈ finalRanges i q.st loc v, u ∈ R.uses ∧ ∃ c e b0 e0, PartOf i fr q loc v R c e b0 e0 r0 := by
  obtain ⟨b0, e0, h3, h4⟩ := (corr hp hf).back v hv r0 hr
  obtain ⟨c, e, h5, h6, h7⟩ := hl.placed.uses b0 e0 h3 u (by rw [h4.uses]; exact hu)
  have ho : Owns q.st v e.index := (h6.owner v).mpr ⟨e0, h4.mem, rfl⟩
  have hP : PartOf i fr q loc v ⟨e.range, (q.st.ranges e.index).startsAtDef, (q.st.ranges e.index).uses, loc e.index⟩ c e b0 e0 r0 :=
    ⟨h5, ho, rfl, rfl, rfl, rfl, h3, h6, hv, hr, h4, hl.placed.neat c e h5⟩
  exact ⟨_, hP.back hl, h7, _, _, _, _, hP⟩

variable {v : Nat} {R : FRange} {c b0 : Nat} {e e0 : Entry} {r0 : Build.LR} (h : PartOf i fr q loc v R c e b0 e0 r0)
include h


end
end Regalloc.Pipeline
