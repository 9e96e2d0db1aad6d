import Verif.Spec.Ion

/-
Specification for C33: what merging bundle `a` into bundle `b` may change.
-/
namespace Regalloc.Ion

/-- The range as an overlap test must see it: a bundle with a fixed-register definition
also occupies the first half of the instruction a range starts in
(`/repo/src/ion/merge.rs:83-90`). -/
def widened (b : Bundle) (r : RKey) : RKey := if b.fixedDef then ⟨2 * (r.fr / 2), r.to⟩ else r

/-- `st'` is `st` with the ranges of `a` moved into `b`, and nothing else changed but
cached properties of `b` and the extent of its spill set. -/
structure Merged (st st' : St) (a b : Nat) : Prop where
  emptied : (st'.bundles a).ranges = []
  union : ((st'.bundles b).ranges).Perm ((st.bundles a).ranges ++ (st.bundles b).ranges)
  tidy : Tidy (st'.bundles b).ranges
  links : ∀ e ∈ (st.bundles a).ranges, (st'.ranges e.index).bundle = some b
  otherLinks : ∀ j, (∀ e ∈ (st.bundles a).ranges, e.index ≠ j) → st'.ranges j = st.ranges j
  onlyLinks : ∀ j, { st'.ranges j with bundle := none } = { st.ranges j with bundle := none }
  otherBundles : ∀ c, c ≠ a → c ≠ b → st'.bundles c = st.bundles c
  keptA : { st'.bundles a with ranges := [] } = { st.bundles a with ranges := [] }
  keptB : (st'.bundles b).spillset = (st.bundles b).spillset ∧ (st'.bundles b).alloc = (st.bundles b).alloc
  spillsets : ∀ s, { st'.spillsets s with range := ⟨0, 0⟩ } = { st.spillsets s with range := ⟨0, 0⟩ } ∧
    (s ≠ (st.bundles b).spillset → st'.spillsets s = st.spillsets s)
  rest : st'.vregs = st.vregs ∧ st'.nRanges = st.nRanges ∧ st'.nBundles = st.nBundles ∧
    st'.nSpillsets = st.nSpillsets ∧ st'.queue = st.queue ∧ st'.spilled = st.spilled

/-- The extent recorded for a bundle's spill set covers the bundle. -/
def SpanOk (st : St) (b : Nat) : Prop :=
  ∀ e ∈ (st.bundles b).ranges, ∀ p, Covers e.range p → Covers (st.spillsets (st.bundles b).spillset).range p

/-- Consistency of bundles after the registers below `k` were given theirs: ranges are in
order and disjoint, every range knows its bundle, a bundle holds registers of the class
of its spill set, its flags and extent are right, and it is not allocated. -/
structure Consistent (cls : Nat → RegClass) (k : Nat) (st : St) : Prop where
  tidy : ∀ b < st.nBundles, Tidy (st.bundles b).ranges
  link : ∀ b < st.nBundles, ∀ e ∈ (st.bundles b).ranges,
    (st.ranges e.index).bundle = some b ∧ (st.ranges e.index).range = e.range
  cls : ∀ b < st.nBundles, ∀ e ∈ (st.bundles b).ranges, ∀ v, (st.ranges e.index).vreg = some v →
    cls v = (st.spillsets (st.bundles b).spillset).cls
  flags : ∀ b < st.nBundles, FlagsSound (st.bundles b) (usesOf st b)
  span : ∀ b < st.nBundles, SpanOk st b
  free : ∀ b < st.nBundles, (st.bundles b).alloc = none
  sets : ∀ b < st.nBundles, (st.bundles b).spillset < st.nSpillsets
  /-- every range of a register below `k` is in a bundle, and only such ranges are -/
  complete : ∀ v < k, ∀ e ∈ st.vregs v, ∃ b < st.nBundles, e ∈ (st.bundles b).ranges
  origin : ∀ b < st.nBundles, ∀ e ∈ (st.bundles b).ranges, ∃ v < k, e ∈ st.vregs v

/-- The range lists of the registers, as `build_liveranges` leaves them. -/
structure VregsOk (st : St) : Prop where
  tidy : ∀ v, Tidy (st.vregs v)
  own : ∀ v, ∀ e ∈ st.vregs v, (st.ranges e.index).vreg = some v ∧ (st.ranges e.index).range = e.range

end Regalloc.Ion
