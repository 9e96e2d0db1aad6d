import Verif.Spec.Ion
import Verif.Model.Split
import Mathlib.Data.List.Forall2

/-
Specification for C31: cutting the ranges of a bundle into pieces.
-/
namespace Regalloc.Ion

/-- The range with index `i` is in the list of register `v`. -/
def Owns (st : St) (v i : Nat) : Prop := ∃ e ∈ st.vregs v, e.index = i

/-- `a` is a part of `b`, and where it was cut, it was cut before an instruction, never
between the early and the late point of one (early points are even). -/
def PieceOf (a b : RKey) : Prop :=
  b.fr ≤ a.fr ∧ a.to ≤ b.to ∧ (a.fr = b.fr ∨ a.fr % 2 = 0) ∧ (a.to = b.to ∨ a.to % 2 = 0)

/-- All uses of a list of ranges, in order. -/
def usesIn (st : St) (es : List Entry) : List Use := es.flatMap (fun e => (st.ranges e.index).uses)

/-- In state `st`, the ranges `es` are the ranges `es0` of state `st0` cut into pieces: they
are in order and disjoint, cover the same points, each is part of one old range and belongs
to the same registers, every use is attached to a piece that contains it, and the uses as
a whole are the same, in the same order. No other range is changed. -/
structure Refines (st0 : St) (es0 : List Entry) (st : St) (es : List Entry) : Prop where
  tidy : Tidy es
  range : ∀ e ∈ es, (st.ranges e.index).range = e.range ∧ e.index < st.nRanges
  piece : ∀ e ∈ es, ∃ e0 ∈ es0, PieceOf e.range e0.range ∧ ∀ v, Owns st v e.index ↔ Owns st0 v e0.index
  cover : ∀ e0 ∈ es0, ∀ p, Covers e0.range p → ∃ e ∈ es, Covers e.range p
  inside : ∀ e ∈ es, ∀ u ∈ (st.ranges e.index).uses, Covers e.range u.pos
  sorted : ∀ e ∈ es, (st.ranges e.index).uses.Pairwise (fun a b => a.pos ≤ b.pos)
  uses : usesIn st es = usesIn st0 es0
  index : ∀ e ∈ es, st0.nRanges ≤ e.index ∨ ∃ e0 ∈ es0, e0.index = e.index
  others : ∀ j < st0.nRanges, (∀ e ∈ es0, e.index ≠ j) → st.ranges j = st0.ranges j
  grow : st0.nRanges ≤ st.nRanges

/-- What a bundle must look like for splitting it to make sense. -/
structure Splittable (st : St) (b : Nat) : Prop where
  bundle : b < st.nBundles
  nonempty : (st.bundles b).ranges ≠ []
  tidy : Tidy (st.bundles b).ranges
  range : ∀ e ∈ (st.bundles b).ranges, (st.ranges e.index).range = e.range ∧ e.index < st.nRanges
  link : ∀ e ∈ (st.bundles b).ranges, (st.ranges e.index).bundle = some b
  vreg : ∀ e ∈ (st.bundles b).ranges, ∃ v, (st.ranges e.index).vreg = some v ∧ ∀ w, Owns st w e.index ↔ w = v
  inside : ∀ e ∈ (st.bundles b).ranges, ∀ u ∈ (st.ranges e.index).uses, Covers e.range u.pos
  sorted : ∀ e ∈ (st.bundles b).ranges, (st.ranges e.index).uses.Pairwise (fun a b => a.pos ≤ b.pos)
  fresh : ∀ v, ∀ e ∈ st.vregs v, e.index < st.nRanges
  spill : ∀ s, (st.spillsets (st.bundles b).spillset).spillBundle = some s → s ≠ b ∧ s < st.nBundles

/-- The ranges in the spill bundle of a spill set. -/
def spillRanges (st : St) (ss : Nat) : List Entry :=
  match (st.spillsets ss).spillBundle with
  | some s => (st.bundles s).ranges
  | none => []

/-- A definition comes at the start of its range, there is at most one, and the uses of the
value come in later instructions. -/
structure DefFirst (e : Entry) (us : List Use) : Prop where
  start : ∀ d ∈ us, d.op.kind = .Def → d.pos = e.range.fr
  later : ∀ d ∈ us, d.op.kind = .Def → ∀ u ∈ us, u.op.kind = .Use → d.pos / 2 < u.pos / 2
  single : (us.filter (fun u => decide (u.op.kind = .Def))).length ≤ 1

/-- A range is marked as starting at a definition iff it has recorded one. -/
def Flagged (r : LRange) : Prop := r.startsAtDef = true ↔ ∃ u ∈ r.uses, u.op.kind = .Def

/-- The use needs its place at point `x`: a read from the start of its instruction up to its
position, a definition from its position up to the end of its instruction. -/
def Needed (u : Use) (x : Nat) : Prop :=
  x / 2 = u.pos / 2 ∧ (u.op.kind = .Use → x ≤ u.pos) ∧ (u.op.kind = .Def → u.pos ≤ x)

/-- A single range without a use, or with one use that it is there for; `fixed` tells whether
that asks for a register by name. -/
def FewUses (st : St) (es : List Entry) (fixed : Bool) : Prop := ∃ e, es = [e] ∧
  (((st.ranges e.index).uses = [] ∧ fixed = false) ∨
    ∃ u, (st.ranges e.index).uses = [u] ∧ (∀ x, Covers e.range x → Needed u x) ∧
      (fixed = true ↔ ∃ p, u.op.constraint = .FixedReg p))

/-- `st'` is `st` with bundle `b` split at point `p` into `b` and the new bundle `nb`;
`moved` went to the spill bundle. -/
structure Halved (st : St) (b : Nat) (st' : St) (nb p : Nat) (moved : List Entry) : Prop where
  point : p % 2 = 0
  inner : (∃ e ∈ (st.bundles b).ranges, e.range.fr < p) ∧ ∃ e ∈ (st.bundles b).ranges, p < e.range.to
  parts : ∃ left right, moved.Perm (left ++ right) ∧
    Refines st (st.bundles b).ranges st' ((st'.bundles b).ranges ++ left ++ right ++ (st'.bundles nb).ranges) ∧
    (∀ e ∈ (st'.bundles b).ranges ++ left, e.range.to ≤ p) ∧
    (∀ e ∈ right ++ (st'.bundles nb).ranges, p ≤ e.range.fr)
  spilled : spillRanges st' (st.bundles b).spillset = spillRanges st (st.bundles b).spillset ++ moved
  unused : ∀ e ∈ moved, (st'.ranges e.index).uses = []
  linkOld : ∀ e ∈ (st'.bundles b).ranges, (st'.ranges e.index).bundle = some b
  linkNew : ∀ e ∈ (st'.bundles nb).ranges, (st'.ranges e.index).bundle = some nb
  linkSpill : ∀ e ∈ moved, ∃ s, (st'.spillsets (st.bundles b).spillset).spillBundle = some s ∧
    (st'.ranges e.index).bundle = some s
  sets : (st'.bundles b).spillset = (st.bundles b).spillset ∧ (st'.bundles nb).spillset = (st.bundles b).spillset
  live : ∀ e, e ∈ (st'.bundles b).ranges ∨ e ∈ (st'.bundles nb).ranges →
    ∃ v, (st'.ranges e.index).vreg = some v ∧ ∀ w, Owns st' w e.index ↔ w = v
  /-- marks stay right -/
  flags : (∀ e ∈ (st.bundles b).ranges, Flagged (st.ranges e.index) ∧ DefFirst e (st.ranges e.index).uses) →
    ∀ e, e ∈ (st'.bundles b).ranges ∨ e ∈ moved ∨ e ∈ (st'.bundles nb).ranges → Flagged (st'.ranges e.index)
  /-- no range is lost or left over -/
  housed : ∀ i, (∃ e ∈ (st.bundles b).ranges, e.index = i) ∨ (st.nRanges ≤ i ∧ i < st'.nRanges) →
    ∃ e, (e ∈ (st'.bundles b).ranges ∨ e ∈ moved ∨ e ∈ (st'.bundles nb).ranges) ∧ e.index = i
  owners : ∀ w i, i < st.nRanges → (Owns st' w i ↔ Owns st w i)
  fresh : ∀ v, ∀ e ∈ st'.vregs v, e.index < st'.nRanges
  listed : (∀ v, ((st.vregs v).map (·.index)).Nodup) → ∀ v, ((st'.vregs v).map (·.index)).Nodup
  made : ∀ c, st.nBundles ≤ c → c < st'.nBundles → c = nb ∨ (st'.spillsets (st.bundles b).spillset).spillBundle = some c
  limits : ∀ c, c = b ∨ c = nb → (st'.bundles c).ranges ≠ [] → (st'.bundles c).limit = bundleLimit st' (st'.bundles c).ranges
  /-- a half counts as minimal only if it has a single range with at most one use -/
  minimal : ∀ c, c = b ∨ c = nb → (st'.bundles c).ranges ≠ [] → (st'.bundles c).minimal = true →
    FewUses st' (st'.bundles c).ranges (st'.bundles c).fixed
  new : nb = st.nBundles ∧ nb < st'.nBundles ∧ ∀ s, (st'.spillsets (st.bundles b).spillset).spillBundle = some s → s ≠ b ∧ s ≠ nb
  others : ∀ c < st.nBundles, c ≠ b → (st.spillsets (st.bundles b).spillset).spillBundle ≠ some c →
    st'.bundles c = st.bundles c

/-- The last range of the bundle ends with the instruction of its last use. -/
def TailTrimmed (st : St) (b : Nat) : Prop :=
  ∀ e, (st.bundles b).ranges.getLast? = some e →
    ∃ u ∈ (st.ranges e.index).uses, e.range.to ≤ 2 * (u.pos / 2) + 2

/-- The first range of the bundle starts at a definition or with the instruction of its
first use. -/
def HeadTrimmed (st : St) (b : Nat) : Prop :=
  ∀ e, (st.bundles b).ranges.head? = some e →
    (st.ranges e.index).startsAtDef = true ∨ ∃ u ∈ (st.ranges e.index).uses, 2 * (u.pos / 2) ≤ e.range.fr

/-- Every spill bundle is in the list of bundles to be given a slot. -/
def Registered (st : St) : Prop := ∀ ss s, (st.spillsets ss).spillBundle = some s → s ∈ st.spilled

/-! ### Splitting into minimal bundles -/

/-- `ps` are ranges that replace the range `r` at entry `e`. Uses that accept any location
are in ranges of the spill bundle, which end where the old range ended; every other use has a
range and bundle of its own that stays within its instruction; it starts at the definition,
and lasts to the end of the instruction, or starts with the instruction of the use and ends
right after the use. Together the
ranges have the uses of the old one and cover its points. Only ranges with a definition are
marked. -/
structure Replaces (spill : Nat) (e : Entry) (r : LRange) (ps : List LRange) : Prop where
  owner : ∀ p ∈ ps, p.vreg = r.vreg
  nonempty : ∀ p ∈ ps, p.range.fr < p.range.to
  uses : (ps.flatMap (fun p => p.uses)).Perm r.uses
  cover : ∀ q, Covers e.range q → ∃ p ∈ ps, Covers p.range q
  inside : ∀ p ∈ ps, ∀ u ∈ p.uses, Covers p.range u.pos
  kinds : ∀ p ∈ ps,
    (p.bundle = some spill ∧ (∀ u ∈ p.uses, u.op.constraint = .Any) ∧ PieceOf p.range e.range ∧
      p.range.to = e.range.to ∧ ∀ d ∈ r.uses, d.op.kind = .Def → d.op.constraint ≠ .Any → e.range.fr < p.range.fr) ∨
    (p.bundle ≠ some spill ∧ ∃ u ∈ r.uses, p.uses = [u] ∧ u.op.constraint ≠ .Any ∧
      2 * (u.pos / 2) ≤ p.range.fr ∧ p.range.to ≤ 2 * (u.pos / 2) + 2 ∧
      (u.op.kind = .Def → p.range.fr = u.pos ∧ p.range.to = 2 * (u.pos / 2) + 2) ∧
      (u.op.kind = .Use → p.range.fr = 2 * (u.pos / 2) ∧ p.range.to = u.pos + 1))
  flag : ∀ p ∈ ps, p.startsAtDef = true ↔ ∃ u ∈ p.uses, u.op.kind = .Def
  single : ∀ (k k' : Nat) p p', ps[k]? = some p → ps[k']? = some p' → p.bundle = some spill → p'.bundle = some spill → k = k'

/-- `st'` is `st` with bundle `b` dissolved: range `st.nRanges + k` of `st'` is the `k`th of
`ps`, the replacements of the ranges of `b` in order. -/
structure Dissolved (st : St) (b : Nat) (st' : St) (spill : Nat) (chunks : List (List LRange)) : Prop where
  replaced : List.Forall₂ (fun e ps => Replaces spill e (st.ranges e.index) ps) (st.bundles b).ranges chunks
  emptied : (st'.bundles b).ranges = []
  isSpill : (st'.spillsets (st.bundles b).spillset).spillBundle = some spill
  count : st'.nRanges = st.nRanges + chunks.flatten.length
  ranges : ∀ k p, chunks.flatten[k]? = some p → st'.ranges (st.nRanges + k) = p
  keptRanges : ∀ j < st.nRanges, (∀ e ∈ (st.bundles b).ranges, e.index ≠ j) → st'.ranges j = st.ranges j
  owners : ∀ w i, Owns st' w i ↔
    (i < st.nRanges ∧ (∀ e ∈ (st.bundles b).ranges, e.index ≠ i) ∧ Owns st w i) ∨
    ∃ k p, i = st.nRanges + k ∧ chunks.flatten[k]? = some p ∧ p.vreg = some w
  spilled : ∃ es, spillRanges st' (st.bundles b).spillset = spillRanges st (st.bundles b).spillset ++ es ∧
    (es.map (·.index)).Nodup ∧
    ∀ x, x ∈ es ↔ ∃ k p, x = ⟨p.range, st.nRanges + k⟩ ∧ chunks.flatten[k]? = some p ∧ p.bundle = some spill
  bundles : ∀ k p, chunks.flatten[k]? = some p → p.bundle ≠ some spill →
    ∃ c, st.nBundles ≤ c ∧ c < st'.nBundles ∧ p.bundle = some c ∧ (st'.bundles c).ranges = [⟨p.range, st.nRanges + k⟩] ∧
      (st'.bundles c).spillset = (st.bundles b).spillset ∧ (st'.bundles c).minimal = true ∧
      (∃ prio hint, (c, prio, hint) ∈ st'.queue) ∧
      ((st'.bundles c).fixed = true ↔ ∃ u ∈ p.uses, ∃ r, u.op.constraint = .FixedReg r)
  made : ∀ c, st.nBundles ≤ c → c < st'.nBundles →
    c = spill ∨ ∃ (k : Nat) (p : LRange), chunks.flatten[k]? = some p ∧ p.bundle = some c ∧ p.bundle ≠ some spill
  listed : (∀ v, ((st.vregs v).map (·.index)).Nodup) → ∀ v, ((st'.vregs v).map (·.index)).Nodup
  /-- each new bundle but the spill bundle is queued once -/
  queued : ∃ q, st'.queue = st.queue ++ q ∧ (q.map (·.1)).Nodup ∧
    ∀ c, c ∈ q.map (·.1) ↔ st.nBundles ≤ c ∧ c < st'.nBundles ∧ c ≠ spill
  limits : ∀ c, st.nBundles ≤ c → c < st'.nBundles → c ≠ spill → (st'.bundles c).ranges ≠ [] →
    (st'.bundles c).limit = bundleLimit st' (st'.bundles c).ranges
  keptBundles : ∀ c < st.nBundles, c ≠ b → (st.spillsets (st.bundles b).spillset).spillBundle ≠ some c →
    st'.bundles c = st.bundles c

end Regalloc.Ion
