import Verif.Model.Process
import Verif.Spec.Split
import Verif.Spec.Merge
import Verif.Spec.Requirement
import Verif.Spec.RangeMap

/-
Specification for C40: what the allocation loop is given and what it must leave behind.
-/
namespace Regalloc.Ion

/-- The range `e` is in bundle `c`. -/
def Live (st : St) (c : Nat) (e : Entry) : Prop := c < st.nBundles ∧ e ∈ (st.bundles c).ranges

/-- `e`, in bundle `c` of state `st`, is a part of `e0` of bundle `b` in state `st0`. Both
have the same spill set and registers; the part starts where the whole does or before an
instruction, and has uses of the whole only. A part that starts where the whole does has the
definition of the whole, if there is one. -/
structure Origin (st0 st : St) (c : Nat) (e : Entry) (b : Nat) (e0 : Entry) : Prop where
  set : (st.bundles c).spillset = (st0.bundles b).spillset
  start : e0.range.fr ≤ e.range.fr
  stop : e.range.to ≤ e0.range.to
  cut : e.range.fr = e0.range.fr ∨ e.range.fr % 2 = 0
  owner : ∀ w, Owns st w e.index ↔ Owns st0 w e0.index
  uses : ∀ u ∈ (st.ranges e.index).uses, u ∈ (st0.ranges e0.index).uses
  first : e.range.fr = e0.range.fr → ∀ d ∈ (st0.ranges e0.index).uses, d.op.kind = .Def → d ∈ (st.ranges e.index).uses

/-- A range as it has to be: the entry and the record agree, it is not empty, it knows its
bundle, belongs to one register, contains its uses, is marked iff it has a definition, which
is at its start, and then it contains the rest of that instruction. It does not start within
an instruction other than by a definition. -/
structure Neat (st : St) (c : Nat) (e : Entry) : Prop where
  range : (st.ranges e.index).range = e.range
  index : e.index < st.nRanges
  nonempty : e.range.fr < e.range.to
  link : (st.ranges e.index).bundle = some c
  owner : ∃ v, ∀ w, Owns st w e.index ↔ w = v
  inside : ∀ u ∈ (st.ranges e.index).uses, Covers e.range u.pos
  flag : Flagged (st.ranges e.index)
  defStart : ∀ d ∈ (st.ranges e.index).uses, d.op.kind = .Def → d.pos = e.range.fr ∧ 2 * (e.range.fr / 2) + 2 ≤ e.range.to
  odd : e.range.fr % 2 = 1 → ∃ d ∈ (st.ranges e.index).uses, d.op.kind = .Def
  nodup : (st.ranges e.index).uses.Nodup

/-- What a range that may be split needs besides. -/
structure Sharp (st : St) (e : Entry) : Prop where
  vreg : ∃ v, (st.ranges e.index).vreg = some v ∧ Owns st v e.index
  sorted : (st.ranges e.index).uses.Pairwise (fun a b => a.pos ≤ b.pos)
  defFirst : DefFirst e (st.ranges e.index).uses

/-- Register `p` may be given to ranges of spill set `t`: it is allocatable for the class of
the set, or a use in a range of the set asks for it by name. -/
def Eligible (env : MachineEnv) (st0 : St) (t : Nat) (p : PReg) : Prop :=
  (env.preferred (st0.spillsets t).cls).contains p = true ∨ (env.nonPreferred (st0.spillsets t).cls).contains p = true ∨
  ∃ b0 e0, Live st0 b0 e0 ∧ (st0.bundles b0).spillset = t ∧ ∃ u ∈ (st0.ranges e0.index).uses, u.op.constraint = .FixedReg p

/-- What the loop may rely on: the entry of a block lies after the instructions of earlier
blocks and not after those of its own and later ones, ranges end within the program, and a
register that can be allocated is not a stack slot. -/
structure Setting (P : Params) (st0 : St) : Prop where
  blocks : ∀ i j k, i < P.numInsts → j < P.numInsts → P.insnBlock i < k → k ≤ P.insnBlock j →
    2 * i < P.blockEntry k ∧ P.blockEntry k ≤ 2 * j
  inside : ∀ c e, Live st0 c e → e.range.to ≤ 2 * P.numInsts
  allocatable : ∀ cls p, (P.env.preferred cls).contains p = true ∨ (P.env.nonPreferred cls).contains p = true →
    p ∉ P.env.fixedStackSlots

/-- There are registers to choose from: for every use that asks for any register of a class,
and for every use that asks for one below a limit. -/
structure Supply (P : Params) (st0 : St) : Prop where
  reg : ∀ c e, Live st0 c e → ∀ u ∈ (st0.ranges e.index).uses,
    (u.op.constraint = .Reg ∨ ∃ k, u.op.constraint = .Reuse k) →
    ∃ p, (P.env.preferred (st0.spillsets (st0.bundles c).spillset).cls).contains p = true ∨
      (P.env.nonPreferred (st0.spillsets (st0.bundles c).spillset).cls).contains p = true
  limit : ∀ c e, Live st0 c e → ∀ u ∈ (st0.ranges e.index).uses, ∀ n, u.op.constraint = .Limit n →
    ∃ p, ((P.env.preferred (st0.spillsets (st0.bundles c).spillset).cls).contains p = true ∨
      (P.env.nonPreferred (st0.spillsets (st0.bundles c).spillset).cls).contains p = true) ∧ p.hwEnc < n

/-- The sum of the weights of the ranges of a bundle depends on those ranges only. -/
def LocalTotal (P : Params) : Prop := ∀ st st' b, (st'.bundles b).ranges = (st.bundles b).ranges →
  (∀ e ∈ (st.bundles b).ranges, st'.ranges e.index = st.ranges e.index) → P.total st' b = P.total st b

/-- `u` is a use of a range in a bundle. -/
def Recorded (st : St) (u : Use) : Prop := ∃ c e, Live st c e ∧ u ∈ (st.ranges e.index).uses

/-- Limits are those that an operand can have (`Operand::new`). -/
def LimitsOk (st : St) : Prop := ∀ u, Recorded st u → ∀ n, u.op.constraint = .Limit n → n ≤ PReg.MAX + 1

/-- What keeps the use `u` from register `p` at a point where `u` needs its place: a
reservation (`none`), or another operand of the instruction, which does not accept any place
but accepts `p`, and needs its place at that point, too. -/
def Keeps (P : Params) (q : PSt) (u : Use) (p : PReg) : Option Use → Prop
  | none => ∃ k x, (k, none) ∈ q.maps p ∧ Covers k x ∧ Needed u x
  | some u' => Recorded q.st u' ∧ u'.pos / 2 = u.pos / 2 ∧ u'.slot ≠ u.slot ∧ u'.op.constraint ≠ .Any ∧
      u'.op.constraint.Admits P.env (Place.ofPReg P.env p) ∧ ∃ x, Needed u x ∧ Needed u' x

/-- Register `p` is one that the use `u`, of a range in bundle `c`, may be given. -/
def Wants (P : Params) (st : St) (c : Nat) (u : Use) (p : PReg) : Prop :=
  ((P.env.preferred (st.spillsets (st.bundles c).spillset).cls).contains p = true ∨
    (P.env.nonPreferred (st.spillsets (st.bundles c).spillset).cls).contains p = true) ∧
  ∀ n, u.op.constraint = .Limit n → p.hwEnc < n

/-- The instruction of `u` asks for more registers than there are: `u` wants a register, of a
class or below a limit, and each that it may have is reserved or goes to another operand of
the instruction, each to a different one. -/
def Crowded (P : Params) (q : PSt) : Prop :=
  ∃ c e u, Live q.st c e ∧ u ∈ (q.st.ranges e.index).uses ∧
    (u.op.constraint = .Reg ∨ (∃ k, u.op.constraint = .Reuse k) ∨ ∃ n, u.op.constraint = .Limit n) ∧
    ∃ taken : PReg → Option Use, (∀ p, Wants P q.st c u p → Keeps P q u p (taken p)) ∧
      ∀ p p', Wants P q.st c u p → Wants P q.st c u p' → taken p = taken p' → taken p ≠ none → p = p'

/-- An operand asks for a register by name that is reserved where it is needed, or that
another operand asks for by name at the same point. -/
def Clash (P : Params) (q : PSt) : Prop :=
  ∃ u p o, Recorded q.st u ∧ u.op.constraint = .FixedReg p ∧ Keeps P q u p o ∧ ∀ u', o = some u' → u'.op.constraint = .FixedReg p

/-- An operand that wants a register is live at the first point of the program. -/
def AtStart (q : PSt) : Prop :=
  ∃ c e u, Live q.st c e ∧ u ∈ (q.st.ranges e.index).uses ∧ e.range.fr = 0 ∧ Needed u 0 ∧
    (u.op.constraint = .Reg ∨ (∃ k, u.op.constraint = .Reuse k) ∨ ∃ n, u.op.constraint = .Limit n)

/-- The state before the loop, as `merge_vreg_bundles` leaves it: ranges are in shape and in
their bundles and register lists, no two bundles with ranges share a spill set, no bundle has
a register, the lists are empty, and the maps of the registers hold reservations only. -/
structure Ready (q : PSt) : Prop where
  neat : ∀ c e, Live q.st c e → Neat q.st c e ∧ Sharp q.st e
  once : ∀ c e c' e', Live q.st c e → Live q.st c' e' →
    ∀ u ∈ (q.st.ranges e.index).uses, ∀ u' ∈ (q.st.ranges e'.index).uses,
    u.pos / 2 = u'.pos / 2 → u.slot = u'.slot → e.index = e'.index ∧ u = u'
  tidy : ∀ c < q.st.nBundles, Tidy (q.st.bundles c).ranges
  vregs : VregsOk q.st
  housed : ∀ v, ∀ e ∈ q.st.vregs v, ∃ c, Live q.st c e
  sets : ∀ c c', c < q.st.nBundles → c' < q.st.nBundles → (q.st.bundles c).ranges ≠ [] → (q.st.bundles c').ranges ≠ [] →
    (q.st.bundles c).spillset = (q.st.bundles c').spillset → c = c'
  known : ∀ c < q.st.nBundles, (q.st.bundles c).spillset < q.st.nSpillsets
  span : ∀ c < q.st.nBundles, SpanOk q.st c
  fresh : ∀ c < q.st.nBundles, (q.st.bundles c).alloc = none
  unspilled : ∀ t, (q.st.spillsets t).spillBundle = none ∧ (q.st.spillsets t).hint = none
  lists : q.st.queue = [] ∧ q.st.spilled = []
  maps : ∀ p, RangesSorted (q.maps p) ∧ ∀ x ∈ q.maps p, x.2 = none

/-- Range `e` has one use, which asks for a particular place, and stays within its
instruction. -/
def Pinned (st : St) (e : Entry) : Prop :=
  ∃ u, (st.ranges e.index).uses = [u] ∧ u.op.constraint ≠ .Any ∧ 2 * (u.pos / 2) ≤ e.range.fr ∧ e.range.to ≤ 2 * (u.pos / 2) + 2

/-- The state the allocation must leave behind. -/
structure Placed (P : Params) (q0 q : PSt) : Prop where
  /-- ranges are in shape, and are parts of those there were -/
  neat : ∀ c e, Live q.st c e → Neat q.st c e
  parts : ∀ c e, Live q.st c e → ∃ b0 e0, Live q0.st b0 e0 ∧ Origin q0.st q.st c e b0 e0
  /-- nothing got lost -/
  cover : ∀ b0 e0, Live q0.st b0 e0 → ∀ p, Covers e0.range p →
    ∃ c e, Live q.st c e ∧ Origin q0.st q.st c e b0 e0 ∧ Covers e.range p
  uses : ∀ b0 e0, Live q0.st b0 e0 → ∀ u ∈ (q0.st.ranges e0.index).uses,
    ∃ c e, Live q.st c e ∧ Origin q0.st q.st c e b0 e0 ∧ u ∈ (q.st.ranges e.index).uses
  /-- a use is recorded in one range -/
  once : ∀ c e c' e', Live q.st c e → Live q.st c' e' → ∀ u ∈ (q.st.ranges e.index).uses, ∀ u' ∈ (q.st.ranges e'.index).uses,
    u.pos / 2 = u'.pos / 2 → u.slot = u'.slot → e.index = e'.index ∧ u = u'
  /-- a register is one the range may have, and serves all its uses -/
  register : ∀ c e p, Live q.st c e → (q.st.bundles c).alloc = some p →
    Eligible P.env q0.st (q.st.bundles c).spillset p ∧
    ∀ u ∈ (q.st.ranges e.index).uses, u.op.constraint.Admits P.env (Place.ofPReg P.env p)
  /-- a range without a register gets a slot, which serves all its uses -/
  slot : ∀ c e, Live q.st c e → (q.st.bundles c).alloc = none → (q.st.spillsets (q.st.bundles c).spillset).required = true ∧
    ∀ u ∈ (q.st.ranges e.index).uses, ∀ n, u.op.constraint.Admits P.env (.slot n)
  /-- ranges in one register do not overlap -/
  apart : ∀ c e c' e' p, Live q.st c e → Live q.st c' e' → (q.st.bundles c).alloc = some p → (q.st.bundles c').alloc = some p →
    e.index ≠ e'.index → Apart e.range e'.range
  /-- nor do they overlap reservations of the register -/
  reserved : ∀ c e p k, Live q.st c e → (q.st.bundles c).alloc = some p → (k, none) ∈ q0.maps p → Apart e.range k
  /-- ranges that share a slot belong to one register where they overlap -/
  shared : ∀ c e c' e', Live q.st c e → Live q.st c' e' → (q.st.bundles c).spillset = (q.st.bundles c').spillset →
    ¬ Apart e.range e'.range → ∀ w, Owns q.st w e.index ↔ Owns q.st w e'.index
  /-- ranges of one register overlap only where one of them serves a single use -/
  pinned : ∀ c e c' e' w, Live q.st c e → Live q.st c' e' → Owns q.st w e.index → Owns q.st w e'.index → e.index ≠ e'.index →
    Apart e.range e'.range ∨ Pinned q.st e ∨ Pinned q.st e'
  /-- the spill set knows how far its ranges extend, and its class -/
  span : ∀ c < q.st.nBundles, SpanOk q.st c
  cls : ∀ t, (q.st.spillsets t).cls = (q0.st.spillsets t).cls
  extent : ∀ t, (q.st.spillsets t).range = (q0.st.spillsets t).range
  known : q.st.nSpillsets = q0.st.nSpillsets ∧ ∀ c e, Live q.st c e → (q.st.bundles c).spillset < q.st.nSpillsets
  /-- the lists of the registers have the ranges in bundles, each once -/
  housed : ∀ v, ∀ e ∈ q.st.vregs v, ∃ c e', Live q.st c e' ∧ e'.index = e.index
  listed : ∀ v, ((q.st.vregs v).map (·.index)).Nodup
  /-- the map of a register has the reservations and the ranges placed there, in order -/
  held : ∀ c e p, Live q.st c e → (q.st.bundles c).alloc = some p → (e.range, some e.index) ∈ q.maps p
  maps : ∀ p, RangesSorted (q.maps p) ∧ ∀ k, (k, none) ∈ q.maps p ↔ (k, none) ∈ q0.maps p
  /-- nothing is left to do -/
  queue : q.st.queue = []

end Regalloc.Ion
