import Verif.Proofs.PipeShape

/-! The locations of the final ranges. -/
namespace Regalloc.Pipeline

open Apply (OpAt DefAt entryPt exitPt FRange)
open Build (recordPoint mem_blockInsts)
open Ion (Live Origin Owns Covers Entry)

section
variable {i : Input} (hp : ProgramOk i) (hr : RegsOk i) {fr : Front} (hf : FrontOk i fr) {q : Ion.PSt} {ss : Spill.State} {slots : List SpillSlot}
  {num : UInt32} (hl : LoopOk i fr q ss slots num)

/-- The range is in a register. -/
def InReg (q : Ion.PSt) (c : Nat) (R : FRange) (p : PReg) : Prop := (q.st.bundles c).alloc = some p ∧ R.alloc = Allocation.reg p

/-- The range is in a slot. -/
def InSlot (q : Ion.PSt) (ss : Spill.State) (slots : List SpillSlot) (num : UInt32) (c : Nat) (R : FRange) : Prop :=
  (q.st.bundles c).alloc = none ∧ ∃ s slot, ss.assigned (q.st.bundles c).spillset = some s ∧ slots[s]? = some slot ∧
    R.alloc = Allocation.stack slot ∧ slot = SpillSlot.new slot.index ∧ slot.index ≤ SpillSlot.MAX ∧ slot.index < num.toNat

section
variable {v : Nat} {R : FRange} {c b0 : Nat} {e e0 : Entry} {r0 : Build.LR}
  (h : PartOf i fr q (allocOf q.st ss.assigned slots) v R c e b0 e0 r0)
include h

include hl in
theorem PartOf.place : (∃ p, InReg q c R p) ∨ InSlot q ss slots num c R := by
  have ha := h.alloc
  unfold allocOf at ha
  rw [h.neat.link] at ha
  dsimp only at ha
  cases hc : (q.st.bundles c).alloc with
  | some p =>
    rw [hc] at ha
    exact .inl ⟨p, hc, ha⟩
  | none =>
    rw [hc] at ha
    obtain ⟨s, slot, h1, h2, h3⟩ := hl.slotted.get _ (hl.placed.known.2 c e h.live) (hl.placed.slot c e h.live hc).1
    rw [h1] at ha
    simp only [Option.bind_some, h2] at ha
    exact .inr ⟨hc, s, slot, h1, h2, ha, h3⟩

include hl in
/-- Which register it is, if any. -/
theorem PartOf.reg_of {p : PReg} (ha : R.alloc = Allocation.reg p) : (q.st.bundles c).alloc = some p := by
  rcases h.place hl with ⟨p', h1, h2⟩ | ⟨-, s, slot, -, -, h2, h3, h4, -⟩
  · rw [h2] at ha
    rw [h1, C05_alloc_injective.1 _ _ ha]
  · rw [h2, h3] at ha
    exact absurd ha.symm (C05_alloc_injective.2.2.1 p _ h4)

include hp

theorem PartOf.class_some : (i.vreg v).class? = some (i.cls v) := by
  have := hp.classes v h.hv
  unfold Input.cls
  cases hc : (i.vreg v).class? with
  | none => exact absurd hc this
  | some c => rfl

include hf

theorem PartOf.class_set : (fr.st.spillsets (fr.st.bundles b0).spillset).cls = i.cls v :=
  ((corr hp hf).cons.cls b0 h.live0.1 e0 h.live0.2 v h.stands.vreg).symm

include hl in
theorem PartOf.class_set' : (q.st.spillsets (q.st.bundles c).spillset).cls = i.cls v := by
  rw [h.orig.set]
  have := hl.placed.cls (fr.st.bundles b0).spillset
  rw [this]
  exact h.class_set hp hf

include hr hl

/-- A register that is assigned is allocatable, or named by an operand of the class. -/
theorem PartOf.named {p : PReg} (hc : (q.st.bundles c).alloc = some p) : p.class? = some (i.cls v) ∧
    (Allocatable i.env p ∨ ∃ j k o, OpAt i.f j k o ∧ o.constraint = .FixedReg p) := by
  have he := (hl.placed.register c e p h.live hc).1
  rw [h.orig.set] at he
  have hs := h.class_set hp hf
  rcases he with he | he | ⟨b1, e1, h1, h2, u, h3, h4⟩
  · have he : (i.env.preferred (fr.st.spillsets (fr.st.bundles b0).spillset).cls).contains p = true := he
    rw [hs] at he
    exact ⟨(hr.alloc_ok _ p (.inl he)).1, .inl ⟨_, .inl he⟩⟩
  · have he : (i.env.nonPreferred (fr.st.spillsets (fr.st.bundles b0).spillset).cls).contains p = true := he
    rw [hs] at he
    exact ⟨(hr.alloc_ok _ p (.inr he)).1, .inl ⟨_, .inr he⟩⟩
  · have h1 : Live fr.st b1 e1 := h1
    have h2 : (fr.st.bundles b1).spillset = (fr.st.bundles b0).spillset := h2
    have h3 : u ∈ (fr.st.ranges e1.index).uses := h3
    obtain ⟨w, r1, h5, h6, h7⟩ := (corr hp hf).live b1 e1 h1
    rw [h7.uses] at h3
    obtain ⟨j, o, g1, g2, g3, g4, g5, g6⟩ := (fix_regOk hp hf.toMidOk (vreg_small hp h5)).ops r1 h6 u h3
    have g7 := g6 p h4
    have g8 := (hr.fixed_ok j _ o p g1 g7).1
    have g9 := (hp.func.named j o (List.mem_of_getElem? g1.2.1) g1.2.2).1
    have g9 : o.vreg = i.vreg o.vreg.vreg := g9
    have g10 := (corr hp hf).cons.cls b1 h1.1 e1 h1.2 w h7.vreg
    have g11 := hp.classes w h5
    refine ⟨?_, .inr ⟨j, _, o, g1, g7⟩⟩
    rw [g8, g9, g2]
    rw [h2, hs] at g10
    rw [← g10]
    unfold Input.cls
    cases hc : (i.vreg w).class? with
    | none => exact absurd hc g11
    | some c => rfl

theorem PartOf.not_scratch {p : PReg} (hc : (q.st.bundles c).alloc = some p) (c : RegClass) : i.env.scratch c ≠ some p := by
  intro hs
  rcases (h.named hp hr hf hl hc).2 with h1 | ⟨j, k, o, h1, h2⟩
  · exact (hr.scratch_ok c p hs).2.2 h1
  · exact (hr.fixed_ok j k o p h1 h2).2 c hs

theorem PartOf.location {e' : ResolveMoves.MoveEnv} (he : e'.machine = i.env) (hm : e'.maps = q.maps) :
    (∃ p, R.alloc = Allocation.reg p ∧ p.class? = (i.vreg v).class? ∧ (∀ c, e'.machine.scratch c ≠ some p) ∧
      ∀ pt, R.Has pt → ∃ m ∈ e'.maps p, m.1.Covers pt) ∨
    (∃ s, R.alloc.asReg = none ∧ R.alloc.asStack = some s ∧ s.index < num.toNat) := by
  rcases h.place hl with ⟨p, h1, h2⟩ | ⟨h1, s, slot, h2, h3, h4, h5, h6, h7⟩
  · refine .inl ⟨p, h2, ?_, ?_, ?_⟩
    · rw [(h.named hp hr hf hl h1).1, h.class_some hp]
    · rw [he]; exact h.not_scratch hp hr hf hl h1
    · intro pt hpt
      rw [hm]
      refine ⟨_, hl.placed.held c e p h.live h1, ?_⟩
      dsimp only
      rw [← h.range]
      exact hpt
  · refine .inr ⟨slot, ?_, ?_, h7⟩
    · rw [h4, h5]; exact (C05_alloc_stack _ h6).2.2.1
    · rw [h4, h5]; exact (C05_alloc_stack _ h6).2.1

omit hr in
theorem PartOf.same_class {v' : Nat} {R' : FRange} {c' b0' : Nat} {e' e0' : Entry} {r0' : Build.LR}
    (h' : PartOf i fr q (allocOf q.st ss.assigned slots) v' R' c' e' b0' e0' r0') (hr : RegsOk i) (ha : R.alloc = R'.alloc) :
    (i.vreg v).class? = (i.vreg v').class? := by
  rw [h.class_some hp, h'.class_some hp]
  rcases h.place hl with ⟨p, h1, h2⟩ | ⟨h1, s, slot, h2, h3, h4, h5, h6, h7⟩
  · have h3 := h'.reg_of hl (by rw [← ha, h2])
    rw [← (h.named hp hr hf hl h1).1, ← (h'.named hp hr hf hl h3).1]
  · rcases h'.place hl with ⟨p, h1', h2'⟩ | ⟨h1', s', slot', h2', h3', h4', h5', h6', h7'⟩
    · rw [h4, h5, h2'] at ha
      exact absurd ha.symm (C05_alloc_injective.2.2.1 p _ h6)
    · rw [h4, h4', h5, h5'] at ha
      have hi := C05_alloc_injective.2.1 _ _ h6 h6' ha
      have k1 := hl.placed.known.2 c e h.live
      have k2 := hl.placed.known.2 c' e' h'.live
      have hc : (q.st.spillsets (q.st.bundles c).spillset).cls = (q.st.spillsets (q.st.bundles c').spillset).cls := by
        rcases hl.slotted.same _ _ k1 k2 s s' slot slot' h2 h2' h3 h3' hi with g | g
        · rw [g]
        · exact g.1
      rw [h.class_set' hp hf hl, h'.class_set' hp hf hl] at hc
      rw [hc]

omit hr in
/-- Ranges of different registers that share a point have different locations. -/
theorem PartOf.differ {v' : Nat} {R' : FRange} {c' b0' : Nat} {e' e0' : Entry} {r0' : Build.LR}
    (h' : PartOf i fr q (allocOf q.st ss.assigned slots) v' R' c' e' b0' e0' r0') (hv : v ≠ v') {p : Nat} (h1 : R.Has p) (h2 : R'.Has p) :
    R.alloc ≠ R'.alloc := by
  intro ha
  have hcov : Covers e.range p ∧ Covers e'.range p := by rw [← h.range, ← h'.range]; exact ⟨h1, h2⟩
  have hown : ∀ w, Owns q.st w e.index → w = v := by
    intro w hw
    obtain ⟨a, hA⟩ := h.neat.owner
    rw [(hA w).mp hw, (hA v).mp h.owns]
  have hne : e.index ≠ e'.index := by
    intro he
    exact hv (hown v' (by rw [he]; exact h'.owns)).symm
  rcases h.place hl with ⟨x, g1, g2⟩ | ⟨g1, s, slot, g2, g3, g4, g5, g6, g7⟩
  · have g3 := h'.reg_of hl (by rw [← ha, g2])
    exact hl.placed.apart c e c' e' x h.live h'.live g1 g3 hne p hcov
  · rcases h'.place hl with ⟨x, h1', h2'⟩ | ⟨h1', s', slot', h2', h3', h4', h5', h6', h7'⟩
    · rw [g4, g5, h2'] at ha
      exact absurd ha.symm (C05_alloc_injective.2.2.1 x _ g6)
    · rw [g4, h4', g5, h5'] at ha
      have hi := C05_alloc_injective.2.1 _ _ g6 h6' ha
      have k1 := hl.placed.known.2 c e h.live
      have k2 := hl.placed.known.2 c' e' h'.live
      rcases hl.slotted.same _ _ k1 k2 s s' slot slot' g2 h2' g3 h3' hi with g | g
      · have := (hl.placed.shared c e c' e' h.live h'.live g (fun hA => hA p hcov) v').mpr h'.owns
        exact hv (hown v' this).symm
      · exact g.2 ⟨p, hl.placed.span c h.live.1 e h.live.2 p hcov.1, hl.placed.span c' h'.live.1 e' h'.live.2 p hcov.2⟩

omit hr hp hf in
/-- Reserved registers hold no values. -/
theorem PartOf.reserved {p : PReg} {k : RKey} (hk : (p, k) ∈ fr.b1.pregs) {x : Nat} (h1 : R.Has x) (h2 : k.Covers x) : R.alloc ≠ Allocation.reg p := by
  intro ha
  refine hl.placed.reserved c e p k h.live (h.reg_of hl ha) (mem_reservations.mpr ⟨rfl, hk⟩) x ⟨?_, h2⟩
  rw [← h.range]; exact h1

end

end
end Regalloc.Pipeline
