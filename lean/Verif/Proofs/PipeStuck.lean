import Verif.Proofs.PipeFix
import Verif.Props.Process

/-! When the allocation loop fails: what that says of the function. -/
namespace Regalloc.Pipeline

open Apply (OpAt DefAt entryPt exitPt FRange)
open Build (recordPoint usePoint defPoint mem_blockInsts RecordedAs)
open Ion (Live Owns Covers Entry Needed Recorded)

section
variable {i : Input} (hp : ProgramOk i) (hr : RegsOk i) {fr : Front} (hf : FrontOk i fr)
include hp hf

/-- The operand that a use in a bundle stands for. -/
theorem recorded_op {c : Nat} {e : Entry} (h : Live fr.st c e) {u : Ion.Use} (hu : u ∈ (fr.st.ranges e.index).uses) :
    ∃ j o, OpAt i.f j u.slot o ∧ u.pos = recordPoint i.f j o ∧ u.pos / 2 = j ∧ u.op.kind = o.kind ∧
      (u.op.constraint ≠ .Any → u.op.constraint = o.constraint ∧ ∀ fx ∈ fr.b0.fixups, fx.pos = ptBefore j → fx.slot ≠ u.slot) ∧
      (fr.st.spillsets (fr.st.bundles c).spillset).cls = i.cls o.vreg.vreg := by
  obtain ⟨v, r, hv, hrm, hs⟩ := (corr hp hf).live c e h
  rw [hs.uses] at hu
  obtain ⟨r0, hr0, -, -, hrel⟩ := Build.forall₂_mem_right (C39_relaxed i.env i.f.numVregs fr.b0 fr.b1 fr.second hf.b1 v) hrm
  obtain ⟨u0, hu0, hu1⟩ := Build.forall₂_mem_right hrel hu
  obtain ⟨j, o, h1, h2, h3, h4, h5⟩ := built_use hp hf hv hr0 hu0
  obtain ⟨e1, e2, e3, -, -⟩ := hu1.pos
  refine ⟨j, o, by rw [e2]; exact h1, by rw [e1]; exact h3, by rw [e1]; exact h4, ?_, ?_, ?_⟩
  · rw [e3]
    rcases h5 with ⟨h5, -⟩ | ⟨p, -, -, -, -, h5, -⟩ <;> rw [h5]
  · intro hany
    rcases hu1 with rfl | ⟨p, -, rfl, -⟩
    · rcases h5 with ⟨h5, h6⟩ | ⟨p, -, -, -, -, h5, -⟩
      · exact ⟨by rw [h5], h6⟩
      · rw [h5] at hany; exact absurd rfl hany
    · exact absurd rfl hany
  · rw [h2]
    exact ((corr hp hf).cons.cls c h.1 e h.2 v hs.vreg).symm

theorem once {u u' : Ion.Use} (h : Recorded fr.st u) (h' : Recorded fr.st u') (hp' : u.pos / 2 = u'.pos / 2) (hs : u.slot = u'.slot) :
    u = u' := by
  obtain ⟨c, e, hl, hu⟩ := h
  obtain ⟨c', e', hl', hu'⟩ := h'
  exact ((ready hp hf).once c e c' e' hl hl' u hu u' hu' hp' hs).2

omit hp hf in
theorem counts_of {f : Func} {j : Nat} {o : Op} {u : Ion.Use} {x : Nat} (h1 : u.pos = recordPoint f j o) (h2 : u.pos / 2 = j)
    (h3 : u.op.kind = o.kind) (hx : Needed u x) : CountsAt f j o x := by
  obtain ⟨k1, k2, k3⟩ := hx
  exact ⟨by omega, fun h => by rw [← h1]; exact k2 (by rw [h3]; exact h), fun h => by rw [← h1]; exact k3 (by rw [h3]; exact h)⟩

/-- What a reservation comes from. -/
theorem reserved_by {p : PReg} {k : RKey} (h : (k, none) ∈ reservations fr.b1.pregs p) {x : Nat} (hx : Covers k x) :
    (p ∈ i.f.clobbers (x / 2) ∧ x = ptAfter (x / 2)) ∨
    ∃ k' o', OpAt i.f (x / 2) k' o' ∧ Occupies i.f (x / 2) o' p x ∧
      ∀ u, Recorded fr.st u → u.pos / 2 = x / 2 → u.slot = k' → u.op.constraint = .Any := by
  have h := (mem_reservations.mp h).2
  dsimp only at h
  unfold Covers at hx
  rcases ((C39_fixups i.env i.f.numVregs fr.b0 fr.b1 fr.second hf.b1).2.1 p k).mp h with h | ⟨y, hy, rfl, rfl⟩
  · rcases ((C34_reservations i.f hp.ready hp.edges i.ord i.multi _ hf.po _ hf.ls _ hf.b0).1 p k).mp h with
      ⟨b, -, j, -, h1, rfl⟩ | ⟨y, hy, rfl, rfl⟩
    · dsimp only at hx
      unfold ptAfter ptBefore at hx
      have : x / 2 = j := by omega
      rw [this]
      exact .inl ⟨h1, by unfold ptAfter; omega⟩
    · dsimp only at hx
      have hxe : x = y.pos := by omega
      obtain ⟨b, hb, j, hj, hpos, -⟩ := (C34_reservations i.f hp.ready hp.edges i.ord i.multi _ hf.po _ hf.ls _ hf.b0).2 y hy
      obtain ⟨o, h1, h2, ⟨h3, h4, h5, h6, h7⟩, -⟩ := (C34_fixup_iff i.f hp.ready hp.edges i.ord i.multi _ hf.po _ hf.ls _ hf.b0 b hb
        (hp.reach b hb) j hj y hpos).mp hy
      have hxj : x / 2 = j := by rw [hxe, hpos]; unfold ptBefore; omega
      rw [hxj]
      refine .inr ⟨y.slot, o, ⟨⟨b, hb, hj⟩, h1, h3⟩, ⟨h4, ⟨hxj, fun _ => ?_, fun h => ?_⟩, fun _ => by rw [hxe, hpos]⟩, ?_⟩
      · rw [hxe, hpos]
        rcases recordPoint_cases (f := i.f) (j := j) (o := o) with g | g <;> rw [g] <;> simp only [ptAfter, ptBefore] <;> omega
      · rw [h5] at h; cases h
      · rintro u ⟨c, e, hl, hu⟩ hup hus
        obtain ⟨j', o', g1, g2, g3, g4, g5, -⟩ := recorded_op hp hf hl hu
        apply Classical.byContradiction
        intro hany
        exact (g5 hany).2 y hy (by rw [hpos, ← g3, hup]) hus.symm
  · obtain ⟨-, j, o, o', F⟩ := second_from hp hf hy
    dsimp only at hx
    have hxe : x = y.pos := by omega
    have hxj : x / 2 = j := by rw [hxe, F.pos]; unfold ptBefore; omega
    rw [hxj]
    refine .inr ⟨y.toSlot, o, F.target, ⟨F.fixed, ⟨hxj, fun _ => ?_, fun h => ?_⟩, fun _ => by rw [hxe, F.pos]⟩, ?_⟩
    · rw [hxe, F.pos]
      rcases recordPoint_cases (f := i.f) (j := j) (o := o) with g | g <;> rw [g] <;> simp only [ptAfter, ptBefore] <;> omega
    · rw [F.kind] at h; cases h
    · intro u hu hup hus
      obtain ⟨v, hv, r, hrm, w, hw, w1, w2, w3⟩ := C39_dropped i.env i.f.numVregs fr.b0 fr.b1 fr.second hf.b1 y hy
      obtain ⟨c, e, hl, hs⟩ := (corr hp hf).back v hv r hrm
      have : u = w := once hp hf hu ⟨c, e, hl, by rw [hs.uses]; exact hw⟩ (by rw [hup, w1, F.pos]; unfold ptBefore; omega) (by rw [hus, w2])
      rw [this]
      exact w3

/-- No clash of registers asked for by name. -/
theorem no_clash (hs : Serviceable i) : ¬ Ion.Clash (params i fr.info) ⟨fr.st, reservations fr.b1.pregs⟩ := by
  rintro ⟨u, p, o', ⟨c, e, hl, hu⟩, hc, hk, ho⟩
  obtain ⟨j, o, h1, h2, h3, h4, h5, -⟩ := recorded_op hp hf hl hu
  have h5 := h5 (by rw [hc]; simp)
  have hnc : ∀ {o1 : Op} {s : Nat}, OpAt i.f j s o1 → (∀ fx ∈ fr.b0.fixups, fx.pos = ptBefore j → fx.slot ≠ s) → ¬ CopiedTo i.f j o1 p := by
    rintro o1 s hs1 hs2 ⟨b, hb, hj, g1, g2⟩
    refine hs2 ⟨ptBefore j, s, p, o1.vreg.vreg⟩ ?_ rfl rfl
    exact (C34_fixup_iff i.f hp.ready hp.edges i.ord i.multi _ hf.po _ hf.ls _ hf.b0 b hb (hp.reach b hb) j hj _ rfl).mpr
      ⟨o1, hs1.2.1, rfl, g1, g2⟩
  have hocc : ∀ x, Needed u x → Occupies i.f j o p x := fun x hx =>
    ⟨by rw [← h5.1]; exact hc, counts_of h2 h3 h4 hx, fun hcp => absurd hcp (hnc h1 h5.2)⟩
  cases o' with
  | none =>
    obtain ⟨k, x, k1, k2, k3⟩ := hk
    have hxj : x / 2 = j := k3.1.trans h3
    rcases reserved_by hp hf k1 k2 with ⟨g1, g2⟩ | ⟨s, o1, g1, g2, g3⟩
    · rw [hxj] at g1 g2
      exact hs.clobber j u.slot o p h1 (by rw [← g2]; exact hocc x k3) g1
    · rw [hxj] at g1 g2
      have := hs.apart j u.slot s o o1 p x h1 g1 (hocc x k3) g2
      have := g3 u ⟨c, e, hl, hu⟩ (by rw [k3.1]) this
      rw [hc] at this
      cases this
  | some u' =>
    obtain ⟨⟨c', e', hl', hu'⟩, k1, k2, k3, k4, x, k5, k6⟩ := hk
    have hc' := ho u' rfl
    obtain ⟨j', o1, g1, g2, g3, g4, g5, -⟩ := recorded_op hp hf hl' hu'
    have : j' = j := by rw [← g3, ← h3, k1]
    subst this
    have g5 := g5 k3
    refine k2 (hs.apart j' u'.slot u.slot o1 o p x g1 h1 ⟨by rw [← g5.1]; exact hc', counts_of g2 g3 g4 k6, fun hcp => absurd hcp (hnc g1 g5.2)⟩ (hocc x k5))

/-- The class of an operand. -/
theorem op_class {j k : Nat} {o : Op} (h : OpAt i.f j k o) : o.vreg.class? = some (i.cls o.vreg.vreg) := by
  obtain ⟨n1, n2⟩ := hp.func.named j o (List.mem_of_getElem? h.2.1) h.2.2
  have hc := hp.classes o.vreg.vreg n2
  have n1 : i.vreg o.vreg.vreg = o.vreg := n1.symm
  unfold Input.cls
  rw [n1] at hc ⊢
  cases hv : o.vreg.class? with
  | none => exact absurd hv hc
  | some c => rfl

theorem supplied (hs : Serviceable i) : Ion.Supply (params i fr.info) fr.st := by
  have key : ∀ c e, Live fr.st c e → ∀ u ∈ (fr.st.ranges e.index).uses,
      (u.op.constraint = .Reg ∨ (∃ k, u.op.constraint = .Reuse k) ∨ ∃ n, u.op.constraint = .Limit n) →
      ∃ p, ((i.env.preferred (fr.st.spillsets (fr.st.bundles c).spillset).cls).contains p = true ∨
        (i.env.nonPreferred (fr.st.spillsets (fr.st.bundles c).spillset).cls).contains p = true) ∧ ∀ n, u.op.constraint = .Limit n → p.hwEnc < n := by
    intro c e hl u hu hc
    obtain ⟨j, o, h1, h2, h3, h4, h5, h6⟩ := recorded_op hp hf hl hu
    have h5 := (h5 (by rcases hc with h | ⟨k, h⟩ | ⟨k, h⟩ <;> rw [h] <;> simp)).1
    rw [h5] at hc ⊢
    obtain ⟨p, ⟨cl, p1, p2⟩, p3⟩ := hs.supply j u.slot o h1 hc
    rw [op_class hp hf h1] at p1
    cases p1
    exact ⟨p, by rw [h6]; exact p2, p3⟩
  constructor
  · intro c e hl u hu hc
    obtain ⟨p, h1, -⟩ := key c e hl u hu (by rcases hc with h | h <;> simp [h])
    exact ⟨p, h1⟩
  · intro c e hl u hu n hc
    obtain ⟨p, h1, h2⟩ := key c e hl u hu (.inr (.inr ⟨n, hc⟩))
    exact ⟨p, h1, h2 n hc⟩

theorem limits_ok (hs : ∀ j k o n, OpAt i.f j k o → o.constraint = .Limit n → n ≤ PReg.MAX + 1) : Ion.LimitsOk fr.st := by
  rintro u ⟨c, e, hl, hu⟩ n hn
  obtain ⟨j, o, h1, h2, h3, h4, h5, h6⟩ := recorded_op hp hf hl hu
  exact hs j u.slot o n h1 (by rw [← (h5 (by rw [hn]; simp)).1]; exact hn)

theorem not_at_start (hs : QuietStart i.f) : ¬ Ion.AtStart ⟨fr.st, reservations fr.b1.pregs⟩ := by
  rintro ⟨c, e, u, hl, hu, -, hn, hc⟩
  obtain ⟨j, o, h1, h2, h3, h4, h5, h6⟩ := recorded_op hp hf hl hu
  have h5' := (h5 (by rcases hc with h | ⟨k, h⟩ | ⟨k, h⟩ <;> rw [h] <;> simp)).1
  have hj : j = 0 := by have := hn.1; omega
  subst hj
  exact hs u.slot o h1 (counts_of h2 h3 h4 hn) (by unfold AsksReg; rw [← h5']; exact hc)

/-- Too few registers for the operands of an instruction. -/
theorem overcommitted (h : Ion.Crowded (params i fr.info) ⟨fr.st, reservations fr.b1.pregs⟩) : Overcommitted i := by
  obtain ⟨c, e, u, hl, hu, hc, taken, hk, hinj⟩ := h
  obtain ⟨j, o, h1, h2, h3, h4, h5, h6⟩ := recorded_op hp hf hl hu
  have h5 := h5 (by rcases hc with h | ⟨k, h⟩ | ⟨k, h⟩ <;> rw [h] <;> simp)
  have hw : ∀ p, MayHave i o p → Ion.Wants (params i fr.info) fr.st c u p := by
    rintro p ⟨⟨cl, p1, p2⟩, p3⟩
    rw [op_class hp hf h1] at p1
    cases p1
    refine ⟨?_, by rw [h5.1]; exact p3⟩
    rw [h6]
    exact p2
  -- who has the register
  have key : ∀ p, MayHave i o p → ∃ t : Option Nat, (match t with
      | none => p ∈ i.f.clobbers j ∧ CountsAt i.f j o (ptAfter j)
      | some k' => k' ≠ u.slot ∧ ∃ o', OpAt i.f j k' o' ∧ o'.constraint ≠ .Any ∧ o'.constraint.Admits i.env (Place.ofPReg i.env p) ∧
          ∃ x, CountsAt i.f j o x ∧ CountsAt i.f j o' x) ∧
      ∀ k', t = some k' → (∃ o', OpAt i.f j k' o' ∧ o'.constraint = .FixedReg p ∧
          ∀ u, Recorded fr.st u → u.pos / 2 = j → u.slot = k' → u.op.constraint = .Any) ∨
        ∃ u', taken p = some u' ∧ Recorded fr.st u' ∧ u'.pos / 2 = j ∧ u'.slot = k' ∧ u'.op.constraint ≠ .Any := by
    intro p hm
    have hp' := hk p (hw p hm)
    cases ht : taken p with
    | none =>
      rw [ht] at hp'
      obtain ⟨k, x, k1, k2, k3⟩ := hp'
      have hxj : x / 2 = j := k3.1.trans h3
      rcases reserved_by hp hf k1 k2 with ⟨g1, g2⟩ | ⟨s, o1, g1, g2, g3⟩
      · rw [hxj] at g1 g2
        exact ⟨none, ⟨g1, by rw [← g2]; exact counts_of h2 h3 h4 k3⟩, by simp⟩
      · rw [hxj] at g1 g2 g3
        refine ⟨some s, ⟨?_, o1, g1, by rw [g2.1]; simp, by rw [g2.1]; rfl, x, counts_of h2 h3 h4 k3, g2.2.1⟩, ?_⟩
        · intro hsu
          have := g3 u ⟨c, e, hl, hu⟩ h3 hsu.symm
          rcases hc with h | ⟨k, h⟩ | ⟨k, h⟩ <;> rw [h] at this <;> cases this
        · intro k' hk'
          cases hk'
          exact .inl ⟨o1, g1, g2.1, g3⟩
    | some u' =>
      rw [ht] at hp'
      obtain ⟨⟨c', e', hl', hu'⟩, k1, k2, k3, k4, x, k5, k6⟩ := hp'
      obtain ⟨j', o1, g1, g2, g3, g4, g5, -⟩ := recorded_op hp hf hl' hu'
      have : j' = j := by rw [← g3, ← h3, k1]
      subst this
      have g5 := g5 k3
      refine ⟨some u'.slot, ⟨k2, o1, g1, by rw [← g5.1]; exact k3, by rw [← g5.1]; exact k4, x, counts_of h2 h3 h4 k5, counts_of g2 g3 g4 k6⟩, ?_⟩
      intro k' hk'
      cases hk'
      exact .inr ⟨u', rfl, ⟨c', e', hl', hu'⟩, g3, rfl, k3⟩
  classical
  refine ⟨j, u.slot, o, h1, by unfold AsksReg; rw [← h5.1]; exact hc, fun p => if hm : MayHave i o p then (key p hm).choose else none, ?_, ?_⟩
  · intro p hm
    dsimp only
    rw [dif_pos hm]
    exact (key p hm).choose_spec.1
  · intro p p' hm hm' heq hne
    dsimp only at heq hne
    rw [dif_pos hm] at heq hne
    rw [dif_pos hm'] at heq
    obtain ⟨k', hk'⟩ := Option.ne_none_iff_exists'.mp hne
    rcases (key p hm).choose_spec.2 k' hk' with ⟨o1, a1, a2, a3⟩ | ⟨u1, a1, a2, a3, a4, a5⟩ <;>
      rcases (key p' hm').choose_spec.2 k' (by rw [← heq]; exact hk') with ⟨o2, b1, b2, b3⟩ | ⟨u2, b1, b2, b3, b4, b5⟩
    · have := opAt_eq a1 b1
      subst this
      rw [a2] at b2
      cases b2
      rfl
    · exact absurd (a3 u2 b2 b3 b4) b5
    · exact absurd (b3 u1 a2 a3 a4) a5
    · have : u1 = u2 := once hp hf a2 b2 (by rw [a3, b3]) (by rw [a4, b4])
      subst this
      exact hinj p p' (hw p hm) (hw p' hm') (by rw [a1, b1]) (by rw [a1]; simp)

end
end Regalloc.Pipeline
