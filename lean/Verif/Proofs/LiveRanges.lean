import Verif.Spec.LiveRanges
import Verif.Proofs.Liveness

namespace Regalloc.Build

/-- Shape of a list of ranges. -/
structure Wf (rs : List LR) : Prop where
  sorted : rs.Pairwise (fun r r' => r.range.to < r'.range.fr)
  ne : ∀ r ∈ rs, r.range.fr < r.range.to
  inr : ∀ r ∈ rs, ∀ u ∈ r.uses, r.range.fr ≤ u.pos ∧ u.pos < r.range.to
  flag : ∀ r ∈ rs, (r.startsAtDef = true ↔ ∃ u ∈ r.uses, u.op.kind = .Def)

theorem Covered.cons {r : LR} {rs : List LR} {p : Nat} :
    Covered (r :: rs) p ↔ (r.range.fr ≤ p ∧ p < r.range.to) ∨ Covered rs p := by
  simp [Covered]

theorem Wf.tail {r : LR} {rs : List LR} (h : Wf (r :: rs)) : Wf rs :=
  ⟨(List.pairwise_cons.mp h.sorted).2, fun r hr => h.ne r (List.mem_cons_of_mem _ hr),
    fun r hr => h.inr r (List.mem_cons_of_mem _ hr), fun r hr => h.flag r (List.mem_cons_of_mem _ hr)⟩

/-- The tail is covered only beyond the head. -/
theorem Wf.beyond {r : LR} {rs : List LR} (h : Wf (r :: rs)) {p : Nat} (hp : Covered rs p) : r.range.to < p := by
  obtain ⟨r', hr', h1, _⟩ := hp
  have := (List.pairwise_cons.mp h.sorted).1 r' hr'
  omega

/-- Changing the head only. -/
theorem Wf.replace {r r' : LR} {rs : List LR} (h : Wf (r :: rs)) (hto : r'.range.to = r.range.to)
    (hne : r'.range.fr < r'.range.to) (hinr : ∀ u ∈ r'.uses, r'.range.fr ≤ u.pos ∧ u.pos < r'.range.to)
    (hflag : r'.startsAtDef = true ↔ ∃ u ∈ r'.uses, u.op.kind = .Def) : Wf (r' :: rs) := by
  obtain ⟨h1, h2⟩ := List.pairwise_cons.mp h.sorted
  refine ⟨List.pairwise_cons.mpr ⟨?_, h2⟩, ?_, ?_, ?_⟩
  · intro a ha; rw [hto]; exact h1 a ha
  · intro a ha
    rcases List.mem_cons.mp ha with rfl | ha
    · exact hne
    · exact h.tail.ne a ha
  · intro a ha
    rcases List.mem_cons.mp ha with rfl | ha
    · exact hinr
    · exact h.tail.inr a ha
  · intro a ha
    rcases List.mem_cons.mp ha with rfl | ha
    · exact hflag
    · exact h.tail.flag a ha

theorem addRange_ok (multi : Bool) {rs : List LR} (h : Wf rs) {lo hi : Nat} (hlt : lo < hi)
    (hc : ∀ p, Covered rs p → hi ≤ p) :
    ∃ r rest, addRange multi rs ⟨lo, hi⟩ = .ok (r :: rest) ∧ r.range.fr = lo ∧ Wf (r :: rest) ∧
      (∀ p, Covered (r :: rest) p ↔ (lo ≤ p ∧ p < hi) ∨ Covered rs p) ∧
      (r :: rest).flatMap (·.uses) = rs.flatMap (·.uses) ∧
      (∀ u ∈ r.uses, u ∈ rs.flatMap (·.uses)) := by
  cases rs with
  | nil =>
    refine ⟨⟨⟨lo, hi⟩, false, []⟩, [], rfl, rfl, ⟨by simp, ?_, by simp, by simp⟩, ?_, rfl, by simp⟩
    · intro r hr; rw [List.mem_singleton] at hr; subst hr; exact hlt
    · intro p; rw [Covered.cons]
  | cons last rest =>
    have hne := h.ne last (List.mem_cons_self ..)
    have h1 : hi ≤ last.range.fr := hc last.range.fr (Covered.cons.mpr (.inl ⟨Nat.le_refl _, hne⟩))
    have hcon : last.range.contains ⟨lo, hi⟩ = false := by
      simp only [RKey.contains, Bool.and_eq_false_iff, decide_eq_false_iff_not]
      left; omega
    by_cases heq : hi = last.range.fr
    · refine ⟨{ last with range := ⟨lo, last.range.to⟩ }, rest, ?_, rfl, ?_, ?_, rfl, ?_⟩
      · unfold addRange
        simp only [hcon, Bool.and_false, Bool.false_eq_true, if_false]
        subst heq
        split <;> simp
      · refine h.replace rfl (by dsimp only; omega) ?_ (h.flag last (List.mem_cons_self ..))
        intro u hu
        have := h.inr last (List.mem_cons_self ..) u hu
        dsimp only
        omega
      · intro p
        rw [Covered.cons, Covered.cons]
        dsimp only
        constructor
        · rintro (hp | hp)
          · by_cases hp2 : p < hi
            · left; omega
            · right; left; omega
          · exact .inr (.inr hp)
        · rintro (hp | hp | hp)
          · left; omega
          · left; omega
          · exact .inr hp
      · intro u hu; rw [List.flatMap_cons]; exact List.mem_append_left _ hu
    · refine ⟨⟨⟨lo, hi⟩, false, []⟩, last :: rest, ?_, rfl, ⟨?_, ?_, ?_, ?_⟩, ?_, rfl, by simp⟩
      · unfold addRange
        simp only [hcon, Bool.and_false, Bool.false_eq_true, if_false]
        have h2 : decide (last.range.fr ≤ hi) = false := by simp; omega
        simp only [h2, Bool.and_false, Bool.false_and, Bool.false_eq_true, if_false]
        rw [if_neg (by omega), if_pos (by omega)]
      · refine List.pairwise_cons.mpr ⟨?_, h.sorted⟩
        intro a ha
        dsimp only
        have ha' := h.ne a ha
        rcases List.mem_cons.mp ha with rfl | ha
        · omega
        · have := (List.pairwise_cons.mp h.sorted).1 a ha
          omega
      · intro a ha
        rcases List.mem_cons.mp ha with rfl | ha
        · exact hlt
        · exact h.ne a ha
      · intro a ha
        rcases List.mem_cons.mp ha with rfl | ha
        · intro u hu; simp at hu
        · exact h.inr a ha
      · intro a ha
        rcases List.mem_cons.mp ha with rfl | ha
        · simp
        · exact h.flag a ha
      · intro p; rw [Covered.cons]

/-- Live points from the events of a block seen so far: points of uses and of definitions. -/
def LiveE (us ds : List Nat) (out : Prop) (p : Nat) : Prop :=
  (out ∧ ∀ d ∈ ds, d ≤ p) ∨ (∃ u ∈ us, p ≤ u ∧ ∀ d ∈ ds, p < d → u < d) ∨ (∃ d ∈ ds, d ≤ p ∧ p / 2 = d / 2)

/-- Live just before these events. -/
def LiveB (us ds : List Nat) (out : Prop) : Prop :=
  (out ∧ ds = []) ∨ ∃ u ∈ us, ∀ d ∈ ds, u < d

/-- What is known about one register while a block is being scanned. -/
structure VInv (e x : Nat) (old : Nat → Prop) (out : Prop) (us ds : List Nat) (live : Bool) (rs : List LR)
    (L : List Ion.Use) : Prop where
  wf : Wf rs
  cov : ∀ p, Covered rs p ↔ old p ∨ (e ≤ p ∧ p < x ∧ LiveE us ds out p)
  isLive : live = true ↔ LiveB us ds out
  head : live = true → ∃ r rest, rs = r :: rest ∧ r.range.fr = e
  uses : rs.flatMap (·.uses) = L

section step
variable {e x q : Nat} {old : Nat → Prop} {out : Prop} {us ds : List Nat} {live : Bool} {rs : List LR} {L : List Ion.Use}

theorem VInv.use_step (h : VInv e x old out us ds live rs L) (multi : Bool) (hold : ∀ p, old p → x ≤ p) (he : e ≤ q) (hx : q < x)
    (hu : ∀ u ∈ us, q ≤ u) (hd : ∀ d ∈ ds, q ≤ d ∧ d / 2 ≠ q / 2) (u : Ion.Use) (hpos : u.pos = q) (hk : u.op.kind = .Use)
    (hL : ∀ w ∈ L, q ≤ w.pos) :
    ∃ rs1 rs', current multi live rs ⟨e, q + 1⟩ = .ok rs1 ∧
      insertUse rs1 u = .ok rs' ∧ VInv e x old out (q :: us) ds true rs' (u :: L) := by
  have hd' : ∀ d ∈ ds, q < d := fun d hd1 => by have := hd d hd1; omega
  -- coverage after the step
  have hcov : ∀ p, LiveE (q :: us) ds out p ↔ (p ≤ q ∨ LiveE us ds out p) := by
    intro p
    unfold LiveE
    constructor
    · rintro (h1 | ⟨w, hw, h2, h3⟩ | h1)
      · exact .inr (.inl h1)
      · rcases List.mem_cons.mp hw with rfl | hw
        · exact .inl h2
        · exact .inr (.inr (.inl ⟨w, hw, h2, h3⟩))
      · exact .inr (.inr (.inr h1))
    · rintro (h1 | h1 | ⟨w, hw, h2⟩ | h1)
      · exact .inr (.inl ⟨q, List.mem_cons_self .., h1, fun d hd1 _ => hd' d hd1⟩)
      · exact .inl h1
      · exact .inr (.inl ⟨w, List.mem_cons_of_mem _ hw, h2⟩)
      · exact .inr (.inr h1)
  have hlive : LiveB (q :: us) ds out := .inr ⟨q, List.mem_cons_self .., hd'⟩
  -- the rest, for any suitable list
  have key : ∀ r rest, Wf (r :: rest) → r.range.fr = e → (∀ p, Covered (r :: rest) p ↔ old p ∨ (e ≤ p ∧ p < x ∧ LiveE (q :: us) ds out p)) →
      (r :: rest).flatMap (·.uses) = L →
      VInv e x old out (q :: us) ds true ({ r with uses := u :: r.uses } :: rest) (u :: L) := by
    intro r rest hw hr hc hl
    have hq : r.range.fr ≤ q ∧ q < r.range.to := by
      have : Covered (r :: rest) q := (hc q).mpr (.inr ⟨he, hx, (hcov q).mpr (.inl (Nat.le_refl _))⟩)
      rcases Covered.cons.mp this with h1 | h1
      · exact h1
      · -- every point from the start of the block is covered, so the head reaches `q`
        exfalso
        have h2 := hw.beyond h1
        have h3 := hw.ne r (List.mem_cons_self ..)
        have : Covered (r :: rest) r.range.to :=
          (hc _).mpr (.inr ⟨by omega, by omega, (hcov _).mpr (.inl (by omega))⟩)
        rcases Covered.cons.mp this with h4 | h4
        · omega
        · have := hw.beyond h4; omega
    refine ⟨hw.replace rfl (hw.ne r (List.mem_cons_self ..)) ?_ ?_, ?_, ?_, ?_, ?_⟩
    · intro w hw'
      rcases List.mem_cons.mp hw' with rfl | hw'
      · rw [hpos]; exact hq
      · exact hw.inr r (List.mem_cons_self ..) w hw'
    · have := hw.flag r (List.mem_cons_self ..)
      constructor
      · intro h1
        obtain ⟨w, hw1, hw2⟩ := this.mp h1
        exact ⟨w, List.mem_cons_of_mem _ hw1, hw2⟩
      · rintro ⟨w, hw1, hw2⟩
        rcases List.mem_cons.mp hw1 with rfl | hw1
        · rw [hk] at hw2; exact absurd hw2 (by decide)
        · exact this.mpr ⟨w, hw1, hw2⟩
    · intro p; rw [← hc p, Covered.cons, Covered.cons]
    · simp [hlive]
    · intro _; exact ⟨_, _, rfl, hr⟩
    · rw [List.flatMap_cons] at hl ⊢
      rw [List.cons_append, hl]
  cases hl : live with
  | true =>
    obtain ⟨r, rest, rfl, hr⟩ := h.head hl
    refine ⟨r :: rest, { r with uses := u :: r.uses } :: rest, rfl, rfl, key r rest h.wf hr ?_ h.uses⟩
    intro p
    rw [h.cov, hcov]
    constructor
    · rintro (h1 | ⟨h1, h2, h3⟩)
      · exact .inl h1
      · exact .inr ⟨h1, h2, .inr h3⟩
    · rintro (h1 | ⟨h1, h2, h3 | h3⟩)
      · exact .inl h1
      · refine .inr ⟨h1, h2, ?_⟩
        rcases h.isLive.mp hl with ⟨ho, rfl⟩ | ⟨w, hw, hw2⟩
        · exact .inl ⟨ho, by simp⟩
        · exact .inr (.inl ⟨w, hw, by have := hu w hw; omega, fun d hd1 _ => hw2 d hd1⟩)
      · exact .inr ⟨h1, h2, h3⟩
  | false =>
    have hnl : ¬ LiveB us ds out := by rw [← h.isLive, hl]; simp
    have hc : ∀ p, Covered rs p → q + 1 ≤ p := by
      intro p hp
      rcases (h.cov p).mp hp with h1 | ⟨_, _, h1⟩
      · have := hold p h1; omega
      · apply Classical.byContradiction
        intro hlt
        apply hnl
        rcases h1 with ⟨ho, h2⟩ | ⟨w, hw, h2, h3⟩ | ⟨d, hd1, h2, _⟩
        · left
          refine ⟨ho, ?_⟩
          cases hds : ds with
          | nil => rfl
          | cons d ds' =>
            have h3 : d ∈ ds := by rw [hds]; exact List.mem_cons_self ..
            have := h2 d h3
            have := hd' d h3
            omega
        · exact .inr ⟨w, hw, fun d hd1 => h3 d hd1 (by have := hd' d hd1; omega)⟩
        · have := hd' d hd1; omega
    obtain ⟨r, rest, h1, h2, h3, h4, h5, _⟩ := addRange_ok multi h.wf (lo := e) (hi := q + 1) (by omega) hc
    refine ⟨r :: rest, { r with uses := u :: r.uses } :: rest, h1, rfl, key r rest h3 h2 ?_ (h5.trans h.uses)⟩
    intro p
    rw [h4, h.cov, hcov]
    constructor
    · rintro (h6 | h6 | ⟨h6, h7, h8⟩)
      · exact .inr ⟨h6.1, by omega, .inl (by omega)⟩
      · exact .inl h6
      · exact .inr ⟨h6, h7, .inr h8⟩
    · rintro (h6 | ⟨h6, h7, h8 | h8⟩)
      · exact .inr (.inl h6)
      · exact .inl ⟨h6, by omega⟩
      · exact .inr (.inr ⟨h6, h7, h8⟩)

theorem VInv.def_step (h : VInv e x old out us ds live rs L) (multi : Bool) (hold : ∀ p, old p → x ≤ p) (he : e ≤ q) (hx : 2 * (q / 2 + 1) ≤ x)
    (hu : ∀ u ∈ us, q ≤ u ∧ u / 2 ≠ q / 2) (hd : ∀ d ∈ ds, q ≤ d ∧ d / 2 ≠ q / 2) (u : Ion.Use) (hpos : u.pos = q)
    (hk : u.op.kind = .Def) (hL : ∀ w ∈ L, q ≤ w.pos) :
    ∃ rs1 rs', current multi live rs ⟨q, ptBefore (q / 2 + 1)⟩ = .ok rs1 ∧
      insertUse rs1 u = .ok rs' ∧ VInv e x old out us (q :: ds) false (trimAtDef e q rs') (u :: L) := by
  have hd' : ∀ d ∈ ds, 2 * (q / 2 + 1) ≤ d := fun d hd1 => by have := hd d hd1; omega
  have hu' : ∀ d ∈ us, 2 * (q / 2 + 1) ≤ d := fun d hd1 => by have := hu d hd1; omega
  have hcov : ∀ p, LiveE us (q :: ds) out p ↔ (q ≤ p ∧ (p < 2 * (q / 2 + 1) ∨ LiveE us ds out p)) := by
    intro p
    unfold LiveE
    constructor
    · rintro (⟨ho, h1⟩ | ⟨w, hw, h2, h3⟩ | ⟨d, hd1, h2, h3⟩)
      · exact ⟨h1 q (List.mem_cons_self ..), .inr (.inl ⟨ho, fun d hd1 => h1 d (List.mem_cons_of_mem _ hd1)⟩)⟩
      · refine ⟨?_, .inr (.inr (.inl ⟨w, hw, h2, fun d hd1 => h3 d (List.mem_cons_of_mem _ hd1)⟩))⟩
        apply Classical.byContradiction
        intro hlt
        have := h3 q (List.mem_cons_self ..) (by omega)
        have := hu' w hw
        omega
      · rcases List.mem_cons.mp hd1 with rfl | hd1
        · exact ⟨h2, .inl (by omega)⟩
        · exact ⟨by have := hd' d hd1; omega, .inr (.inr (.inr ⟨d, hd1, h2, h3⟩))⟩
    · rintro ⟨hq, h1 | ⟨ho, h1⟩ | ⟨w, hw, h2, h3⟩ | ⟨d, hd1, h1⟩⟩
      · exact .inr (.inr ⟨q, List.mem_cons_self .., hq, by omega⟩)
      · refine .inl ⟨ho, ?_⟩
        intro d hd1
        rcases List.mem_cons.mp hd1 with rfl | hd1
        · exact hq
        · exact h1 d hd1
      · refine .inr (.inl ⟨w, hw, h2, ?_⟩)
        intro d hd1 hpd
        rcases List.mem_cons.mp hd1 with rfl | hd1
        · omega
        · exact h3 d hd1 hpd
      · exact .inr (.inr ⟨d, List.mem_cons_of_mem _ hd1, h1⟩)
  have hdead : ¬ LiveB us (q :: ds) out := by
    rintro (⟨_, h1⟩ | ⟨w, hw, h1⟩)
    · simp at h1
    · have := h1 q (List.mem_cons_self ..)
      have := hu' w hw
      omega
  have key : ∀ r rest, Wf (r :: rest) → (r.range.fr = e ∨ r.range.fr = q) →
      (∀ p, q ≤ p → (Covered (r :: rest) p ↔ old p ∨ (p < x ∧ LiveE us (q :: ds) out p))) →
      (∀ p, r.range.fr ≤ p → p ≤ q → Covered (r :: rest) p) → (r :: rest).flatMap (·.uses) = L →
      VInv e x old out us (q :: ds) false (trimAtDef e q ({ r with uses := u :: r.uses } :: rest)) (u :: L) := by
    intro r rest hw hr hc hcq hl
    have hq : r.range.fr ≤ q ∧ q < r.range.to := by
      have hfq : r.range.fr ≤ q := by omega
      refine ⟨hfq, ?_⟩
      have : Covered (r :: rest) q := (hc q (Nat.le_refl _)).mpr (.inr ⟨by omega, (hcov q).mpr ⟨Nat.le_refl _, .inl (by omega)⟩⟩)
      rcases Covered.cons.mp this with h1 | h1
      · exact h1.2
      · exfalso
        have h2 := hw.beyond h1
        have h3 := hw.ne r (List.mem_cons_self ..)
        rcases Covered.cons.mp (hcq r.range.to (by omega) (by omega)) with h4 | h4
        · omega
        · have := hw.beyond h4; omega
    have hfr : (if r.range.fr = e then (⟨q, r.range.to⟩ : RKey) else r.range) = ⟨q, r.range.to⟩ := by
      split
      · rfl
      · rcases hr with hr | hr
        · contradiction
        · rw [← hr]
    have htrim : trimAtDef e q ({ r with uses := u :: r.uses } :: rest) =
        ⟨⟨q, r.range.to⟩, true, u :: r.uses⟩ :: rest := by
      unfold trimAtDef
      dsimp only
      rw [hfr]
    rw [htrim]
    have hLr : ∀ w ∈ r.uses, w ∈ L := by
      intro w hw'; rw [← hl, List.flatMap_cons]; exact List.mem_append_left _ hw'
    refine ⟨hw.replace rfl hq.2 ?_ ?_, ?_, ?_, ?_, ?_⟩
    · intro w hw'
      dsimp only
      rcases List.mem_cons.mp hw' with rfl | hw'
      · omega
      · exact ⟨hL w (hLr w hw'), (hw.inr r (List.mem_cons_self ..) w hw').2⟩
    · simp [hk]
    · intro p
      rw [Covered.cons]
      dsimp only
      by_cases hqp : q ≤ p
      · have := hc p hqp
        rw [Covered.cons] at this
        constructor
        · rintro (h1 | h1)
          · rcases this.mp (.inl ⟨by omega, h1.2⟩) with h2 | h2
            · exact .inl h2
            · exact .inr ⟨by omega, h2⟩
          · rcases this.mp (.inr h1) with h2 | h2
            · exact .inl h2
            · exact .inr ⟨by omega, h2⟩
        · rintro (h1 | ⟨_, h1⟩)
          · rcases this.mpr (.inl h1) with h2 | h2
            · exact .inl ⟨hqp, h2.2⟩
            · exact .inr h2
          · rcases this.mpr (.inr h1) with h2 | h2
            · exact .inl ⟨hqp, h2.2⟩
            · exact .inr h2
      · constructor
        · rintro (h1 | h1)
          · omega
          · have := hw.beyond h1; omega
        · rintro (h1 | ⟨_, _, h1⟩)
          · have := hold p h1; omega
          · have := ((hcov p).mp h1).1; omega
    · simp [hdead]
    · intro h1; simp at h1
    · rw [List.flatMap_cons] at hl ⊢
      rw [List.cons_append, hl]
  cases hl : live with
  | true =>
    have hall : ∀ p, p < 2 * (q / 2 + 1) → LiveE us ds out p := by
      intro p hp
      rcases h.isLive.mp hl with ⟨ho, rfl⟩ | ⟨w, hw, hw2⟩
      · exact .inl ⟨ho, by simp⟩
      · exact .inr (.inl ⟨w, hw, by have := hu' w hw; omega, fun d hd1 _ => hw2 d hd1⟩)
    obtain ⟨r, rest, rfl, hr⟩ := h.head hl
    refine ⟨r :: rest, { r with uses := u :: r.uses } :: rest, rfl, rfl, key r rest h.wf (.inl hr) ?_ ?_ h.uses⟩
    · intro p hp
      rw [h.cov, hcov]
      constructor
      · rintro (h1 | ⟨h1, h2, h3⟩)
        · exact .inl h1
        · exact .inr ⟨h2, hp, .inr h3⟩
      · rintro (h1 | ⟨h1, h2, h3 | h3⟩)
        · exact .inl h1
        · exact .inr ⟨by omega, h1, hall p h3⟩
        · exact .inr ⟨by omega, h1, h3⟩
    · intro p h1 h2
      rw [h.cov]
      exact .inr ⟨by omega, by omega, hall p (by omega)⟩
  | false =>
    have hnl : ¬ LiveB us ds out := by rw [← h.isLive, hl]; simp
    have hc : ∀ p, Covered rs p → ptBefore (q / 2 + 1) ≤ p := by
      intro p hp
      rcases (h.cov p).mp hp with h1 | ⟨_, _, h1⟩
      · have := hold p h1; show 2 * (q / 2 + 1) ≤ p; omega
      · apply Classical.byContradiction
        intro hlt
        have hlt : p < 2 * (q / 2 + 1) := by
          have : ¬ (2 * (q / 2 + 1) ≤ p) := hlt
          omega
        apply hnl
        rcases h1 with ⟨ho, h2⟩ | ⟨w, hw, h2, h3⟩ | ⟨d, hd1, h2, _⟩
        · left
          refine ⟨ho, ?_⟩
          cases hds : ds with
          | nil => rfl
          | cons d ds' =>
            have h3 : d ∈ ds := by rw [hds]; exact List.mem_cons_self ..
            have := h2 d h3
            have := hd' d h3
            omega
        · exact .inr ⟨w, hw, fun d hd1 => h3 d hd1 (by have := hd' d hd1; omega)⟩
        · have := hd' d hd1; omega
    obtain ⟨r, rest, h1, h2, h3, h4, h5, _⟩ := addRange_ok multi h.wf (lo := q) (hi := ptBefore (q / 2 + 1))
      (by show q < 2 * (q / 2 + 1); omega) hc
    refine ⟨r :: rest, { r with uses := u :: r.uses } :: rest, h1, rfl,
      key r rest h3 (.inr h2) ?_ ?_ (h5.trans h.uses)⟩
    · intro p hp
      rw [h4, h.cov, hcov]
      constructor
      · rintro (h6 | h6 | ⟨h6, h7, h8⟩)
        · exact .inr ⟨by have : p < 2 * (q / 2 + 1) := h6.2; omega, hp, .inl h6.2⟩
        · exact .inl h6
        · exact .inr ⟨h7, hp, .inr h8⟩
      · rintro (h6 | ⟨h6, h7, h8 | h8⟩)
        · exact .inr (.inl h6)
        · exact .inl ⟨hp, h8⟩
        · exact .inr (.inr ⟨by omega, h6, h8⟩)
    · intro p h6 h7
      rw [h4]
      left
      have : p = q := by omega
      subst this
      exact ⟨Nat.le_refl _, by show p < 2 * (p / 2 + 1); omega⟩
end step

/-! ## Results that may be errors -/

/-- The computation satisfies `P` if it succeeds, panics only if `np` does not hold, and reports
too many operands only if `few` does not hold. -/
def Safe {α : Type} (np few : Prop) (P : α → Prop) : Except Err α → Prop
  | .ok a => P a
  | .error .panic => ¬ np
  | .error .tooManyOperands => ¬ few

theorem Safe.bind {α β : Type} {np few : Prop} {P : α → Prop} {Q : β → Prop} {r : Except Err α} {g : α → Except Err β}
    (h : Safe np few P r) (hg : ∀ a, P a → Safe np few Q (g a)) : Safe np few Q (r >>= g) := by
  cases r with
  | ok a => exact hg a h
  | error e => cases e <;> exact h

theorem Safe.mono {α : Type} {np few : Prop} {P Q : α → Prop} {r : Except Err α}
    (h : Safe np few P r) (hg : ∀ a, P a → Q a) : Safe np few Q r := by
  cases r with
  | ok a => exact hg a h
  | error e => cases e <;> exact h

theorem Safe.foldlM {α σ : Type} {np few : Prop} {g : σ → α → Except Err σ} (I : List α → σ → Prop)
    (step : ∀ a l s, I (a :: l) s → Safe np few (I l) (g s a)) : ∀ (l : List α) (s : σ), I l s → Safe np few (I []) (l.foldlM g s) := by
  intro l
  induction l with
  | nil => intro s h; exact h
  | cons a l ih =>
    intro s h
    rw [List.foldlM_cons]
    exact (step a l s h).bind (fun s' h' => ih s' h')

theorem slotIdx_safe (np : Prop) {few : Prop} {k : Nat} (h : few → k < 2 ^ 16) : Safe np few (fun k' => k' = k) (slotIdx k) := by
  unfold slotIdx
  split
  · rfl
  · rename_i h1; exact fun h2 => h1 (h h2)

theorem addPreg_safe {np few : Prop} {st : St} {range : RKey} {p : PReg}
    (h : np → ∀ e ∈ st.pregs, e.1 = p → e.2.to ≤ range.fr ∨ range.to ≤ e.2.fr) :
    Safe np few (fun st' => st' = { st with pregs := (p, range) :: st.pregs }) (addPreg st range p) := by
  unfold addPreg
  split
  · rename_i h1
    intro hnp
    obtain ⟨e, he, h2⟩ := List.any_eq_true.mp h1
    simp only [Bool.and_eq_true, decide_eq_true_eq, beq_iff_eq] at h2
    have h3 := h2.2
    unfold RKey.cmp at h3
    split at h3
    · cases h3
    split at h3
    · cases h3
    rcases h hnp e he h2.1 with h4 | h4 <;> omega
  · rfl

/-! ## Iterating over the live set -/

open AdaptiveMap IndexSet Liveness in
theorem iter_spec (ord : HashOrder) {s : IndexSet} (hw : s.elems.Wf) :
    (s.iter ord).Nodup ∧ ∀ j, j ∈ s.iter ord ↔ (j < 2 ^ 38 ∧ s.get j = true) := by
  have hp := iter_perm ord s.elems
  have hn : ((s.elems.iter ord).map (·.1)).Nodup := (hp.map _).nodup_iff.mpr hw.nodup
  have hsb : ∀ w : Word, (setBits 65 w).Pairwise (· < ·) ∧ ∀ i, i ∈ setBits 65 w ↔ w.getLsbD i = true :=
    fun w => setBits_spec 65 w 0 (by simp) (by omega)
  have h64 : ∀ (w : Word) i, i ∈ setBits 65 w → i < 64 := by
    intro w i hi
    rw [(hsb w).2] at hi
    apply Decidable.byContradiction
    intro h; rw [BitVec.getLsbD_of_ge _ _ (by omega)] at hi; simp at hi
  refine ⟨?_, ?_⟩
  · unfold IndexSet.iter
    generalize s.elems.iter ord = l at hn
    clear hp
    induction l with
    | nil => simp
    | cons e l ih =>
      simp only [List.map_cons, List.nodup_cons] at hn
      rw [List.flatMap_cons, List.nodup_append]
      refine ⟨?_, ih hn.2, ?_⟩
      · refine List.Pairwise.map _ (R := fun a b => a < b) ?_ (hsb e.2).1
        intro a b hab; unfold BITS_PER_WORD; omega
      · intro a ha b hb
        obtain ⟨i, hi, rfl⟩ := List.mem_map.mp ha
        obtain ⟨e', he', hb⟩ := List.mem_flatMap.mp hb
        obtain ⟨i', hi', rfl⟩ := List.mem_map.mp hb
        have h1 := h64 _ _ hi
        have h2 := h64 _ _ hi'
        have h3 : e.1 ≠ e'.1 := fun h => hn.1 (by rw [h]; exact List.mem_map_of_mem he')
        unfold BITS_PER_WORD; omega
  · intro j
    have hget : (j < 2 ^ 38 ∧ s.get j = true) ↔ (look s.elems.entries (j / 64)).getLsbD (j % 64) = true := by
      constructor
      · rintro ⟨hj, hm⟩
        rwa [get_eq, wordIndex_eq hj] at hm
      · intro hm
        have hj : j < 2 ^ 38 := by
          apply Decidable.byContradiction
          intro hge
          rw [look_of_not_mem] at hm
          · simp at hm
          · intro hk
            obtain ⟨e, he, h2⟩ := List.mem_map.mp hk
            have := hw.bound e he
            omega
        refine ⟨hj, ?_⟩
        rwa [get_eq, wordIndex_eq hj]
    rw [hget]
    unfold IndexSet.iter
    rw [List.mem_flatMap]
    constructor
    · rintro ⟨e, he, hj⟩
      obtain ⟨i, hi, rfl⟩ := List.mem_map.mp hj
      have h1 := h64 _ _ hi
      unfold BITS_PER_WORD
      have e1 : (64 * e.1 + i) / 64 = e.1 := by omega
      have e2 : (64 * e.1 + i) % 64 = i := by omega
      rw [e1, e2, look_of_mem hw.nodup (hp.mem_iff.mp he)]
      exact ((hsb e.2).2 i).mp hi
    · intro hb
      have hk : j / 64 ∈ s.elems.entries.map (·.1) := by
        apply Decidable.byContradiction
        intro hk
        rw [look_of_not_mem hk] at hb; simp at hb
      obtain ⟨e, he, e1⟩ := List.mem_map.mp hk
      refine ⟨e, hp.mem_iff.mpr he, List.mem_map.mpr ⟨j % 64, ?_, ?_⟩⟩
      · rw [(hsb e.2).2, ← look_of_mem hw.nodup he, e1]; exact hb
      · unfold BITS_PER_WORD; omega

/-! ## One operand -/

/-- An operand that has been processed: instruction, operand as recorded, slot. -/
abbrev Ev := Nat × Op × Nat

/-- The point of an operand. -/
def evPt (f : Func) (ev : Ev) : Nat := opPoint (reusedReg (f.operands ev.1)) ev.1 ev.2.1

/-- The operand names register `v`. -/
def names (v : Nat) (ev : Ev) : Bool := ev.2.1.asFixedNonallocatable.isNone && decide (ev.2.1.vreg.vreg = v)

def usesOf (f : Func) (v : Nat) (l : List Ev) : List Nat :=
  (l.filter (fun ev => names v ev && decide (ev.2.1.kind = .Use))).map (evPt f)

def defsOf (f : Func) (v : Nat) (l : List Ev) : List Nat :=
  (l.filter (fun ev => names v ev && decide (ev.2.1.kind = .Def))).map (evPt f)

/-- What is recorded for it. -/
def toUse (f : Func) (ev : Ev) : Ion.Use := ⟨ev.2.1, evPt f ev, ev.2.2⟩

def recs (f : Func) (v : Nat) (l : List Ev) : List Ion.Use := (l.filter (names v)).map (toUse f)

theorem evPt_div (f : Func) (ev : Ev) : evPt f ev / 2 = ev.1 := by
  unfold evPt opPoint
  split
  · show 2 * _ / 2 = _; omega
  · show (2 * _ + 1) / 2 = _; omega
  · show (2 * _ + 1) / 2 = _; omega
  · split
    · split
      · show (2 * _ + 1) / 2 = _; omega
      · show 2 * _ / 2 = _; omega
    · show 2 * _ / 2 = _; omega

theorem mem_usesOf {f : Func} {v p : Nat} {l : List Ev} :
    p ∈ usesOf f v l ↔ ∃ ev ∈ l, names v ev = true ∧ ev.2.1.kind = .Use ∧ evPt f ev = p := by
  simp [usesOf, and_assoc]

theorem mem_defsOf {f : Func} {v p : Nat} {l : List Ev} :
    p ∈ defsOf f v l ↔ ∃ ev ∈ l, names v ev = true ∧ ev.2.1.kind = .Def ∧ evPt f ev = p := by
  simp [defsOf, and_assoc]

theorem mem_recs {f : Func} {v : Nat} {l : List Ev} {u : Ion.Use} :
    u ∈ recs f v l ↔ ∃ ev ∈ l, names v ev = true ∧ toUse f ev = u := by
  simp [recs, and_assoc]

/-- State while the instructions of a block are scanned. `done`: operands of the block
already processed, last first; `prev`: operands of later blocks. -/
structure GInv (f : Func) (e x : Nat) (old : Nat → Nat → Prop) (out : Nat → Prop) (prev done : List Ev) (st : St) : Prop where
  good : Liveness.Good st.live
  reg : ∀ v, v < 2 ^ 30 → VInv e x (old v) (out v) (usesOf f v done) (defsOf f v done) (st.live.get v) (st.ranges v)
    (recs f v (done ++ prev))

/-- `ev` may come after `ev'` in the scan. -/
def After (f : Func) (ev' ev : Ev) : Prop :=
  evPt f ev ≤ evPt f ev' ∧ (ev.1 = ev'.1 → ∀ v, names v ev = true → names v ev' = true →
    ev.2.1.kind = .Use ∧ ev'.2.1.kind = .Use)

/-- Everything but the live set and the ranges is the same. -/
def SameRest (st st' : St) : Prop :=
  st'.pregs = st.pregs ∧ st'.fixups = st.fixups ∧ st'.ins = st.ins ∧ st'.outs = st.outs

theorem SameRest.trans {a b c : St} (h : SameRest a b) (h' : SameRest b c) : SameRest a c :=
  ⟨h'.1.trans h.1, h'.2.1.trans h.2.1, h'.2.2.1.trans h.2.2.1, h'.2.2.2.trans h.2.2.2⟩

theorem names_iff {v : Nat} {ev : Ev} : names v ev = true ↔ ev.2.1.asFixedNonallocatable = none ∧ ev.2.1.vreg.vreg = v := by
  simp [names]

theorem procOp_safe {f : Func} {b : Nat} {old : Nat → Nat → Prop} {out : Nat → Prop} {prev done : List Ev} {st : St}
    (np : Prop) {few : Prop} (multi : Bool)
    (h : GInv f (ptBefore (f.insns b).1) (ptBefore (f.insns b).2) old out prev done st) (ev : Ev)
    (hold : ∀ v p, old v p → ptBefore (f.insns b).2 ≤ p)
    (hprev : ∀ e ∈ prev, evPt f ev ≤ evPt f e)
    (hdone : ∀ e ∈ done, After f e ev)
    (hb : (f.insns b).1 ≤ ev.1 ∧ ev.1 < (f.insns b).2) (hfew : few → ev.2.2 < 2 ^ 16) :
    Safe np few (fun st' => GInv f (ptBefore (f.insns b).1) (ptBefore (f.insns b).2) old out prev (ev :: done) st' ∧ SameRest st st')
      (procOp multi f b ev.1 (reusedReg (f.operands ev.1)) st ev.2) := by
  have hdiv := evPt_div f ev
  unfold procOp
  split
  · rename_i p hp
    refine ⟨⟨h.good, ?_⟩, rfl, rfl, rfl, rfl⟩
    intro v hv
    have hn : names v ev = false := by simp [names, hp]
    have := h.reg v hv
    simpa [usesOf, defsOf, recs, hn] using this
  · rename_i hna
    have hvlt := Liveness.vreg_lt ev.2.1.vreg
    have hreg := h.reg _ hvlt
    have hn : names ev.2.1.vreg.vreg ev = true := names_iff.mpr ⟨hna, rfl⟩
    have hL : ∀ w ∈ recs f ev.2.1.vreg.vreg (done ++ prev), evPt f ev ≤ w.pos := by
      intro w hw
      obtain ⟨ev', h1, _, h2⟩ := mem_recs.mp hw
      rw [← h2]
      rcases List.mem_append.mp h1 with h1 | h1
      · exact (hdone ev' h1).1
      · exact hprev ev' h1
    have hother : ∀ v, v ≠ ev.2.1.vreg.vreg → names v ev = false := by
      intro v hv
      cases hc : names v ev with
      | false => rfl
      | true => exact absurd (names_iff.mp hc).2.symm hv
    split
    · rename_i hk
      obtain ⟨rs1, rs', h1, h2, h3⟩ := hreg.def_step (q := evPt f ev) multi (hold _) (by show 2 * _ ≤ _; omega) (by show _ ≤ 2 * _; omega)
        (by
          intro u hu
          obtain ⟨ev', hm, hn', hk', rfl⟩ := mem_usesOf.mp hu
          refine ⟨(hdone ev' hm).1, ?_⟩
          rw [evPt_div, evPt_div]
          intro heq
          have := ((hdone ev' hm).2 heq.symm _ hn hn').1
          rw [hk] at this; exact absurd this (by decide))
        (by
          intro u hu
          obtain ⟨ev', hm, hn', hk', rfl⟩ := mem_defsOf.mp hu
          refine ⟨(hdone ev' hm).1, ?_⟩
          rw [evPt_div, evPt_div]
          intro heq
          have := ((hdone ev' hm).2 heq.symm _ hn hn').1
          rw [hk] at this; exact absurd this (by decide))
        (toUse f ev) rfl hk hL
      unfold procDef
      have e1 : opPoint (reusedReg (f.operands ev.1)) ev.1 ev.2.1 = evPt f ev := rfl
      simp only [e1]
      rw [h1]
      refine (slotIdx_safe np hfew).bind ?_
      rintro k rfl
      have e2 : insertUse rs1 ⟨ev.2.1, evPt f ev, ev.2.2⟩ = .ok rs' := h2
      rw [e2]
      refine ⟨⟨(h.good.set ev.2.1.vreg true).set ev.2.1.vreg false, ?_⟩, rfl, rfl, rfl, rfl⟩
      intro v hv
      dsimp only [St.setRanges]
      rw [(h.good.set _ _).get_set _ hv, h.good.get_set _ hv]
      unfold Ion.upd
      by_cases hvv : v = ev.2.1.vreg.vreg
      · subst hvv
        rw [if_pos rfl, if_pos rfl]
        have eu : usesOf f ev.2.1.vreg.vreg (ev :: done) = usesOf f ev.2.1.vreg.vreg done := by simp [usesOf, hk]
        have ed : defsOf f ev.2.1.vreg.vreg (ev :: done) = evPt f ev :: defsOf f ev.2.1.vreg.vreg done := by
          simp [defsOf, hk, hn]
        have er : recs f ev.2.1.vreg.vreg (ev :: done ++ prev) = toUse f ev :: recs f ev.2.1.vreg.vreg (done ++ prev) := by
          simp [recs, hn]
        rw [eu, ed, er]
        exact h3
      · rw [if_neg hvv, if_neg hvv, if_neg hvv]
        have := h.reg v hv
        simpa [usesOf, defsOf, recs, hother v hvv] using this
    · rename_i hk
      obtain ⟨rs1, rs', h1, h2, h3⟩ := hreg.use_step (q := evPt f ev) multi (hold _) (by show 2 * _ ≤ _; omega) (by show _ < 2 * _; omega)
        (by
          intro u hu
          obtain ⟨ev', hm, hn', hk', rfl⟩ := mem_usesOf.mp hu
          exact (hdone ev' hm).1)
        (by
          intro u hu
          obtain ⟨ev', hm, hn', hk', rfl⟩ := mem_defsOf.mp hu
          refine ⟨(hdone ev' hm).1, ?_⟩
          rw [evPt_div, evPt_div]
          intro heq
          have := ((hdone ev' hm).2 heq.symm _ hn hn').2
          rw [hk'] at this; exact absurd this (by decide))
        (toUse f ev) rfl hk hL
      unfold procUse
      have e1 : opPoint (reusedReg (f.operands ev.1)) ev.1 ev.2.1 = evPt f ev := rfl
      simp only [e1]
      rw [h1]
      refine (slotIdx_safe np hfew).bind ?_
      rintro k rfl
      have e2 : insertUse rs1 ⟨ev.2.1, evPt f ev, ev.2.2⟩ = .ok rs' := h2
      rw [e2]
      refine ⟨⟨h.good.set ev.2.1.vreg true, ?_⟩, rfl, rfl, rfl, rfl⟩
      intro v hv
      dsimp only [St.setRanges]
      rw [h.good.get_set _ hv]
      unfold Ion.upd
      by_cases hvv : v = ev.2.1.vreg.vreg
      · subst hvv
        rw [if_pos rfl, if_pos rfl]
        have eu : defsOf f ev.2.1.vreg.vreg (ev :: done) = defsOf f ev.2.1.vreg.vreg done := by simp [defsOf, hk]
        have ed : usesOf f ev.2.1.vreg.vreg (ev :: done) = evPt f ev :: usesOf f ev.2.1.vreg.vreg done := by
          simp [usesOf, hk, hn]
        have er : recs f ev.2.1.vreg.vreg (ev :: done ++ prev) = toUse f ev :: recs f ev.2.1.vreg.vreg (done ++ prev) := by
          simp [recs, hn]
        rw [eu, ed, er]
        exact h3
      · rw [if_neg hvv, if_neg hvv]
        have := h.reg v hv
        simpa [usesOf, defsOf, recs, hother v hvv] using this

end Regalloc.Build
