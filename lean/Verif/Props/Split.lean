import Verif.Proofs.SplitReg

/-
C31: splitting a bundle.
-/
namespace Regalloc.Ion

/-- The spill sets after counting one more split for bundle `b`. -/
def counted (st : St) (b : Nat) : Nat → SpillSet :=
  upd st.spillsets (st.bundles b).spillset
    { st.spillsets (st.bundles b).spillset with splits := (st.spillsets (st.bundles b).spillset).splits + 1 }

/-- C31. Splitting a bundle that spans more than one instruction, at any point inside it,
never panics. There is a point `p` strictly inside the bundle and before an instruction
such that the old bundle keeps pieces before `p`, the new bundle has pieces after `p`, and
these with what was moved to the spill bundle are exactly the old ranges, with their uses,
owners and links. Nothing is moved to the spill bundle unless trimming was asked for, and
what is moved has no uses. Both halves are queued unless they are empty. -/
theorem C31_split_halves (st : St) (b at_ : Nat) (hint : Option PReg) (trim : Bool) (first last : Entry)
    (hpre : Splittable st b)
    (hf : (st.bundles b).ranges.head? = some first) (hl : (st.bundles b).ranges.getLast? = some last)
    (hcount : (st.spillsets (st.bundles b).spillset).splits < 2)
    (hspan : (last.range.to - 1) / 2 ≠ first.range.fr / 2)
    (hat : first.range.fr ≤ at_ ∧ at_ < last.range.to) :
    ∃ st' p moved, splitAndRequeue st b at_ hint trim = some st' ∧ Halved st b st' st.nBundles p moved ∧
      (trim = false → moved = []) ∧
      ((st.bundles b).fixed = false → first.range.fr < at_ → at_ % 2 = 0 → p = at_) ∧
      ((st.bundles b).fixed = false → trim = true → TailTrimmed st' b ∧ HeadTrimmed st' st.nBundles) ∧
      st'.queue = st.queue ++
        (if (st'.bundles b).ranges = [] then [] else [(b, bundlePrio (st'.bundles b).ranges, hint)]) ++
        (if (st'.bundles st.nBundles).ranges = [] then []
          else [(st.nBundles, bundlePrio (st'.bundles st.nBundles).ranges, hint)]) := by
  have hfm : first ∈ (st.bundles b).ranges := List.mem_of_head? hf
  have hlm : last ∈ (st.bundles b).ranges := List.mem_of_getLast? hl
  have hfu : ∀ p, (((st.bundles b).ranges.flatMap (fun e => (st.ranges e.index).uses)).head?).map (·.pos) = some p →
      first.range.fr ≤ p ∧ p < last.range.to := by
    intro p hp
    rw [Option.map_eq_some_iff] at hp
    obtain ⟨u, hu, rfl⟩ := hp
    obtain ⟨e, he, hue⟩ := List.mem_flatMap.mp (List.mem_of_head? hu)
    have hc := hpre.inside e he u hue
    unfold Covers at hc
    have t1 : first.range.fr ≤ e.range.fr := by
      obtain ⟨xs, hxs⟩ := List.head?_eq_some_iff.mp hf
      have ht := hpre.tidy
      rw [hxs] at ht he
      obtain ⟨c1, -, c3⟩ := tidy_cons.mp ht
      rcases List.mem_cons.mp he with rfl | he
      · exact Nat.le_refl _
      · have := c3 e he; omega
    have t2 : e.range.to ≤ last.range.to := by
      obtain ⟨xs, hxs⟩ := List.getLast?_eq_some_iff.mp hl
      have ht := hpre.tidy
      rw [hxs] at ht he
      obtain ⟨-, c2, c3⟩ := tidy_append.mp ht
      have c2 := c2.1 last (by simp)
      rw [List.mem_append, List.mem_singleton] at he
      rcases he with he | rfl
      · have := c3 e he last (by simp); omega
      · exact Nat.le_refl _
    omega
  obtain ⟨p1, p2, p3⟩ := splitPoint_bounds hat.1 hat.2 hspan hfu
  have hplan : planSplit st b at_ trim = some (.halves (locate (st.bundles b).fixed (fun r => (st.ranges r).uses)
      (st.bundles b).ranges 0 ⟨0, 0, splitPoint first.range.fr last.range.to
        ((((st.bundles b).ranges.flatMap (fun e => (st.ranges e.index).uses)).head?).map (·.pos)) at_, trim⟩)) := by
    unfold planSplit
    rw [if_neg (by omega), hf, hl]
    dsimp only
    rw [if_neg hspan]
  have hexact : first.range.fr < at_ → at_ % 2 = 0 → splitPoint first.range.fr last.range.to
        ((((st.bundles b).ranges.flatMap (fun e => (st.ranges e.index).uses)).head?).map (·.pos)) at_ = at_ := by
    intro h1 h2
    unfold splitPoint
    rw [if_neg (by omega)]
    dsimp only
    have h3 : ¬ at_ % 2 = 1 := by omega
    rw [if_neg h3, if_neg (by omega)]
  generalize splitPoint first.range.fr last.range.to
        ((((st.bundles b).ranges.flatMap (fun e => (st.ranges e.index).uses)).head?).map (·.pos)) at_ = p0 at *
  obtain ⟨X, Y, l1, l2, l3, l4⟩ := locate_spec (st.bundles b).fixed (fun r => (st.ranges r).uses) (st.bundles b).ranges []
    ⟨0, 0, p0, trim⟩ (by simpa using hpre.tidy) hpre.inside p1 ⟨last, hlm, p3⟩ (.inl ⟨rfl, first, hf, p2⟩)
  simp only [List.nil_append, List.length_nil] at l1 l2 l3 l4
  have hnofix : (st.bundles b).fixed = false →
      (locate (st.bundles b).fixed (fun r => (st.ranges r).uses) (st.bundles b).ranges 0 ⟨0, 0, p0, trim⟩).at_ = p0 ∧
      (locate (st.bundles b).fixed (fun r => (st.ranges r).uses) (st.bundles b).ranges 0 ⟨0, 0, p0, trim⟩).trim = trim := by
    intro h; rw [h]; exact locate_nofixed _ _ _ _
  generalize locate (st.bundles b).fixed (fun r => (st.ranges r).uses) (st.bundles b).ranges 0 ⟨0, 0, p0, trim⟩ = l at *
  have hin : (∃ e ∈ (st.bundles b).ranges, e.range.fr < l.at_) ∧ ∃ e ∈ (st.bundles b).ranges, l.at_ < e.range.to := by
    refine ⟨⟨first, hfm, by omega⟩, ?_⟩
    rcases l4 with ⟨e, hl4, -, -, -, h5⟩ | ⟨hl4, -, hY, -, -, -, h5⟩
    · exact ⟨e, by simp [hl4], h5⟩
    · cases Y with
      | nil => exact absurd rfl hY
      | cons e Y =>
        have hm : e ∈ (st.bundles b).ranges := by simp [hl4]
        exact ⟨e, hm, by have := h5 e (by simp); have := hpre.tidy.1 e hm; omega⟩
  have hsp : ∀ ss, ((counted st b) ss).spillBundle =
      (st.spillsets ss).spillBundle := by
    intro ss
    simp only [counted, upd]
    split
    · rename_i h; rw [h]
    · rfl
  obtain ⟨s1, d1, d2, d3⟩ := divide_work (l := l) hpre hsp l1 ⟨X, Y, l4⟩
  unfold splitAndRequeue
  rw [hplan]
  have hcnt : countSplit st b = { st with spillsets := counted st b } := by
    unfold countSplit
    rw [if_neg (by omega)]
    rfl
  simp only [Option.bind_eq_bind, Option.bind_some, hcnt, d1]
  -- the trimming step
  obtain ⟨s2, A, B, e1, e2, e3, e4, e5⟩ : ∃ s2 A B, trimHalves s1 b st.nBundles l.trim = some s2 ∧
      Work st b s2 st.nBundles l.at_ A B ∧ (l.trim = false → A = [] ∧ B = []) ∧
      (l.trim = true → TailTrimmed s2 b ∧ HeadTrimmed s2 st.nBundles) ∧ s2.queue = st.queue := by
    unfold trimHalves
    by_cases ht : l.trim = true
    · rw [if_pos ht]
      obtain ⟨s, A, t1, t2, t3⟩ := trimTail_work _ d2 (Nat.le_refl _)
      obtain ⟨s', B, t4, t5, t6, t7, t8⟩ := trimHead_work _ t2 (Nat.le_refl _)
      refine ⟨s', A, B, by rw [t1]; exact t4, t5, (fun h => by rw [ht] at h; cases h), fun _ => ⟨?_, t6⟩,
        by rw [trimHead_queue _ _ t4, trimTail_queue _ _ t1, d3]⟩
      intro e he
      rw [t7] at he
      rw [t8 e (List.mem_of_getLast? he)]
      exact t3 e he
    · rw [if_neg ht]
      exact ⟨s1, [], [], rfl, d2, fun _ => ⟨rfl, rfl⟩, fun h => absurd h ht, d3⟩
  rw [e1]
  simp only [Option.bind_some]
  obtain ⟨s3, q0, q1, q2, q3, q4, q5, q6, q7, q8, q9, q10, q11⟩ := requeue_spec s2 b hint
  rw [q0]
  simp only [Option.bind_some]
  obtain ⟨s4, r0, r1, r2, r3, r4, r5, r6, r7, r8, r9, r10, r11⟩ := requeue_spec s3 st.nBundles hint
  have hbn : b ≠ st.nBundles := by have := hpre.bundle; omega
  have hb1 : (s4.bundles b).ranges = (s2.bundles b).ranges := by rw [r6 b hbn, q7]
  have hn1 : (s4.bundles st.nBundles).ranges = (s2.bundles st.nBundles).ranges := by rw [r7, q6 _ hbn.symm]
  obtain ⟨moved, hm, hperm⟩ := e2.halved (st' := s4) l1 hin (by rw [r1, q1]) (by rw [r2, q2]) (by rw [r3, q3])
    (by rw [r5, q5]) (fun c h1 h2 => by rw [r6 c h2, q6 c h1]) hb1 (by rw [r6 b hbn, q8]) hn1
    (by rw [r8, q6 _ hbn.symm]) (by rw [r4, q4]) (fun h => by
      rw [r6 b hbn, (q11 (by rw [← hb1]; exact h)).1]) (fun h => by
      rw [(r11 (by rw [q6 _ hbn.symm, ← hn1]; exact h)).1, q6 _ hbn.symm]
      unfold bundleLimit
      rw [q1])
    (fun h hm => by rw [r6 b hbn]; exact (q11 (by rw [← hb1]; exact h)).2 (by rw [← r6 b hbn]; exact hm))
    (fun h hm hv => by
      have := (r11 (by rw [q6 _ hbn.symm, ← hn1]; exact h)).2 hm
      rw [q6 _ hbn.symm] at this
      unfold FewUses at this ⊢
      rw [q1] at this
      exact this hv)
  refine ⟨s4, l.at_, moved, r0, hm, ?_, ?_, ?_, ?_⟩
  · intro ht
    have hlt : l.trim = false := by
      cases h : l.trim with
      | false => rfl
      | true => have := l3 h; rw [ht] at this; cases this
    obtain ⟨rfl, rfl⟩ := e3 hlt
    exact List.perm_nil.mp hperm
  · intro h1 h2 h3
    rw [(hnofix h1).1]; exact hexact h2 h3
  · intro h1 h2
    obtain ⟨t1, t2⟩ := e4 ((hnofix h1).2.trans h2)
    constructor
    · intro e he; rw [hb1] at he; rw [r1, q1]; exact t1 e he
    · intro e he; rw [hn1] at he; rw [r1, q1]; exact t2 e he
  · rw [r10, q10, e5, hb1, hn1, q6 _ hbn.symm]

/-- C31. Pieces are disjoint: a point of an old range is in exactly one piece, which
belongs to the registers of that range. -/
theorem C31_point_in_one_piece {st0 st : St} {es0 es : List Entry} (h : Refines st0 es0 st es) (h0 : Tidy es0)
    (e0 : Entry) (he0 : e0 ∈ es0) (p : Nat) (hp : Covers e0.range p) :
    ∃ e ∈ es, Covers e.range p ∧ (∀ v, Owns st v e.index ↔ Owns st0 v e0.index) ∧
      ∀ e' ∈ es, Covers e'.range p → e' = e := by
  obtain ⟨e, he, hc⟩ := h.cover e0 he0 p hp
  refine ⟨e, he, hc, ?_, ?_⟩
  · obtain ⟨e1, he1, hpc, ho⟩ := h.piece e he
    have : e1 = e0 := by
      by_cases hne : e1 = e0
      · exact hne
      · have := h0.pair he1 he0 hne
        unfold PieceOf at hpc; unfold Covers at *
        omega
    rw [this] at ho; exact ho
  · intro e' he' hc'
    by_cases hne : e' = e
    · exact hne
    · have := h.tidy.pair he' he hne
      unfold Covers at *
      omega

/-- C31. The early and the late point of an instruction stay together. -/
theorem C31_instruction_not_split {st0 st : St} {es0 es : List Entry} (h : Refines st0 es0 st es) (h0 : Tidy es0)
    (e0 : Entry) (he0 : e0 ∈ es0) (i : Nat) (h1 : Covers e0.range (2 * i)) (h2 : Covers e0.range (2 * i + 1))
    (e : Entry) (he : e ∈ es) : Covers e.range (2 * i) ↔ Covers e.range (2 * i + 1) := by
  obtain ⟨e1, he1, hpc, -⟩ := h.piece e he
  by_cases hne : e1 = e0
  · subst hne
    unfold PieceOf at hpc; unfold Covers at *
    constructor <;> rintro ⟨a, b⟩ <;> constructor <;> omega
  · have := h0.pair he1 he0 hne
    unfold PieceOf at hpc; unfold Covers at *
    constructor <;> rintro ⟨a, b⟩ <;> omega

/-- C31. Dissolving a bundle into minimal bundles never panics and loses nothing: see
`Dissolved` and `Replaces`. -/
theorem C31_split_minimal (st : St) (b : Nat) (hint : Option PReg) (hpre : Splittable st b)
    (hdef : ∀ e ∈ (st.bundles b).ranges, DefFirst e (st.ranges e.index).uses) :
    ∃ st' spill chunks, splitMinimal st b hint = some st' ∧ Dissolved st b st' spill chunks := by
  -- the spill bundle
  obtain ⟨sA, spill, hA, a1, a2, a3, a4, a5, a6, a7, a8, a9, a10⟩ : ∃ sA spill, spillBundle st b = (sA, spill) ∧
      sA.ranges = st.ranges ∧ sA.nRanges = st.nRanges ∧ sA.vregs = st.vregs ∧ sA.bundles b = st.bundles b ∧
      (sA.spillsets (st.bundles b).spillset).spillBundle = some spill ∧ spill ≠ b ∧
      (spill < sA.nBundles ∧ st.nBundles ≤ sA.nBundles ∧
        (sA.bundles spill).ranges = spillRanges st (st.bundles b).spillset) ∧
      (∀ c < st.nBundles, sA.bundles c = st.bundles c ∧
        ((st.spillsets (st.bundles b).spillset).spillBundle ≠ some c → c ≠ spill)) ∧
      (∀ c, st.nBundles ≤ c → (c = spill ∧ c < sA.nBundles ∨ c ≠ spill ∧ sA.nBundles ≤ c)) ∧ sA.queue = st.queue := by
    have hb := hpre.bundle
    unfold spillBundle spillRanges
    dsimp only
    cases hc : (st.spillsets (st.bundles b).spillset).spillBundle with
    | some s =>
      have := hpre.spill s hc
      exact ⟨st, s, rfl, rfl, rfl, rfl, rfl, hc, this.1, ⟨this.2, Nat.le_refl _, rfl⟩,
        (fun c _ => ⟨rfl, fun h1 h2 => h1 (by rw [h2])⟩), (fun c _ => by omega), rfl⟩
    | none =>
      refine ⟨_, _, rfl, rfl, rfl, rfl, ?_, ?_, by omega, ⟨?_, ?_, ?_⟩, ?_, ?_, rfl⟩
      · simp [upd, St.modS, show b ≠ st.nBundles by omega]
      · simp [upd, St.modS]
      · simp
      · simp
      · simp [upd, Bundle.fresh]
      · intro c hc
        refine ⟨?_, fun _ => by omega⟩
        simp [upd, St.modS, show c ≠ st.nBundles by omega]
      · intro c hc; dsimp only; omega
  unfold splitMinimal
  rw [hA]
  dsimp only
  rw [a4]
  -- the ranges
  generalize hs1 : sA.modB b (fun x => { x with ranges := [] }) = s1
  have b1 : s1.ranges = st.ranges := by rw [← hs1]; exact a1
  have b2 : s1.nRanges = st.nRanges := by rw [← hs1]; exact a2
  have b3 : s1.vregs = st.vregs := by rw [← hs1]; exact a3
  have b4 : (s1.bundles b).ranges = [] := by rw [← hs1]; simp [St.modB, upd]
  have b5 : s1.spillsets = sA.spillsets := by rw [← hs1]; rfl
  have b6 : s1.nBundles = sA.nBundles := by rw [← hs1]; rfl
  have b8 : s1.queue = st.queue := by rw [← hs1]; exact a10
  have b7 : ∀ c, c ≠ b → s1.bundles c = sA.bundles c := by
    intro c hc; rw [← hs1]; simp [St.modB, upd, hc]
  clear hs1
  have hbuilt : Built s1 spill (st.bundles b).spillset ⟨s1, [], [], []⟩ [] [] [] := by
    constructor
    case nR => rfl
    case new => intro k p h; simp at h
    case old => intro j _; simp
    case lrs => rfl
    case nB => rfl
    case bs => rfl
    case fresh => intro c h1 h2; dsimp only at h2; omega
    case pcs => intro k p h; simp at h
    case sp => simp
    case spS => intro x; simp
    case others => intro c _ _; rfl
    case rest => exact ⟨rfl, rfl, rfl⟩
    case spLt => rw [b6]; exact a7.1
    case spN => exact List.nodup_nil
  have hnd : ((st.bundles b).ranges.map (·.index)).Nodup := by
    refine List.pairwise_map.mpr (hpre.tidy.2.imp_of_mem ?_)
    intro x y hx hy h hxy
    have h1 := (hpre.range x hx).1
    have h2 := (hpre.range y hy).1
    rw [hxy, h2] at h1
    have := hpre.tidy.1 x hx
    have e1 := congrArg RKey.fr h1
    have e2 := congrArg RKey.to h1
    omega
  obtain ⟨m, chunks, S, c1, c2, c3⟩ := minEntries_spec (st.bundles b).ranges hbuilt rfl (by
    intro e he
    rw [b1, b2]
    obtain ⟨v, hv, -⟩ := hpre.vreg e he
    exact ⟨(hpre.range e he).2, by simp, by rw [hv]; simp, hpre.tidy.1 e he, hpre.inside e he, hdef e he⟩) hnd
  rw [List.nil_append] at c2
  simp only [Option.bind_eq_bind, c1, Option.bind_some]
  -- the registers' lists
  have hvs : ∀ v ∈ (st.bundles b).ranges.map (fun e => (sA.ranges e.index).vreg), v ≠ none := by
    intro v hv
    obtain ⟨e, he, rfl⟩ := List.mem_map.mp hv
    obtain ⟨w, hw, -⟩ := hpre.vreg e he
    rw [a1, hw]; simp
  obtain ⟨f, d1, d2⟩ := dropOld_fold ((st.bundles b).ranges.map (·.index)) _ m.st hvs
  rw [d1]
  simp only [Option.bind_some]
  have hflat : ∀ p ∈ chunks.flatten, p.vreg ≠ none := by
    intro p hp
    obtain ⟨qs, hq, hp⟩ := List.mem_flatten.mp hp
    obtain ⟨i, hi, rfl⟩ := List.mem_iff_getElem.mp hq
    have hlen := c3.length_eq
    have := c3.get (i := i) (by omega) hi
    simp only [List.get_eq_getElem] at this
    rw [this.owner p hp, b1]
    obtain ⟨w, hw, -⟩ := hpre.vreg ((st.bundles b).ranges[i]'(by omega)) (List.getElem_mem _)
    rw [hw]; simp
  obtain ⟨g, e1, e2⟩ := addNew_fold m.newLrs { m.st with vregs := f } (by
    intro x hx
    rw [c2.lrs] at hx
    obtain ⟨y, hy, rfl⟩ := List.mem_map.mp hx
    exact hflat _ (List.fst_mem_of_mem_zipIdx hy))
  rw [e1]
  simp only [Option.bind_some]
  obtain ⟨st', f1, f2, f3, f4, f5, f6, f7, f8, ⟨q, f9, f11, f12⟩, f13, f10⟩ := requeue_fold hint m.newBundles { m.st with vregs := g } (by
    rw [c2.bs]; exact List.nodup_range')
  have hmb : ∀ c, c ∈ m.newBundles ↔ s1.nBundles ≤ c ∧ c < m.st.nBundles := by
    intro c; rw [c2.nB]
    have := List.mem_range'_1 (m := c) (s := s1.nBundles) (n := m.newBundles.length)
    rw [← c2.bs] at this
    exact this
  refine ⟨st', spill, chunks, f1, ?_⟩
  constructor
  case replaced => rw [b1] at c3; exact c3
  case emptied =>
    have hbl := hpre.bundle
    rw [(f8 b).1, c2.others b (by omega) a6.symm, b4]
  case isSpill => rw [f6]; dsimp only; rw [c2.rest.1, b5, a5]
  case count => rw [f3]; dsimp only; rw [c2.nR, b2]
  case ranges =>
    intro k p hk
    rw [f2, ← b2]; exact c2.new k p hk
  case keptRanges =>
    intro j hj hne
    rw [f2]; dsimp only
    rw [c2.old j (by omega), if_neg, b1]
    simp only [List.append_nil, List.mem_map, List.mem_reverse, not_exists, not_and]
    exact hne
  case owners =>
    intro w i
    unfold Owns
    rw [f4]; dsimp only
    rw [e2]; dsimp only
    have hfw : ∀ x, x ∈ f w ↔ x ∈ st.vregs w ∧ ∀ e ∈ (st.bundles b).ranges, e.index ≠ x.index := by
      intro x
      rw [d2, c2.rest.2.1, b3]
      split
      · rw [List.mem_filter]
        simp only [List.contains_eq_mem, List.mem_map, Bool.not_eq_true', decide_eq_false_iff_not, not_exists, not_and]
      · rename_i hns
        refine ⟨fun hx => ⟨hx, ?_⟩, fun h => h.1⟩
        intro e he hei
        obtain ⟨v, hv1, hv2⟩ := hpre.vreg e he
        have : w = v := (hv2 w).mp ⟨x, hx, hei.symm⟩
        subst this
        exact hns (List.mem_map.mpr ⟨e, he, by rw [a1, hv1]⟩)
    have hnew : ∀ x : Entry, x ∈ (m.newLrs.filter (fun x => decide (x.1 = some w))).map
        (fun x => (⟨(m.st.ranges x.2).range, x.2⟩ : Entry)) ↔
        ∃ k p, x = ⟨p.range, st.nRanges + k⟩ ∧ chunks.flatten[k]? = some p ∧ p.vreg = some w := by
      intro x
      rw [List.mem_map]
      constructor
      · rintro ⟨y, hy, rfl⟩
        obtain ⟨hy1, hy2⟩ := List.mem_filter.mp hy
        rw [c2.lrs] at hy1
        obtain ⟨⟨p, k⟩, hz, rfl⟩ := List.mem_map.mp hy1
        have hk := List.mem_zipIdx_iff_getElem?.mp hz
        dsimp only at hk hy2 ⊢
        exact ⟨k, p, by rw [c2.new k p hk, b2], hk, by simpa using hy2⟩
      · rintro ⟨k, p, rfl, hk, hv⟩
        refine ⟨(p.vreg, s1.nRanges + k), List.mem_filter.mpr ⟨?_, by simp [hv]⟩, ?_⟩
        · rw [c2.lrs]
          exact List.mem_map.mpr ⟨(p, k), List.mem_zipIdx_iff_getElem?.mpr hk, rfl⟩
        · dsimp only; rw [c2.new k p hk, b2]
    constructor
    · rintro ⟨x, hx, rfl⟩
      rcases List.mem_append.mp hx with hx | hx
      · obtain ⟨h1, h2⟩ := (hfw x).mp hx
        exact .inl ⟨hpre.fresh w x h1, h2, x, h1, rfl⟩
      · obtain ⟨k, p, rfl, h1, h2⟩ := (hnew x).mp hx
        exact .inr ⟨k, p, rfl, h1, h2⟩
    · rintro (⟨h1, h2, x, hx, rfl⟩ | ⟨k, p, rfl, h1, h2⟩)
      · exact ⟨x, List.mem_append.mpr (.inl ((hfw x).mpr ⟨hx, h2⟩)), rfl⟩
      · exact ⟨⟨p.range, st.nRanges + k⟩, List.mem_append.mpr (.inr ((hnew _).mpr ⟨k, p, rfl, h1, h2⟩)), rfl⟩
  case spilled =>
    refine ⟨S, ?_, c2.spN, ?_⟩
    · rw [← a7.2.2]
      conv => lhs; unfold spillRanges
      rw [f6]; dsimp only
      rw [c2.rest.1, b5, a5]
      dsimp only
      rw [(f8 spill).1, c2.sp, b7 spill a6]
    · intro x; rw [c2.spS x, b2]
  case bundles =>
    intro k p hk hp
    rcases c2.pcs k p hk with h1 | ⟨c, g1, g2, g3, g4⟩
    · exact absurd h1 hp
    · have hcm := (hmb c).mpr ⟨g1, g2⟩
      obtain ⟨k', p', u, k1, k2, k3, k4, k5, k6⟩ := c2.fresh c g1 g2
      rw [g4] at k6
      have hkk : k = k' ∧ p.range = p'.range := by
        have := congrArg Bundle.ranges k6
        dsimp only at this
        injection this with this
        injection this with t1 t2
        exact ⟨by omega, t1⟩
      have hpp : p = p' := by
        rw [hkk.1, k1] at hk; injection hk with hk; exact hk.symm
      subst hpp
      obtain ⟨g5, ⟨prio, g6⟩, g7⟩ := f10 c hcm p (s1.nRanges + k) u (by dsimp only; rw [g4]) (c2.new k p hk) k3 k4 k5
      refine ⟨c, by omega, by rw [f5]; exact g2, g3, ?_, ?_, g5, ⟨prio, hint, g6⟩, by rw [g7, k3]; simp⟩
      · rw [(f8 c).1]; dsimp only; rw [g4, b2]
      · rw [(f8 c).2]; dsimp only; rw [g4]
  case made =>
    intro c h1 h2
    by_cases hc : c = spill
    · exact .inl hc
    · right
      obtain ⟨k, p, u, k1, k2, -⟩ := c2.fresh c (by have := a9 c h1; omega) (by rw [f5] at h2; exact h2)
      exact ⟨k, p, k1, k2, by rw [k2]; simpa using hc⟩
  case listed =>
    intro h0 w
    rw [f4]; dsimp only
    rw [e2, List.map_append, List.nodup_append]
    refine ⟨?_, ?_, ?_⟩
    · dsimp only
      rw [d2, c2.rest.2.1, b3]
      split
      · exact (h0 w).sublist (List.filter_sublist.map _)
      · exact h0 w
    · rw [List.map_map]
      have hl : (m.newLrs.map (·.2)).Nodup := by
        rw [c2.lrs, List.map_map]
        refine List.pairwise_map.mpr ?_
        have : chunks.flatten.zipIdx.Pairwise (fun a b => a.2 < b.2) := by
          rw [← List.pairwise_map (f := fun x : LRange × Nat => x.2) (R := (· < ·)), List.zipIdx_map_snd]
          exact List.pairwise_lt_range'
        exact this.imp (fun h => by simp only [Function.comp]; omega)
      exact hl.sublist (List.filter_sublist.map _)
    · rintro i hi j hj rfl
      obtain ⟨x, hx, rfl⟩ := List.mem_map.mp hi
      obtain ⟨y, hy, he⟩ := List.mem_map.mp hj
      have h1 : x.index < st.nRanges := by
        dsimp only at hx
        rw [d2, c2.rest.2.1, b3] at hx
        split at hx
        · exact hpre.fresh w x (List.mem_filter.mp hx).1
        · exact hpre.fresh w x hx
      obtain ⟨z, hz, rfl⟩ := List.mem_map.mp hy
      have hz := (List.mem_filter.mp hz).1
      rw [c2.lrs] at hz
      obtain ⟨t, -, rfl⟩ := List.mem_map.mp hz
      dsimp only at he
      omega
  case queued =>
    have hall : m.newBundles.filter (fun c => decide ((m.st.bundles c).ranges ≠ [])) = m.newBundles := by
      rw [List.filter_eq_self]
      intro c hc
      rw [hmb] at hc
      obtain ⟨k, p, u, -, -, -, -, -, k6⟩ := c2.fresh c hc.1 hc.2
      rw [k6]; simp
    dsimp only at f11 f9
    refine ⟨q, ?_, ?_, ?_⟩
    · rw [f9, c2.rest.2.2, b8]
    · rw [f11, hall, c2.bs]; exact List.nodup_range'
    · intro c
      rw [f11, hall, hmb, f5]
      dsimp only
      have := a9 c
      omega
  case limits =>
    intro c h1 h2 h3 h4
    have hcm : c ∈ m.newBundles := by
      rw [hmb]
      rw [f5] at h2
      have := a9 c h1
      dsimp only at h2
      omega
    rw [(f8 c).1] at h4
    rw [f13 c hcm h4, (f8 c).1]
    unfold bundleLimit
    rw [f2]
  case keptBundles =>
    intro c hc hcb hcs
    obtain ⟨h1, h2⟩ := a8 c hc
    rw [f7 c (by rw [hmb]; omega)]
    dsimp only
    rw [c2.others c (by omega) (h2 hcs), b7 c hcb, h1]

theorem splittable_count {st : St} {b : Nat} (h : Splittable st b) : Splittable (countSplit st b) b := by
  unfold countSplit
  split
  · exact h
  · refine ⟨h.bundle, h.nonempty, h.tidy, h.range, h.link, h.vreg, h.inside, h.sorted, h.fresh, ?_⟩
    intro s hs
    dsimp only [St.modS] at hs
    rw [upd_same] at hs
    exact h.spill s hs

/-- C31. A bundle whose spill set was split twice already, or that spans one instruction, is
dissolved. So splitting never panics, whatever the bundle. -/
theorem C31_split_dissolves (st : St) (b at_ : Nat) (hint : Option PReg) (trim : Bool) (first last : Entry)
    (hpre : Splittable st b) (hdef : ∀ e ∈ (st.bundles b).ranges, DefFirst e (st.ranges e.index).uses)
    (hf : (st.bundles b).ranges.head? = some first) (hl : (st.bundles b).ranges.getLast? = some last)
    (hmin : (st.spillsets (st.bundles b).spillset).splits ≥ 2 ∨ (last.range.to - 1) / 2 = first.range.fr / 2) :
    ∃ st' spill chunks, splitAndRequeue st b at_ hint trim = some st' ∧
      Dissolved (countSplit st b) b st' spill chunks := by
  have hplan : planSplit st b at_ trim = some .minimal := by
    unfold planSplit
    by_cases hc : (st.spillsets (st.bundles b).spillset).splits ≥ 2
    · rw [if_pos hc]
    · rw [if_neg hc, hf, hl]
      dsimp only
      rw [if_pos (hmin.resolve_left hc)]
  have hr : (countSplit st b).ranges = st.ranges ∧ (countSplit st b).bundles = st.bundles := by
    unfold countSplit; split <;> exact ⟨rfl, rfl⟩
  obtain ⟨st', spill, chunks, h1, h2⟩ := C31_split_minimal (countSplit st b) b hint (splittable_count hpre) (by
    rw [hr.1, hr.2]; exact hdef)
  refine ⟨st', spill, chunks, ?_, h2⟩
  unfold splitAndRequeue
  rw [hplan]
  exact h1

/-- C31. Every spill bundle that splitting makes is recorded, so that it is given a slot. -/
theorem C31_spill_bundle_recorded (st st' : St) (b at_ : Nat) (hint : Option PReg) (trim : Bool)
    (hreg : Registered st) (hs : splitAndRequeue st b at_ hint trim = some st') : Registered st' := by
  unfold splitAndRequeue at hs
  rw [bindSome] at hs
  obtain ⟨plan, -, hs⟩ := hs
  dsimp only at hs
  cases plan with
  | minimal => exact (hreg.count b).splitMinimal hs
  | halves l =>
    dsimp only at hs
    rw [bindSome] at hs
    obtain ⟨⟨st1, nb⟩, h1, hs⟩ := hs
    rw [bindSome] at hs
    obtain ⟨st2, h2, hs⟩ := hs
    rw [bindSome] at hs
    obtain ⟨st3, h3, hs⟩ := hs
    refine Registered.requeue (Registered.requeue ?_ h3) hs
    have h0 := (hreg.count b).divide h1
    unfold trimHalves at h2
    split at h2
    · rw [bindSome] at h2
      obtain ⟨st4, h4, h2⟩ := h2
      exact Registered.trimHead _ (Registered.trimTail _ h0 h4) h2
    · cases h2; exact h0

/-! ### Concrete cases -/

/-- One bundle with two ranges of register 0: defined at 4, used in instructions 6, 11
and 13. -/
def exSplit (splits : Nat) : St :=
  let u (k : OperandKind) (p : Nat) (c : OperandConstraint) : Use := ⟨⟨VReg.new 0 .Int, c, k, .Early⟩, p, 0⟩
  { ranges := fun i => match i with
      | 0 => ⟨⟨5, 14⟩, some 0, some 0, true, [u .Def 5 .Reg, u .Use 12 .Any]⟩
      | 1 => ⟨⟨20, 30⟩, some 0, some 0, false, [u .Use 22 .Reg, u .Use 27 .Reg]⟩
      | _ => .fresh ⟨0, 0⟩
    nRanges := 2
    bundles := fun i => match i with
      | 0 => { Bundle.fresh with ranges := [⟨⟨5, 14⟩, 0⟩, ⟨⟨20, 30⟩, 1⟩] }
      | _ => .fresh
    nBundles := 1
    spillsets := fun _ => ⟨none, none, .Int, none, false, splits, ⟨4, 30⟩⟩
    nSpillsets := 1
    vregs := fun v => match v with
      | 0 => [⟨⟨5, 14⟩, 0⟩, ⟨⟨20, 30⟩, 1⟩]
      | _ => []
    queue := []
    spilled := [] }

/-- It meets the hypotheses. -/
theorem exSplit_ok (n : Nat) : Splittable (exSplit n) 0 := by
  have hown : ∀ w i, Owns (exSplit n) w i → w = 0 := by
    intro w i h
    match w with
    | 0 => rfl
    | w + 1 => obtain ⟨e, he, -⟩ := h; exact absurd he (List.not_mem_nil (a := e))
  have h : ∀ e ∈ ((exSplit n).bundles 0).ranges, e = ⟨⟨5, 14⟩, 0⟩ ∨ e = ⟨⟨20, 30⟩, 1⟩ := by
    intro e he
    have : e ∈ [(⟨⟨5, 14⟩, 0⟩ : Entry), ⟨⟨20, 30⟩, 1⟩] := he
    simpa using this
  constructor
  case bundle => exact Nat.lt_succ_self 0
  case nonempty => simp [exSplit]
  case tidy => simp [exSplit, Tidy]
  case range => intro e he; rcases h e he with rfl | rfl <;> simp [exSplit]
  case link => intro e he; rcases h e he with rfl | rfl <;> rfl
  case vreg =>
    intro e he
    refine ⟨0, by rcases h e he with rfl | rfl <;> rfl, fun w => ⟨hown w _, ?_⟩⟩
    rintro rfl
    rcases h e he with rfl | rfl <;> simp [Owns, exSplit]
  case inside => intro e he; rcases h e he with rfl | rfl <;> simp [exSplit, Covers]
  case sorted => intro e he; rcases h e he with rfl | rfl <;> simp [exSplit]
  case fresh =>
    intro v e he
    match v with
    | 0 => have : e ∈ [(⟨⟨5, 14⟩, 0⟩ : Entry), ⟨⟨20, 30⟩, 1⟩] := he
           simp at this; rcases this with rfl | rfl <;> simp [exSplit]
    | w + 1 => exact absurd he (List.not_mem_nil (a := e))
  case spill => intro s hs; simp [exSplit] at hs

/-- Split at 24 with trimming: the first half ends after the use at 22, the second starts
with the instruction of the use at 27, the rest is in the spill bundle. -/
example : (splitAndRequeue (exSplit 0) 0 24 none true).map (fun st =>
      ((st.bundles 0).ranges, (st.bundles 1).ranges, (st.bundles 2).ranges, st.queue.map (·.1))) =
    some ([⟨⟨5, 14⟩, 0⟩, ⟨⟨20, 24⟩, 1⟩], [⟨⟨26, 30⟩, 2⟩], [⟨⟨24, 26⟩, 3⟩], [0, 1]) := by decide +kernel

/-- In the gap between the ranges nothing is cut; without trimming nothing is spilled. -/
example : (splitAndRequeue (exSplit 0) 0 15 none false).map (fun st =>
      ((st.bundles 0).ranges, (st.bundles 1).ranges, st.nRanges)) =
    some ([⟨⟨5, 14⟩, 0⟩], [⟨⟨20, 30⟩, 1⟩], 2) := by decide +kernel

/-- After two splits the bundle is dissolved. -/
example : (splitAndRequeue (exSplit 2) 0 24 none true).map (fun st =>
      ((List.range 5).map (fun b => (st.bundles b).ranges), st.vregs 0, st.queue.map (·.1))) =
    some ([[], [⟨⟨6, 14⟩, 3⟩, ⟨⟨20, 30⟩, 6⟩], [⟨⟨5, 6⟩, 2⟩], [⟨⟨22, 23⟩, 4⟩], [⟨⟨26, 28⟩, 5⟩]],
      [⟨⟨5, 6⟩, 2⟩, ⟨⟨6, 14⟩, 3⟩, ⟨⟨22, 23⟩, 4⟩, ⟨⟨26, 28⟩, 5⟩, ⟨⟨20, 30⟩, 6⟩], [2, 3, 4]) := by decide +kernel

example (n : Nat) : ∀ e ∈ ((exSplit n).bundles 0).ranges, DefFirst e ((exSplit n).ranges e.index).uses := by
  intro e he
  have : e ∈ [(⟨⟨5, 14⟩, 0⟩ : Entry), ⟨⟨20, 30⟩, 1⟩] := he
  simp at this
  rcases this with rfl | rfl
  · refine ⟨?_, ?_, ?_⟩ <;> simp [exSplit]
  · refine ⟨?_, ?_, ?_⟩ <;> simp [exSplit]

example (n : Nat) : Registered (exSplit n) := by intro ss s h; simp [exSplit] at h

/-- The bundle with a definition in the middle of its range. -/
def exMidDef : St :=
  { exSplit 2 with
    ranges := fun i => if i = 0 then ⟨⟨0, 14⟩, some 0, some 0, true, [⟨⟨VReg.new 0 .Int, .Reg, .Def, .Early⟩, 8, 0⟩]⟩
      else .fresh ⟨0, 0⟩
    nRanges := 1
    bundles := fun i => if i = 0 then { Bundle.fresh with ranges := [⟨⟨0, 14⟩, 0⟩] } else .fresh
    vregs := fun v => if v = 0 then [⟨⟨0, 14⟩, 0⟩] else [] }

/-- C31, limit of the claim: when a definition lies inside its range and not at the start,
dissolving the bundle drops the points before it. -/
theorem C31_dissolve_needs_def_first :
    ∃ st', splitAndRequeue exMidDef 0 4 none true = some st' ∧ Covers ⟨0, 14⟩ 4 ∧
      ∀ e ∈ st'.vregs 0, ¬ Covers e.range 4 := by
  have h : (splitAndRequeue exMidDef 0 4 none true).map (fun st => st.vregs 0) =
      some [⟨⟨8, 10⟩, 1⟩, ⟨⟨10, 14⟩, 2⟩] := by decide +kernel
  rw [Option.map_eq_some_iff] at h
  obtain ⟨st', h1, h2⟩ := h
  refine ⟨st', h1, by simp [Covers], ?_⟩
  rw [h2]
  simp [Covers]

/-- C31, limit of the claim on cached properties: recomputing them for a bundle of two
ranges forgets that it has a fixed-register use. -/
theorem C31_recompute_forgets_fixed :
    ∃ (st st' : St) (u : Use), u ∈ (st.ranges 1).uses ∧ (∃ e ∈ (st.bundles 0).ranges, e.index = 1) ∧
      (∃ r, u.op.constraint = .FixedReg r) ∧ recomputeBundle st 0 = some st' ∧ (st'.bundles 0).fixed = false := by
  have e : (recomputeBundle ((exSplit 0).modR 1 (fun r => { r with
      uses := [⟨⟨VReg.new 0 .Int, .FixedReg (PReg.new 3 .Int), .Use, .Early⟩, 22, 0⟩] })) 0).map
      (fun st => (st.bundles 0).fixed) = some false := by decide +kernel
  rw [Option.map_eq_some_iff] at e
  obtain ⟨st', h1, h2⟩ := e
  exact ⟨_, st', ⟨⟨VReg.new 0 .Int, .FixedReg (PReg.new 3 .Int), .Use, .Early⟩, 22, 0⟩, by decide +kernel,
    by decide +kernel, ⟨_, rfl⟩, h1, h2⟩

end Regalloc.Ion
