import Verif.Proofs.Recut
import Mathlib.Data.List.Nodup

/-
Splitting a bundle in two cuts up its ranges. Helper lemmas for C40.
-/
namespace Regalloc.Ion

theorem nodup_length_le_one {α : Type} {l : List α} (h : l.Nodup) (h1 : ∀ a ∈ l, ∀ b ∈ l, a = b) : l.length ≤ 1 := by
  match l, h, h1 with
  | [], _, _ => simp
  | [_], _, _ => simp
  | a :: b :: l, h, h1 =>
    have := h1 a (by simp) b (by simp)
    rw [this] at h
    simp at h

theorem tidy_eq {es : List Entry} (h : Tidy es) {a b : Entry} (ha : a ∈ es) (hb : b ∈ es) {p : Nat} (h1 : Covers a.range p)
    (h2 : Covers b.range p) : a = b := by
  obtain ⟨-, h⟩ := h
  induction es with
  | nil => cases ha
  | cons x xs ih =>
    rw [List.pairwise_cons] at h
    unfold Covers at h1 h2
    rcases List.mem_cons.mp ha with rfl | ha'
    · rcases List.mem_cons.mp hb with rfl | hb'
      · rfl
      · have := h.1 b hb'; omega
    · rcases List.mem_cons.mp hb with rfl | hb'
      · have := h.1 a ha'; omega
      · exact ih ha' hb' h.2

theorem tidy_apart {es : List Entry} (h : Tidy es) {a b : Entry} (ha : a ∈ es) (hb : b ∈ es) (hne : a ≠ b) :
    Apart a.range b.range := fun _ ⟨h1, h2⟩ => hne (tidy_eq h ha hb h1 h2)

/-- Entries of distinct ranges have distinct indices. -/
theorem tidy_indices {st : St} {es : List Entry} (h : Tidy es) (hr : ∀ e ∈ es, (st.ranges e.index).range = e.range) :
    (es.map (·.index)).Nodup := by
  rw [List.Nodup, List.pairwise_map]
  refine List.Pairwise.imp_of_mem ?_ h.2
  intro a b ha hb hab hi
  have h1 := hr a ha
  rw [hi, hr b hb] at h1
  have := h.1 a ha
  rw [← h1] at hab this
  omega

section
variable {st0 st : St} {b : Nat}

/-- The uses of a bundle are all different. -/
theorem Shape.usesIn_nodup (h : Shape st0 st) (hb : b < st.nBundles) (hbs : ¬ IsSpill st b) :
    (usesIn st (st.bundles b).ranges).Nodup := by
  unfold usesIn
  rw [List.nodup_flatMap]
  refine ⟨fun e he => (h.neat b e ⟨hb, he⟩).nodup, ?_⟩
  have ht := h.tidy b hb hbs
  have := tidy_indices ht (fun e he => (h.neat b e ⟨hb, he⟩).range)
  rw [List.Nodup, List.pairwise_map] at this
  refine List.Pairwise.imp_of_mem ?_ this
  intro a c ha hc hac
  rw [Function.onFun, List.disjoint_left]
  intro u hu hu'
  exact hac (h.once b a b c ⟨hb, ha⟩ ⟨hb, hc⟩ u hu u hu' rfl rfl).1

/-- Nothing but the shape is needed for splitting. -/
theorem Shape.splittable (h : Shape st0 st) (hb : b < st.nBundles) (hbs : ¬ IsSpill st b) (hne : (st.bundles b).ranges ≠ []) :
    Splittable st b where
  bundle := hb
  nonempty := hne
  tidy := h.tidy b hb hbs
  range := fun e he => ⟨(h.neat b e ⟨hb, he⟩).range, (h.neat b e ⟨hb, he⟩).index⟩
  link := fun e he => (h.neat b e ⟨hb, he⟩).link
  vreg := by
    intro e he
    obtain ⟨v, hv⟩ := (h.neat b e ⟨hb, he⟩).owner
    rcases h.kind b e ⟨hb, he⟩ with ⟨h1, -⟩ | ⟨-, h1⟩
    · exact absurd h1 hbs
    · obtain ⟨w, h2, h3⟩ := h1.vreg
      have := (hv w).mp h3
      subst this
      exact ⟨w, h2, hv⟩
  inside := fun e he => (h.neat b e ⟨hb, he⟩).inside
  sorted := by
    intro e he
    rcases h.kind b e ⟨hb, he⟩ with ⟨h1, -⟩ | ⟨-, h1⟩
    · exact absurd h1 hbs
    · exact h1.sorted
  fresh := by
    intro v e he
    obtain ⟨c, e', h1, h2⟩ := h.housed v e he
    rw [← h2]; exact (h.neat c e' h1).index
  spill := by
    intro s hs
    refine ⟨?_, (h.spillOk _ s hs).1⟩
    rintro rfl
    exact hbs hs

theorem Shape.defFirst (h : Shape st0 st) (hb : b < st.nBundles) (hbs : ¬ IsSpill st b) :
    ∀ e ∈ (st.bundles b).ranges, DefFirst e (st.ranges e.index).uses := by
  intro e he
  rcases h.kind b e ⟨hb, he⟩ with ⟨h1, -⟩ | ⟨-, h1⟩
  · exact absurd h1 hbs
  · exact h1.defFirst

/-- What the pieces of a refinement look like. -/
theorem refines_piece {st' : St} {es : List Entry} (h : Shape st0 st) (hb : b < st.nBundles) (hbs : ¬ IsSpill st b)
    (R : Refines st (st.bundles b).ranges st' es) {e : Entry} (he : e ∈ es) {c : Nat}
    (hset : (st'.bundles c).spillset = (st.bundles b).spillset) (hlink : (st'.ranges e.index).bundle = some c)
    (hflag : Flagged (st'.ranges e.index)) :
    ∃ e0 ∈ (st.bundles b).ranges, Origin st st' c e b e0 ∧ Neat st' c e ∧ DefFirst e (st'.ranges e.index).uses := by
  have ht := h.tidy b hb hbs
  obtain ⟨e0, he0, hp, hown⟩ := R.piece e he
  have n0 := h.neat b e0 ⟨hb, he0⟩
  have d0 := h.defFirst hb hbs e0 he0
  have hpos := R.tidy.1 e he
  obtain ⟨p1, p2, p3, p4⟩ := hp
  have huses : ∀ u ∈ (st'.ranges e.index).uses, u ∈ (st.ranges e0.index).uses := by
    intro u hu
    have h1 : u ∈ usesIn st' es := List.mem_flatMap.mpr ⟨e, he, hu⟩
    rw [R.uses] at h1
    obtain ⟨e1, he1, hu1⟩ := List.mem_flatMap.mp h1
    have c1 := (h.neat b e1 ⟨hb, he1⟩).inside u hu1
    have c2 := R.inside e he u hu
    have c3 : Covers e0.range u.pos := by unfold Covers at *; omega
    rw [tidy_eq ht he0 he1 c3 c1]
    exact hu1
  have hfirst : e.range.fr = e0.range.fr → ∀ d ∈ (st.ranges e0.index).uses, d.op.kind = .Def →
      d ∈ (st'.ranges e.index).uses := by
    intro hfr d hd hk
    have h1 : d ∈ usesIn st (st.bundles b).ranges := List.mem_flatMap.mpr ⟨e0, he0, hd⟩
    rw [← R.uses] at h1
    obtain ⟨e1, he1, hu1⟩ := List.mem_flatMap.mp h1
    have c1 := R.inside e1 he1 d hu1
    have c2 := (n0.defStart d hd hk).1
    have c3 : Covers e.range d.pos := by unfold Covers; omega
    rw [tidy_eq R.tidy he he1 c3 c1]
    exact hu1
  have hnd : (st'.ranges e.index).uses.Nodup := by
    have := h.usesIn_nodup hb hbs
    rw [← R.uses] at this
    unfold usesIn at this
    rw [List.nodup_flatMap] at this
    exact this.1 e he
  refine ⟨e0, he0, ⟨hset, p1, p2, p3, hown, huses, hfirst⟩, ?_, ?_⟩
  · refine ⟨(R.range e he).1, (R.range e he).2, hpos, hlink, ?_, R.inside e he, hflag, ?_, ?_, hnd⟩
    · obtain ⟨v, hv⟩ := n0.owner
      exact ⟨v, fun w => (hown w).trans (hv w)⟩
    · intro d hd hk
      have c1 := n0.defStart d (huses d hd) hk
      have c2 := R.inside e he d hd
      unfold Covers at c2
      have c3 : e.range.fr = e0.range.fr := by omega
      refine ⟨by omega, ?_⟩
      rw [c3]
      rcases p4 with p4 | p4
      · omega
      · omega
    · intro ho
      have c1 : e.range.fr = e0.range.fr := by
        rcases p3 with p3 | p3
        · exact p3
        · omega
      obtain ⟨d, hd, hk⟩ := n0.odd (by omega)
      exact ⟨d, hfirst c1 d hd hk, hk⟩
  · refine ⟨?_, ?_, ?_⟩
    · intro d hd hk
      have c1 := d0.start d (huses d hd) hk
      have c2 := R.inside e he d hd
      unfold Covers at c2
      omega
    · intro d hd hk u hu hk'
      exact d0.later d (huses d hd) hk u (huses u hu) hk'
    · apply nodup_length_le_one (List.Pairwise.filter _ hnd)
      intro x hx y hy
      simp only [List.mem_filter, decide_eq_true_eq] at hx hy
      have hs := d0.single
      have h1 : x ∈ (st.ranges e0.index).uses.filter (fun u => decide (u.op.kind = .Def)) := by
        simp only [List.mem_filter, decide_eq_true_eq]; exact ⟨huses x hx.1, hx.2⟩
      have h2 : y ∈ (st.ranges e0.index).uses.filter (fun u => decide (u.op.kind = .Def)) := by
        simp only [List.mem_filter, decide_eq_true_eq]; exact ⟨huses y hy.1, hy.2⟩
      generalize (st.ranges e0.index).uses.filter (fun u => decide (u.op.kind = .Def)) = l at hs h1 h2
      match l, hs with
      | [a], _ => simp at h1 h2; rw [h1, h2]

variable {st' : St} {hint : Option PReg} {p : Nat} {moved : List Entry}

theorem Halved.recut (hv : Halved st b st' st.nBundles p moved) (h : Shape st0 st) (hb : b < st.nBundles) (hbs : ¬ IsSpill st b)
    (frm : Frm (st.bundles b).spillset hint st st') : Recut st b hint st' := by
  obtain ⟨left, right, hperm, R, -, -⟩ := hv.parts
  generalize hes : (st'.bundles b).ranges ++ left ++ right ++ (st'.bundles st.nBundles).ranges = es at R
  have hmem : ∀ e, e ∈ es ↔ e ∈ (st'.bundles b).ranges ∨ e ∈ moved ∨ e ∈ (st'.bundles st.nBundles).ranges := by
    intro e
    have := hperm.mem_iff (a := e)
    rw [← hes]
    simp only [List.mem_append] at this ⊢
    grind
  have ht := h.tidy b hb hbs
  have hnb := hv.new.2.1
  have hnew := hv.new.2.2
  have hss : ∀ s, (st'.spillsets (st.bundles b).spillset).spillBundle = some s →
      s < st'.nBundles ∧ (st'.bundles s).spillset = (st.bundles b).spillset := by
    intro s hs
    rcases frm.spilled with ⟨h1, -⟩ | ⟨-, s', h2, h3, h4, -⟩
    · rw [h1] at hs
      obtain ⟨h5, h6⟩ := h.spillOk _ s hs
      exact ⟨Nat.lt_of_lt_of_le h5 frm.nB, by rw [(frm.old s h5).2]; exact h6⟩
    · rw [h4] at hs
      cases hs
      exact ⟨h3, (frm.new _ h2 h3).2⟩
  have hspr : ∀ s, (st'.spillsets (st.bundles b).spillset).spillBundle = some s →
      (st'.bundles s).ranges = spillRanges st (st.bundles b).spillset ++ moved := by
    intro s hs
    rw [← hv.spilled]; unfold spillRanges; rw [hs]
  have hflags := hv.flags (fun e he => ⟨(h.neat b e ⟨hb, he⟩).flag, h.defFirst hb hbs e he⟩)
  have hbs' : ¬ IsSpill st' b := fun hx => hbs ((frm.isSpill_old hb).mp hx)
  have hnbs' : ¬ IsSpill st' st.nBundles := by
    intro hx
    unfold IsSpill at hx
    rw [hv.sets.2] at hx
    exact (hnew _ hx).2 rfl
  have hidx : ∀ e ∈ es, st.nRanges ≤ e.index ∨ ∃ x ∈ (st.bundles b).ranges, x.index = e.index := fun e he => R.index e he
  -- where a piece is
  have hcut : ∀ e ∈ es, ∃ e0 c, Cut st st' b e0 c e ∧ (st'.ranges e.index).bundle = some c := by
    intro e he
    have hf : Flagged (st'.ranges e.index) := hflags e ((hmem e).mp he)
    rcases (hmem e).mp he with h1 | h1 | h1
    · obtain ⟨e0, h2, h3, h4, h5⟩ := refines_piece h hb hbs R he hv.sets.1 (hv.linkOld e h1) hf
      obtain ⟨v, h6, h7⟩ := hv.live e (.inl h1)
      exact ⟨e0, b, ⟨⟨Nat.lt_of_lt_of_le hb frm.nB, h1⟩, h2, hidx e he, h3, h4,
        .inr ⟨hbs', ⟨v, h6, (h7 v).mpr rfl⟩, R.sorted e he, h5⟩⟩, hv.linkOld e h1⟩
    · obtain ⟨s, h8, h9⟩ := hv.linkSpill e h1
      obtain ⟨e0, h2, h3, h4, h5⟩ := refines_piece h hb hbs R he (hss s h8).2 h9 hf
      refine ⟨e0, s, ⟨⟨(hss s h8).1, ?_⟩, h2, hidx e he, h3, h4, .inl ⟨?_, ?_⟩⟩, h9⟩
      · rw [hspr s h8]; exact List.mem_append_right _ h1
      · unfold IsSpill; rw [(hss s h8).2]; exact h8
      · rw [hv.unused e h1]; intro u hu; cases hu
    · obtain ⟨e0, h2, h3, h4, h5⟩ := refines_piece h hb hbs R he hv.sets.2 (hv.linkNew e h1) hf
      obtain ⟨v, h6, h7⟩ := hv.live e (.inr h1)
      exact ⟨e0, st.nBundles, ⟨⟨hnb, h1⟩, h2, hidx e he, h3, h4,
        .inr ⟨hnbs', ⟨v, h6, (h7 v).mpr rfl⟩, R.sorted e he, h5⟩⟩, hv.linkNew e h1⟩
  -- ranges that were in bundles before
  have hother : ∀ c e, Live st c e → c ≠ b → ∀ x ∈ (st.bundles b).ranges, x.index ≠ e.index := by
    intro c e hl hc x hx hi
    exact hc (h.unique hl ⟨hb, hx⟩ hi.symm).1
  have hnot : ∀ c e, Live st c e → c ≠ b → ∀ x ∈ es, x.index ≠ e.index := by
    intro c e hl hc x hx hi
    rcases R.index x hx with h1 | ⟨e0, h1, h2⟩
    · have := (h.neat c e hl).index; omega
    · exact hother c e hl hc e0 h1 (h2.trans hi)
  have hold : ∀ c e, Live st c e → c ≠ b → ¬ (st.nRanges ≤ e.index ∨ ∃ x ∈ (st.bundles b).ranges, x.index = e.index) := by
    rintro c e hl hc (h1 | ⟨x, h1, h2⟩)
    · have := (h.neat c e hl).index; omega
    · exact hother c e hl hc x h1 h2
  -- every range is an old one or a piece
  have hback : ∀ c e, Live st' c e → (c ≠ b ∧ Live st c e) ∨ e ∈ es := by
    intro c e hl
    by_cases h1 : c = b
    · subst h1; exact .inr ((hmem e).mpr (.inl hl.2))
    by_cases h2 : c = st.nBundles
    · subst h2; exact .inr ((hmem e).mpr (.inr (.inr hl.2)))
    by_cases h3 : (st'.spillsets (st.bundles b).spillset).spillBundle = some c
    · have := hl.2
      rw [hspr c h3, List.mem_append] at this
      rcases this with h4 | h4
      · unfold spillRanges at h4
        cases h5 : (st.spillsets (st.bundles b).spillset).spillBundle with
        | none => rw [h5] at h4; cases h4
        | some s =>
          rw [h5] at h4
          dsimp only at h4
          have h6 := h.spillOk _ s h5
          have h7 : s = c := by
            rcases frm.spilled with ⟨h7, -⟩ | ⟨h7, -⟩
            · rw [h7, h5] at h3; exact Option.some.inj h3
            · rw [h5] at h7; cases h7
          subst h7
          exact .inl ⟨h1, h6.1, h4⟩
      · exact .inr ((hmem e).mpr (.inr (.inl h4)))
    · by_cases h4 : c < st.nBundles
      · refine .inl ⟨h1, h4, ?_⟩
        have : (st.spillsets (st.bundles b).spillset).spillBundle ≠ some c := by
          intro h5
          rcases frm.spilled with ⟨h7, -⟩ | ⟨h7, -⟩
          · rw [h7] at h3; exact h3 h5
          · rw [h5] at h7; cases h7
        rw [← hv.others c h4 h1 this]
        exact hl.2
      · rcases hv.made c (by omega) hl.1 with h5 | h5
        · exact absurd h5 h2
        · exact absurd h5 h3
  have hsrc : ∀ e0 c e, Cut st st' b e0 c e → e ∈ es := by
    intro e0 c e hc
    rcases hback c e hc.live with ⟨h1, h2⟩ | h1
    · exact absurd hc.index (hold c e h2 h1)
    · exact h1
  have hloc : ∀ c e, Live st' c e → e ∈ es → ∃ e0, Cut st st' b e0 c e := by
    intro c e hl he
    obtain ⟨e0, c', h1, h2⟩ := hcut e he
    refine ⟨e0, ?_⟩
    suffices hcc : c' = c by rw [← hcc]; exact h1
    -- the bundle of a range is known
    rcases hback c e hl with ⟨h3, h4⟩ | -
    · exact absurd (hidx e he) (hold c e h4 h3)
    · by_cases q1 : c = b
      · subst q1
        have := hv.linkOld e hl.2
        rw [h2] at this; exact Option.some.inj this
      by_cases q2 : c = st.nBundles
      · subst q2
        have := hv.linkNew e hl.2
        rw [h2] at this; exact Option.some.inj this
      by_cases q3 : (st'.spillsets (st.bundles b).spillset).spillBundle = some c
      · have h5 := hl.2
        rw [hspr c q3, List.mem_append] at h5
        rcases h5 with h5 | h5
        · unfold spillRanges at h5
          cases h6 : (st.spillsets (st.bundles b).spillset).spillBundle with
          | none => rw [h6] at h5; cases h5
          | some s =>
            rw [h6] at h5
            dsimp only at h5
            have h7 := h.spillOk _ s h6
            have hsb : s ≠ b := by rintro rfl; exact hbs h6
            exact absurd (hidx e he) (hold s e ⟨h7.1, h5⟩ hsb)
        · obtain ⟨s, h6, h7⟩ := hv.linkSpill e h5
          rw [q3] at h6
          rw [h2] at h7
          rw [Option.some.inj h7, Option.some.inj h6]
      · by_cases q4 : c < st.nBundles
        · have : (st.spillsets (st.bundles b).spillset).spillBundle ≠ some c := by
            intro h5
            rcases frm.spilled with ⟨h7, -⟩ | ⟨h7, -⟩
            · rw [h7] at q3; exact q3 h5
            · rw [h5] at h7; cases h7
          have h8 := hl.2
          rw [hv.others c q4 q1 this] at h8
          exact absurd (hidx e he) (hold c e ⟨q4, h8⟩ q1)
        · rcases hv.made c (by omega) hl.1 with h5 | h5
          · exact absurd h5 q2
          · exact absurd h5 q3
  have hpieces : ∀ e0 ∈ (st.bundles b).ranges, ∀ e ∈ es, ∀ q, Covers e0.range q → Covers e.range q →
      ∃ c, Cut st st' b e0 c e := by
    intro e0 he0 e he q h1 h2
    obtain ⟨e1, c, h3, -⟩ := hcut e he
    have : e1 = e0 := by
      refine tidy_eq ht h3.src he0 (p := q) ?_ h1
      have a1 := h3.origin.start
      have a2 := h3.origin.stop
      unfold Covers at *; omega
    subst this
    exact ⟨c, h3⟩
  have huniq : ∀ e ∈ es, ∀ e' ∈ es, e.index = e'.index → e = e' := by
    intro e he e' he' hi
    have h1 := (R.range e he).1
    rw [hi, (R.range e' he').1] at h1
    cases e; cases e'; simp_all
  refine ⟨frm, R.grow, ?_, ?_, ?_, ?_, ?_, ?_, ?_, ?_, ?_, ?_, hv.listed⟩
  · intro c e hl hc
    refine ⟨⟨Nat.lt_of_lt_of_le hl.1 frm.nB, ?_⟩, ?_, ?_⟩
    · by_cases h1 : (st.spillsets (st.bundles b).spillset).spillBundle = some c
      · have h2 : (st'.spillsets (st.bundles b).spillset).spillBundle = some c := by
          rcases frm.spilled with ⟨h7, -⟩ | ⟨h7, -⟩
          · rw [h7]; exact h1
          · rw [h1] at h7; cases h7
        rw [hspr c h2]
        apply List.mem_append_left
        unfold spillRanges; rw [h1]; exact hl.2
      · rw [hv.others c hl.1 hc h1]; exact hl.2
    · exact R.others _ (h.neat c e hl).index (hother c e hl hc)
    · intro w; exact hv.owners w _ (h.neat c e hl).index
  · intro c e hl
    rcases hback c e hl with h1 | h1
    · exact .inl h1
    · exact .inr (hloc c e hl h1)
  · intro c hc hcb hs; exact hv.others c hc hcb hs
  · intro e0 he0 q hq
    obtain ⟨e, h1, h2⟩ := R.cover e0 he0 q hq
    obtain ⟨c, h3⟩ := hpieces e0 he0 e h1 q hq h2
    exact ⟨c, e, h3, h2⟩
  · intro e0 he0 u hu
    have h1 : u ∈ usesIn st (st.bundles b).ranges := List.mem_flatMap.mpr ⟨e0, he0, hu⟩
    rw [← R.uses] at h1
    obtain ⟨e, he, hue⟩ := List.mem_flatMap.mp h1
    obtain ⟨c, h3⟩ := hpieces e0 he0 e he u.pos ((h.neat b e0 ⟨hb, he0⟩).inside u hu) (R.inside e he u hue)
    exact ⟨c, e, h3, hue⟩
  · intro e0 c e e0' c' e' h1 h2 u hu hu'
    have m1 := hsrc _ _ _ h1
    have m2 := hsrc _ _ _ h2
    rw [tidy_eq R.tidy m1 m2 (R.inside e m1 u hu) (R.inside e' m2 u hu')]
  · intro e0 c e e0' c' e' h1 h2 hi
    refine .inl (tidy_apart R.tidy (hsrc _ _ _ h1) (hsrc _ _ _ h2) ?_)
    rintro rfl; exact hi rfl
  · intro c hc hlt hns
    have hsub : (st'.bundles c).ranges.Sublist es := by
      rcases hc with rfl | hc
      · rw [← hes, List.append_assoc, List.append_assoc]; exact List.sublist_append_left _ _
      · rcases hv.made c hc hlt with rfl | h5
        · rw [← hes]; exact List.sublist_append_right _ _
        · exact absurd (by unfold IsSpill; rw [(hss c h5).2]; exact h5) hns
    exact ⟨fun e he => R.tidy.1 e (hsub.subset he), R.tidy.2.sublist hsub⟩
  · refine ⟨moved, hv.spilled, ?_, ?_⟩
    · have h1 := tidy_indices (st := st') R.tidy (fun e he => (R.range e he).1)
      have h2 : ((left ++ right).map (·.index)).Nodup := by
        refine List.Pairwise.sublist ?_ h1
        apply List.Sublist.map
        rw [← hes, List.append_assoc (st'.bundles b).ranges]
        exact (List.sublist_append_right _ _).trans (List.sublist_append_left _ _)
      exact (hperm.map _).nodup_iff.mpr h2
    · intro e he s hs
      have hl : Live st' s e := ⟨(hss s hs).1, by rw [hspr s hs]; exact List.mem_append_right _ he⟩
      exact hloc s e hl ((hmem e).mpr (.inr (.inl he)))
  · intro v e he
    have hlt := hv.fresh v e he
    by_cases h1 : (∃ x ∈ (st.bundles b).ranges, x.index = e.index) ∨ (st.nRanges ≤ e.index ∧ e.index < st'.nRanges)
    · obtain ⟨e', h2, h3⟩ := hv.housed e.index h1
      obtain ⟨e0, c, h4, -⟩ := hcut e' ((hmem e').mpr h2)
      exact .inr ⟨e0, c, e', h4, h3⟩
    · have h2 : e.index < st.nRanges := by
        by_cases h3 : e.index < st.nRanges
        · exact h3
        · exact absurd (.inr ⟨by omega, hlt⟩) h1
      obtain ⟨e', h4, h5⟩ := (hv.owners v e.index h2).mp ⟨e, he, rfl⟩
      refine .inl ⟨e', h4, h5, ?_⟩
      intro x hx hi
      exact h1 (.inl ⟨x, hx, hi⟩)

end
end Regalloc.Ion
