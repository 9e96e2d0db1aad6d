import Verif.Proofs.SplitFrame
import Verif.Spec.Process

/-
The ranges of all bundles as parts of the ranges at the start: what is kept when one
bundle is cut up. Helper lemmas for C40.
-/
namespace Regalloc.Ion

/-- Bundle `c` is the spill bundle of its spill set. -/
def IsSpill (st : St) (c : Nat) : Prop := (st.spillsets (st.bundles c).spillset).spillBundle = some c

/-- Range `e` of bundle `c` is there for one use that needs a particular place, and stays
within the instruction. -/
def Small (st : St) (c : Nat) (e : Entry) : Prop :=
  ¬ IsSpill st c ∧ (st.bundles c).minimal = true ∧ ∃ u, (st.ranges e.index).uses = [u] ∧ u.op.constraint ≠ .Any ∧
    2 * (u.pos / 2) ≤ e.range.fr ∧ e.range.to ≤ 2 * (u.pos / 2) + 2

def Kind (st : St) (c : Nat) (e : Entry) : Prop :=
  (IsSpill st c ∧ ∀ u ∈ (st.ranges e.index).uses, u.op.constraint = .Any) ∨ (¬ IsSpill st c ∧ Sharp st e)

/-- The ranges in bundles are parts of those of `st0`. -/
structure Shape (st0 st : St) : Prop where
  neat : ∀ c e, Live st c e → Neat st c e
  kind : ∀ c e, Live st c e → Kind st c e
  origin : ∀ c e, Live st c e → ∃ b0 e0, Live st0 b0 e0 ∧ Origin st0 st c e b0 e0
  cover : ∀ b0 e0, Live st0 b0 e0 → ∀ p, Covers e0.range p →
    ∃ c e, Live st c e ∧ Origin st0 st c e b0 e0 ∧ Covers e.range p
  uses : ∀ b0 e0, Live st0 b0 e0 → ∀ u ∈ (st0.ranges e0.index).uses,
    ∃ c e, Live st c e ∧ Origin st0 st c e b0 e0 ∧ u ∈ (st.ranges e.index).uses
  once : ∀ c e c' e', Live st c e → Live st c' e' → ∀ u ∈ (st.ranges e.index).uses, ∀ u' ∈ (st.ranges e'.index).uses,
    u.pos / 2 = u'.pos / 2 → u.slot = u'.slot → e.index = e'.index ∧ u = u'
  apart : ∀ c e c' e', Live st c e → Live st c' e' → (st.bundles c).spillset = (st.bundles c').spillset →
    e.index ≠ e'.index → Apart e.range e'.range ∨ Small st c e ∨ Small st c' e'
  tidy : ∀ c < st.nBundles, ¬ IsSpill st c → Tidy (st.bundles c).ranges
  spill : ∀ c < st.nBundles, IsSpill st c → (st.bundles c).ranges.Pairwise (fun a b => Apart a.range b.range)
  spillOk : ∀ t s, (st.spillsets t).spillBundle = some s → s < st.nBundles ∧ (st.bundles s).spillset = t
  housed : ∀ v, ∀ e ∈ st.vregs v, ∃ c e', Live st c e' ∧ e'.index = e.index
  listed : ∀ v, ((st.vregs v).map (·.index)).Nodup

/-- `e`, in bundle `c` of `st'`, was cut from `e0` of bundle `b` of `st`. -/
structure Cut (st st' : St) (b : Nat) (e0 : Entry) (c : Nat) (e : Entry) : Prop where
  live : Live st' c e
  src : e0 ∈ (st.bundles b).ranges
  index : st.nRanges ≤ e.index ∨ ∃ x ∈ (st.bundles b).ranges, x.index = e.index
  origin : Origin st st' c e b e0
  neat : Neat st' c e
  kind : Kind st' c e

/-- `st'` is `st` with the ranges of bundle `b` cut up and distributed over `b`, the spill
bundle and new bundles. -/
structure Recut (st : St) (b : Nat) (hint : Option PReg) (st' : St) : Prop where
  frm : Frm (st.bundles b).spillset hint st st'
  grow : st.nRanges ≤ st'.nRanges
  keep : ∀ c e, Live st c e → c ≠ b → Live st' c e ∧ st'.ranges e.index = st.ranges e.index ∧
    ∀ w, Owns st' w e.index ↔ Owns st w e.index
  back : ∀ c e, Live st' c e → (c ≠ b ∧ Live st c e) ∨ ∃ e0, Cut st st' b e0 c e
  bund : ∀ c < st.nBundles, c ≠ b → (st.spillsets (st.bundles b).spillset).spillBundle ≠ some c → st'.bundles c = st.bundles c
  cover : ∀ e0 ∈ (st.bundles b).ranges, ∀ p, Covers e0.range p → ∃ c e, Cut st st' b e0 c e ∧ Covers e.range p
  uses : ∀ e0 ∈ (st.bundles b).ranges, ∀ u ∈ (st.ranges e0.index).uses,
    ∃ c e, Cut st st' b e0 c e ∧ u ∈ (st'.ranges e.index).uses
  once : ∀ e0 c e e0' c' e', Cut st st' b e0 c e → Cut st st' b e0' c' e' → ∀ u ∈ (st'.ranges e.index).uses,
    u ∈ (st'.ranges e'.index).uses → e.index = e'.index
  apart : ∀ e0 c e e0' c' e', Cut st st' b e0 c e → Cut st st' b e0' c' e' → e.index ≠ e'.index →
    Apart e.range e'.range ∨ Small st' c e ∨ Small st' c' e'
  tidy : ∀ c, c = b ∨ st.nBundles ≤ c → c < st'.nBundles → ¬ IsSpill st' c → Tidy (st'.bundles c).ranges
  spill : ∃ es, spillRanges st' (st.bundles b).spillset = spillRanges st (st.bundles b).spillset ++ es ∧
    (es.map (·.index)).Nodup ∧ ∀ e ∈ es, ∀ s, (st'.spillsets (st.bundles b).spillset).spillBundle = some s → ∃ e0, Cut st st' b e0 s e
  housed : ∀ v, ∀ e ∈ st'.vregs v, (∃ e' ∈ st.vregs v, e'.index = e.index ∧ ∀ x ∈ (st.bundles b).ranges, x.index ≠ e.index) ∨
    ∃ e0 c e', Cut st st' b e0 c e' ∧ e'.index = e.index
  listed : (∀ v, ((st.vregs v).map (·.index)).Nodup) → ∀ v, ((st'.vregs v).map (·.index)).Nodup

theorem Origin.trans {st0 st st' : St} {c b b0 : Nat} {e e1 e0 : Entry} (h1 : Origin st st' c e b e1)
    (h0 : Origin st0 st b e1 b0 e0) : Origin st0 st' c e b0 e0 where
  set := h1.set.trans h0.set
  start := Nat.le_trans h0.start h1.start
  stop := Nat.le_trans h1.stop h0.stop
  cut := by
    rcases h1.cut with h | h
    · rw [h]; exact h0.cut
    · exact .inr h
  owner := fun w => (h1.owner w).trans (h0.owner w)
  uses := fun u hu => h0.uses u (h1.uses u hu)
  first := by
    intro h d hd hk
    have a1 := h1.start
    have a2 := h0.start
    exact h1.first (by omega) d (h0.first (by omega) d hd hk) hk

theorem Origin.congr {st0 st st' : St} {c b0 : Nat} {e e0 : Entry} (h : Origin st0 st c e b0 e0)
    (h1 : (st'.bundles c).spillset = (st.bundles c).spillset) (h2 : (st'.ranges e.index).uses = (st.ranges e.index).uses)
    (h3 : ∀ w, Owns st' w e.index ↔ Owns st w e.index) : Origin st0 st' c e b0 e0 where
  set := h1.trans h.set
  start := h.start
  stop := h.stop
  cut := h.cut
  owner := fun w => (h3 w).trans (h.owner w)
  uses := by rw [h2]; exact h.uses
  first := by rw [h2]; exact h.first

theorem Neat.congr {st st' : St} {c : Nat} {e : Entry} (h : Neat st c e) (hn : st.nRanges ≤ st'.nRanges)
    (h2 : st'.ranges e.index = st.ranges e.index) (h3 : ∀ w, Owns st' w e.index ↔ Owns st w e.index) : Neat st' c e where
  range := by rw [h2]; exact h.range
  index := Nat.lt_of_lt_of_le h.index hn
  nonempty := h.nonempty
  link := by rw [h2]; exact h.link
  owner := by
    obtain ⟨v, hv⟩ := h.owner
    exact ⟨v, fun w => (h3 w).trans (hv w)⟩
  inside := by rw [h2]; exact h.inside
  flag := by rw [h2]; exact h.flag
  defStart := by rw [h2]; exact h.defStart
  odd := by rw [h2]; exact h.odd
  nodup := by rw [h2]; exact h.nodup

theorem Sharp.congr {st st' : St} {e : Entry} (h : Sharp st e) (h2 : st'.ranges e.index = st.ranges e.index)
    (h3 : ∀ w, Owns st' w e.index ↔ Owns st w e.index) : Sharp st' e where
  vreg := by
    obtain ⟨v, h4, h5⟩ := h.vreg
    exact ⟨v, by rw [h2]; exact h4, (h3 v).mpr h5⟩
  sorted := by rw [h2]; exact h.sorted
  defFirst := by rw [h2]; exact h.defFirst

/-- Two entries of one index in bundles are the same entry. -/
theorem Shape.unique {st0 st : St} (h : Shape st0 st) {c c' : Nat} {e e' : Entry} (h1 : Live st c e) (h2 : Live st c' e')
    (hi : e.index = e'.index) : c = c' ∧ e = e' := by
  have n1 := h.neat c e h1
  have n2 := h.neat c' e' h2
  refine ⟨?_, ?_⟩
  · have := n1.link; rw [hi, n2.link] at this; exact (Option.some.inj this).symm
  · have := n1.range; rw [hi, n2.range] at this
    cases e; cases e'; simp_all

theorem apart_mono {a b a' b' : RKey} (h : Apart a b) (h1 : a.fr ≤ a'.fr) (h2 : a'.to ≤ a.to) (h3 : b.fr ≤ b'.fr)
    (h4 : b'.to ≤ b.to) : Apart a' b' := by
  intro p ⟨x, y⟩
  refine h p ⟨?_, ?_⟩ <;> unfold Covers at * <;> omega

theorem apart_symm {a b : RKey} (h : Apart a b) : Apart b a := fun p ⟨x, y⟩ => h p ⟨y, x⟩

section
variable {st0 st st' : St} {b : Nat} {hint : Option PReg}

theorem Frm.isSpill_old {ss : Nat} (r : Frm ss hint st st') {c : Nat} (hc : c < st.nBundles) :
    IsSpill st' c ↔ IsSpill st c := by
  unfold IsSpill
  rw [(r.old c hc).2]
  by_cases ht : (st.bundles c).spillset = ss
  · rw [ht]
    rcases r.spilled with ⟨h1, -⟩ | ⟨h1, s, h2, -, h3, -⟩
    · rw [h1]
    · rw [h1, h3]
      constructor
      · intro h; cases h; omega
      · intro h; cases h
  · rw [r.setOther _ ht]

theorem Recut.isSpill_old (r : Recut st b hint st') (_h : Shape st0 st) {c : Nat} (hc : c < st.nBundles) :
    IsSpill st' c ↔ IsSpill st c := r.frm.isSpill_old hc

theorem Shape.not_spill (h : Shape st0 st) {c t : Nat} (hc : ¬ IsSpill st c) : (st.spillsets t).spillBundle ≠ some c := by
  intro hx
  apply hc
  unfold IsSpill
  rw [(h.spillOk t c hx).2]; exact hx

theorem Recut.small_old (r : Recut st b hint st') (h : Shape st0 st) {c : Nat} {e : Entry} (hl : Live st c e) (hb : c ≠ b)
    (hs : Small st c e) : Small st' c e := by
  obtain ⟨h1, h2, u, h3, h4⟩ := hs
  refine ⟨fun hx => h1 ((r.isSpill_old h hl.1).mp hx), ?_, u, ?_, h4⟩
  · rw [r.bund c hl.1 hb (h.not_spill h1)]; exact h2
  · rw [(r.keep c e hl hb).2.1]; exact h3

theorem Recut.kind_old (r : Recut st b hint st') (h : Shape st0 st) {c : Nat} {e : Entry} (hl : Live st c e) (hb : c ≠ b) :
    Kind st' c e := by
  obtain ⟨-, h1, h2⟩ := r.keep c e hl hb
  rcases h.kind c e hl with ⟨a, b⟩ | ⟨a, b⟩
  · exact .inl ⟨(r.isSpill_old h hl.1).mpr a, by rw [h1]; exact b⟩
  · exact .inr ⟨fun hx => a ((r.isSpill_old h hl.1).mp hx), b.congr h1 h2⟩

theorem Recut.origin_old (r : Recut st b hint st') {c b0 : Nat} {e e0 : Entry} (hl : Live st c e) (hb : c ≠ b)
    (ho : Origin st0 st c e b0 e0) : Origin st0 st' c e b0 e0 := by
  obtain ⟨-, h1, h2⟩ := r.keep c e hl hb
  exact ho.congr (r.frm.old c hl.1).2 (by rw [h1]) h2

/-- An old range and one that was cut. -/
theorem Recut.apart_mixed (r : Recut st b hint st') (h : Shape st0 st) (hb : b < st.nBundles)
    (hsm : ∀ e ∈ (st.bundles b).ranges, ¬ Small st b e) {c c' : Nat} {e e' e0 : Entry} (hl : Live st c e) (hc : c ≠ b)
    (hcut : Cut st st' b e0 c' e') (hs : (st.bundles c).spillset = (st.bundles b).spillset) :
    Apart e.range e'.range ∨ Small st' c e := by
  have hl0 : Live st b e0 := ⟨hb, hcut.src⟩
  have hne : e.index ≠ e0.index := fun hi => hc (h.unique hl hl0 hi).1
  rcases h.apart c e b e0 hl hl0 hs hne with ha | ha | ha
  · exact .inl (apart_mono ha (Nat.le_refl _) (Nat.le_refl _) hcut.origin.start hcut.origin.stop)
  · exact .inr (r.small_old h hl hc ha)
  · exact absurd ha (hsm e0 hcut.src)

/-- Cutting up a bundle that is not the spill bundle and does not consist of a small range. -/
theorem Recut.shape (r : Recut st b hint st') (h : Shape st0 st) (hb : b < st.nBundles) (hbs : ¬ IsSpill st b)
    (hsm : ∀ e ∈ (st.bundles b).ranges, ¬ Small st b e) : Shape st0 st' := by
  have hset : ∀ {c' : Nat} {e' e0 : Entry}, Cut st st' b e0 c' e' → (st'.bundles c').spillset = (st.bundles b).spillset :=
    fun hc => hc.origin.set
  refine ⟨?_, ?_, ?_, ?_, ?_, ?_, ?_, ?_, ?_, ?_, ?_, r.listed h.listed⟩
  · intro c e hl
    rcases r.back c e hl with ⟨h1, h2⟩ | ⟨e0, hcut⟩
    · obtain ⟨-, h3, h4⟩ := r.keep c e h2 h1
      exact (h.neat c e h2).congr r.grow h3 h4
    · exact hcut.neat
  · intro c e hl
    rcases r.back c e hl with ⟨h1, h2⟩ | ⟨e0, hcut⟩
    · exact r.kind_old h h2 h1
    · exact hcut.kind
  · intro c e hl
    rcases r.back c e hl with ⟨h1, h2⟩ | ⟨e1, hcut⟩
    · obtain ⟨b0, e0, h3, h4⟩ := h.origin c e h2
      exact ⟨b0, e0, h3, r.origin_old h2 h1 h4⟩
    · obtain ⟨b0, e0, h3, h4⟩ := h.origin b e1 ⟨hb, hcut.src⟩
      exact ⟨b0, e0, h3, hcut.origin.trans h4⟩
  · intro b0 e0 h0 p hp
    obtain ⟨c, e, h1, h2, h3⟩ := h.cover b0 e0 h0 p hp
    by_cases hc : c = b
    · subst hc
      obtain ⟨c', e', h4, h5⟩ := r.cover e h1.2 p h3
      exact ⟨c', e', h4.live, h4.origin.trans h2, h5⟩
    · exact ⟨c, e, (r.keep c e h1 hc).1, r.origin_old h1 hc h2, h3⟩
  · intro b0 e0 h0 u hu
    obtain ⟨c, e, h1, h2, h3⟩ := h.uses b0 e0 h0 u hu
    by_cases hc : c = b
    · subst hc
      obtain ⟨c', e', h4, h5⟩ := r.uses e h1.2 u h3
      exact ⟨c', e', h4.live, h4.origin.trans h2, h5⟩
    · exact ⟨c, e, (r.keep c e h1 hc).1, r.origin_old h1 hc h2, by rw [(r.keep c e h1 hc).2.1]; exact h3⟩
  · intro c e c' e' hl hl' u hu u' hu' k1 k2
    rcases r.back c e hl with ⟨h1, h2⟩ | ⟨e0, hcut⟩
    · rw [(r.keep c e h2 h1).2.1] at hu
      rcases r.back c' e' hl' with ⟨h1', h2'⟩ | ⟨e0', hcut'⟩
      · rw [(r.keep c' e' h2' h1').2.1] at hu'
        exact h.once c e c' e' h2 h2' u hu u' hu' k1 k2
      · exact absurd (h.unique h2 ⟨hb, hcut'.src⟩
          (h.once c e b e0' h2 ⟨hb, hcut'.src⟩ u hu u' (hcut'.origin.uses u' hu') k1 k2).1).1 h1
    · rcases r.back c' e' hl' with ⟨h1', h2'⟩ | ⟨e0', hcut'⟩
      · rw [(r.keep c' e' h2' h1').2.1] at hu'
        exact absurd (h.unique h2' ⟨hb, hcut.src⟩
          (h.once b e0 c' e' ⟨hb, hcut.src⟩ h2' u (hcut.origin.uses u hu) u' hu' k1 k2).1.symm).1 h1'
      · have := h.once b e0 b e0' ⟨hb, hcut.src⟩ ⟨hb, hcut'.src⟩ u (hcut.origin.uses u hu) u' (hcut'.origin.uses u' hu') k1 k2
        obtain ⟨-, rfl⟩ := this
        exact ⟨r.once _ _ _ _ _ _ hcut hcut' u hu hu', rfl⟩
  · intro c e c' e' hl hl' hs hi
    rcases r.back c e hl with ⟨h1, h2⟩ | ⟨e0, hcut⟩
    · rcases r.back c' e' hl' with ⟨h1', h2'⟩ | ⟨e0', hcut'⟩
      · rw [(r.frm.old c h2.1).2, (r.frm.old c' h2'.1).2] at hs
        rcases h.apart c e c' e' h2 h2' hs hi with ha | ha | ha
        · exact .inl ha
        · exact .inr (.inl (r.small_old h h2 h1 ha))
        · exact .inr (.inr (r.small_old h h2' h1' ha))
      · rw [(r.frm.old c h2.1).2, hset hcut'] at hs
        rcases r.apart_mixed h hb hsm h2 h1 hcut' hs with ha | ha
        · exact .inl ha
        · exact .inr (.inl ha)
    · rcases r.back c' e' hl' with ⟨h1', h2'⟩ | ⟨e0', hcut'⟩
      · rw [(r.frm.old c' h2'.1).2, hset hcut] at hs
        rcases r.apart_mixed h hb hsm h2' h1' hcut hs.symm with ha | ha
        · exact .inl (apart_symm ha)
        · exact .inr (.inr ha)
      · exact r.apart _ _ _ _ _ _ hcut hcut' hi
  · intro c hc hns
    by_cases h1 : c < st.nBundles
    · by_cases h2 : c = b
      · exact r.tidy c (.inl h2) hc hns
      · have h3 : ¬ IsSpill st c := fun hx => hns ((r.isSpill_old h h1).mpr hx)
        rw [r.bund c h1 h2 (h.not_spill h3)]
        exact h.tidy c h1 h3
    · exact r.tidy c (.inr (by omega)) hc hns
  · intro c hc hsp
    have hss : (st'.bundles c).spillset = (st.bundles b).spillset →
        (st'.bundles c).ranges.Pairwise (fun a b => Apart a.range b.range) := by
      intro ht
      have hsp' := hsp
      unfold IsSpill at hsp'
      rw [ht] at hsp'
      obtain ⟨es, h1, h2, h3⟩ := r.spill
      have h4 : (st'.bundles c).ranges = spillRanges st (st.bundles b).spillset ++ es := by
        rw [← h1]; unfold spillRanges; rw [hsp']
      rw [h4, List.pairwise_append]
      refine ⟨?_, ?_, ?_⟩
      · unfold spillRanges
        cases hx : (st.spillsets (st.bundles b).spillset).spillBundle with
        | none => exact List.Pairwise.nil
        | some s =>
          dsimp only
          obtain ⟨h5, h6⟩ := h.spillOk _ s hx
          exact h.spill s h5 (by unfold IsSpill; rw [h6]; exact hx)
      · rw [List.Nodup, List.pairwise_map] at h2
        refine List.Pairwise.imp_of_mem ?_ h2
        intro x y hx hy hxy
        obtain ⟨x0, c1⟩ := h3 x hx c hsp'
        obtain ⟨y0, c2⟩ := h3 y hy c hsp'
        rcases r.apart _ _ _ _ _ _ c1 c2 hxy with ha | ha | ha
        · exact ha
        · exact absurd hsp ha.1
        · exact absurd hsp ha.1
      · intro x hx y hy
        unfold spillRanges at hx
        cases hx' : (st.spillsets (st.bundles b).spillset).spillBundle with
        | none => rw [hx'] at hx; cases hx
        | some s =>
          rw [hx'] at hx
          dsimp only at hx
          obtain ⟨h5, h6⟩ := h.spillOk _ s hx'
          obtain ⟨y0, c2⟩ := h3 y hy c hsp'
          have hsb : s ≠ b := by
            rintro rfl
            exact hbs hx'
          rcases r.apart_mixed h hb hsm ⟨h5, hx⟩ hsb c2 h6 with ha | ha
          · exact ha
          · exact absurd ((r.isSpill_old h h5).mpr (by unfold IsSpill; rw [h6]; exact hx')) ha.1
    by_cases h1 : c < st.nBundles
    · have h2 := (r.isSpill_old h h1).mp hsp
      by_cases ht : (st.bundles c).spillset = (st.bundles b).spillset
      · exact hss (by rw [(r.frm.old c h1).2]; exact ht)
      · have hcb : c ≠ b := by rintro rfl; exact ht rfl
        rw [r.bund c h1 hcb (fun hx => ht (h.spillOk _ c hx).2)]
        exact h.spill c h1 h2
    · exact hss (r.frm.new c (by omega) hc).2
  · intro t s hs
    by_cases ht : t = (st.bundles b).spillset
    · subst ht
      rcases r.frm.spilled with ⟨h1, -⟩ | ⟨-, s', h2, h3, h4, -⟩
      · rw [h1] at hs
        obtain ⟨h5, h6⟩ := h.spillOk _ s hs
        exact ⟨Nat.lt_of_lt_of_le h5 r.frm.nB, by rw [(r.frm.old s h5).2]; exact h6⟩
      · rw [h4] at hs
        cases hs
        exact ⟨h3, (r.frm.new _ h2 h3).2⟩
    · rw [r.frm.setOther t ht] at hs
      obtain ⟨h5, h6⟩ := h.spillOk _ s hs
      exact ⟨Nat.lt_of_lt_of_le h5 r.frm.nB, by rw [(r.frm.old s h5).2]; exact h6⟩
  · intro v e he
    rcases r.housed v e he with ⟨e', h1, h2, h3⟩ | ⟨e0, c, e', h1, h2⟩
    · obtain ⟨c, e'', h4, h5⟩ := h.housed v e' h1
      by_cases hc : c = b
      · subst hc
        exact absurd (h5.trans h2) (h3 e'' h4.2)
      · exact ⟨c, e'', (r.keep c e'' h4 hc).1, h5.trans h2⟩
    · exact ⟨c, e', h1.live, h2⟩

end
end Regalloc.Ion
