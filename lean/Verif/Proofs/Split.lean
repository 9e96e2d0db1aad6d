import Verif.Model.Split
import Verif.Spec.Split
import Verif.Proofs.Merge

namespace Regalloc.Ion

theorem tidy_append {xs ys : List Entry} :
    Tidy (xs ++ ys) ↔ Tidy xs ∧ Tidy ys ∧ ∀ x ∈ xs, ∀ y ∈ ys, x.range.to ≤ y.range.fr := by
  unfold Tidy
  simp only [List.mem_append, List.pairwise_append]
  constructor
  · rintro ⟨h1, h2, h3, h4⟩
    exact ⟨⟨fun e he => h1 e (.inl he), h2⟩, ⟨fun e he => h1 e (.inr he), h3⟩, h4⟩
  · rintro ⟨⟨h1, h2⟩, ⟨h3, h4⟩, h5⟩
    exact ⟨fun e he => he.elim (h1 e) (h3 e), h2, h4, h5⟩

theorem tidy_cons {x : Entry} {ys : List Entry} :
    Tidy (x :: ys) ↔ x.range.fr < x.range.to ∧ Tidy ys ∧ ∀ y ∈ ys, x.range.to ≤ y.range.fr := by
  unfold Tidy
  simp only [List.mem_cons, List.pairwise_cons]
  constructor
  · rintro ⟨h1, h2, h3⟩
    exact ⟨h1 x (.inl rfl), ⟨fun e he => h1 e (.inr he), h3⟩, h2⟩
  · rintro ⟨h1, ⟨h2, h3⟩, h4⟩
    exact ⟨fun e he => he.elim (fun h => h ▸ h1) (h2 e), h4, h3⟩

theorem usesIn_append (st : St) (xs ys : List Entry) : usesIn st (xs ++ ys) = usesIn st xs ++ usesIn st ys := by
  simp [usesIn]

theorem usesIn_cons (st : St) (x : Entry) (ys : List Entry) :
    usesIn st (x :: ys) = (st.ranges x.index).uses ++ usesIn st ys := by
  simp [usesIn]

theorem usesIn_congr {st st' : St} {es : List Entry}
    (h : ∀ e ∈ es, (st'.ranges e.index).uses = (st.ranges e.index).uses) : usesIn st' es = usesIn st es := by
  induction es with
  | nil => rfl
  | cons e es ih =>
    rw [usesIn_cons, usesIn_cons, h e (by simp), ih (fun x hx => h x (by simp [hx]))]

/-- The pieces have distinct indices. -/
theorem Refines.index_ne {st0 st : St} {es0 X Y : List Entry} {e : Entry} (h : Refines st0 es0 st (X ++ e :: Y)) :
    ∀ x, x ∈ X ∨ x ∈ Y → x.index ≠ e.index := by
  intro x hx hi
  have h1 := (h.range x (by rcases hx with hx | hx <;> simp [hx])).1
  have h2 := (h.range e (by simp)).1
  rw [hi, h2] at h1
  obtain ⟨-, t2, t3⟩ := tidy_append.mp h.tidy
  obtain ⟨c1, -, c3⟩ := tidy_cons.mp t2
  rcases hx with hx | hx
  · have := t3 x hx e (by simp); rw [← h1] at this; omega
  · have := c3 x hx; rw [← h1] at this; omega

/-- Nothing but links and flags changed. -/
theorem Refines.congr {st0 st st' : St} {es0 es : List Entry} (h : Refines st0 es0 st es)
    (h1 : ∀ j, (st'.ranges j).range = (st.ranges j).range ∧ (st'.ranges j).uses = (st.ranges j).uses)
    (h2 : ∀ j, (∀ e ∈ es, e.index ≠ j) → st'.ranges j = st.ranges j)
    (h3 : st'.nRanges = st.nRanges) (h4 : st'.vregs = st.vregs) : Refines st0 es0 st' es := by
  have hown : ∀ v i, Owns st' v i ↔ Owns st v i := by intro v i; unfold Owns; rw [h4]
  constructor
  · exact h.tidy
  · intro e he; rw [(h1 _).1, h3]; exact h.range e he
  · intro e he
    obtain ⟨e0, a, b, c⟩ := h.piece e he
    exact ⟨e0, a, b, fun v => (hown v _).trans (c v)⟩
  · exact h.cover
  · intro e he; rw [(h1 _).2]; exact h.inside e he
  · intro e he; rw [(h1 _).2]; exact h.sorted e he
  · rw [usesIn_congr (fun e _ => (h1 e.index).2)]; exact h.uses
  · exact h.index
  · intro j hj hne
    rw [h2 j ?_]
    · exact h.others j hj hne
    · intro e he hh
      rcases h.index e he with h5 | ⟨e0, h5, h6⟩
      · omega
      · exact hne e0 h5 (h6.trans hh)
  · rw [h3]; exact h.grow

/-- One piece is cut in two at an early point. -/
theorem Refines.cut {st0 st st' : St} {es0 X Y : List Entry} {e : Entry} (h : Refines st0 es0 st (X ++ e :: Y))
    (p i1 i2 : Nat) (U1 U2 : List Use) (v : Nat)
    (hp : p % 2 = 0) (hp1 : e.range.fr < p) (hp2 : p < e.range.to)
    (hi : (i1 = e.index ∧ i2 = st.nRanges) ∨ (i1 = st.nRanges ∧ i2 = e.index))
    (hU : (st.ranges e.index).uses = U1 ++ U2) (hU1 : ∀ u ∈ U1, u.pos < p) (hU2 : ∀ u ∈ U2, p ≤ u.pos)
    (r1 : (st'.ranges i1).range = ⟨e.range.fr, p⟩ ∧ (st'.ranges i1).uses = U1)
    (r2 : (st'.ranges i2).range = ⟨p, e.range.to⟩ ∧ (st'.ranges i2).uses = U2)
    (r3 : ∀ j, j ≠ i1 → j ≠ i2 → st'.ranges j = st.ranges j)
    (hn : st'.nRanges = st.nRanges + 1)
    (hown : ∀ w, Owns st w e.index ↔ w = v)
    (hfresh : ∀ w, ¬ Owns st w st.nRanges)
    (hv : ∃ r, st'.vregs = upd st.vregs v (st.vregs v ++ [⟨r, st.nRanges⟩])) :
    Refines st0 es0 st' (X ++ ⟨⟨e.range.fr, p⟩, i1⟩ :: ⟨⟨p, e.range.to⟩, i2⟩ :: Y) := by
  have hidx := h.index_ne
  have hlt : ∀ x, x ∈ X ∨ x ∈ Y → x.index < st.nRanges := fun x hx =>
    (h.range x (by rcases hx with hx | hx <;> simp [hx])).2
  have hel := (h.range e (by simp)).2
  have hsame : ∀ x, x ∈ X ∨ x ∈ Y → st'.ranges x.index = st.ranges x.index := by
    intro x hx
    have a := hidx x hx
    have b := hlt x hx
    refine r3 _ ?_ ?_ <;> rcases hi with ⟨h1, h2⟩ | ⟨h1, h2⟩ <;> omega
  obtain ⟨r, hv⟩ := hv
  have hmemv : ∀ w i, Owns st' w i ↔ Owns st w i ∨ (w = v ∧ i = st.nRanges) := by
    intro w i
    unfold Owns
    rw [hv]
    by_cases hw : w = v
    · subst hw
      rw [upd_same]
      simp only [List.mem_append, List.mem_singleton]
      constructor
      · rintro ⟨x, hx | rfl, hxi⟩
        · exact .inl ⟨x, hx, hxi⟩
        · exact .inr ⟨trivial, hxi.symm⟩
      · rintro (⟨x, hx, hxi⟩ | ⟨-, rfl⟩)
        · exact ⟨x, .inl hx, hxi⟩
        · exact ⟨_, .inr rfl, rfl⟩
    · rw [upd_ne _ _ hw]
      simp [hw]
  have hown1 : ∀ w, Owns st' w i1 ↔ Owns st w e.index := by
    intro w
    rw [hmemv, hown]
    rcases hi with ⟨h1, h2⟩ | ⟨h1, h2⟩
    · subst h1; rw [hown]
      constructor
      · rintro (h | ⟨h, -⟩) <;> exact h
      · exact .inl
    · subst h1
      constructor
      · rintro (h | ⟨h, -⟩)
        · exact absurd h (hfresh w)
        · exact h
      · exact fun h => .inr ⟨h, rfl⟩
  have hown2 : ∀ w, Owns st' w i2 ↔ Owns st w e.index := by
    intro w
    rw [hmemv, hown]
    rcases hi with ⟨h1, h2⟩ | ⟨h1, h2⟩
    · subst h2
      constructor
      · rintro (h | ⟨h, -⟩)
        · exact absurd h (hfresh w)
        · exact h
      · exact fun h => .inr ⟨h, rfl⟩
    · subst h2; rw [hown]
      constructor
      · rintro (h | ⟨h, -⟩) <;> exact h
      · exact .inl
  have hmem : ∀ y, y ∈ X ++ (⟨⟨e.range.fr, p⟩, i1⟩ : Entry) :: ⟨⟨p, e.range.to⟩, i2⟩ :: Y ↔
      (y ∈ X ∨ y ∈ Y) ∨ y = ⟨⟨e.range.fr, p⟩, i1⟩ ∨ y = ⟨⟨p, e.range.to⟩, i2⟩ := by
    intro y; simp only [List.mem_append, List.mem_cons]; grind
  have hold : ∀ x, x ∈ X ∨ x ∈ Y → x ∈ X ++ e :: Y := by
    intro x hx; rcases hx with hx | hx <;> simp [hx]
  have hUin : ∀ u ∈ U1 ++ U2, Covers e.range u.pos := fun u hu => h.inside e (by simp) u (hU ▸ hu)
  have hUs : (U1 ++ U2).Pairwise (fun a b => a.pos ≤ b.pos) := hU ▸ h.sorted e (by simp)
  constructor
  case tidy =>
    obtain ⟨t1, t2, t3⟩ := tidy_append.mp h.tidy
    obtain ⟨c1, c2, c3⟩ := tidy_cons.mp t2
    refine tidy_append.mpr ⟨t1, tidy_cons.mpr ⟨hp1, tidy_cons.mpr ⟨hp2, c2, c3⟩, ?_⟩, ?_⟩
    · intro y hy
      rcases List.mem_cons.mp hy with rfl | hy
      · exact Nat.le_refl _
      · have := c3 y hy; dsimp only; omega
    · intro x hx y hy
      have := t3 x hx e (by simp)
      rcases List.mem_cons.mp hy with rfl | hy
      · exact this
      · rcases List.mem_cons.mp hy with rfl | hy
        · dsimp only; omega
        · exact t3 x hx y (by simp [hy])
  case range =>
    intro y hy
    rcases (hmem y).mp hy with hy | rfl | rfl
    · rw [hsame y hy, hn]
      have := h.range y (hold y hy)
      exact ⟨this.1, by omega⟩
    · refine ⟨r1.1, ?_⟩; dsimp only; rcases hi with ⟨h1, h2⟩ | ⟨h1, h2⟩ <;> omega
    · refine ⟨r2.1, ?_⟩; dsimp only; rcases hi with ⟨h1, h2⟩ | ⟨h1, h2⟩ <;> omega
  case piece =>
    intro y hy
    rcases (hmem y).mp hy with hy | rfl | rfl
    · obtain ⟨e0, a, b, c⟩ := h.piece y (hold y hy)
      refine ⟨e0, a, b, fun w => ?_⟩
      rw [hmemv, ← c w]
      have := hlt y hy
      constructor
      · rintro (h | ⟨-, h⟩)
        · exact h
        · omega
      · exact .inl
    · obtain ⟨e0, a, b, c⟩ := h.piece e (by simp)
      refine ⟨e0, a, ?_, fun w => (hown1 w).trans (c w)⟩
      obtain ⟨b1, b2, b3, b4⟩ := b
      exact ⟨b1, by dsimp only; omega, b3, .inr hp⟩
    · obtain ⟨e0, a, b, c⟩ := h.piece e (by simp)
      refine ⟨e0, a, ?_, fun w => (hown2 w).trans (c w)⟩
      obtain ⟨b1, b2, b3, b4⟩ := b
      exact ⟨by dsimp only; omega, b2, .inr hp, b4⟩
  case cover =>
    intro e0 he0 q hq
    obtain ⟨y, hy, hc⟩ := h.cover e0 he0 q hq
    simp only [List.mem_append, List.mem_cons] at hy
    rcases hy with hy | rfl | hy
    · exact ⟨y, (hmem y).mpr (.inl (.inl hy)), hc⟩
    · by_cases hqp : q < p
      · exact ⟨_, (hmem _).mpr (.inr (.inl rfl)), hc.1, hqp⟩
      · exact ⟨_, (hmem _).mpr (.inr (.inr rfl)), Nat.le_of_not_lt hqp, hc.2⟩
    · exact ⟨y, (hmem y).mpr (.inl (.inr hy)), hc⟩
  case inside =>
    intro y hy
    rcases (hmem y).mp hy with hy | rfl | rfl
    · rw [hsame y hy]; exact h.inside y (hold y hy)
    · dsimp only; rw [r1.2]; intro u hu
      exact ⟨(hUin u (by simp [hu])).1, hU1 u hu⟩
    · dsimp only; rw [r2.2]; intro u hu
      exact ⟨hU2 u hu, (hUin u (by simp [hu])).2⟩
  case sorted =>
    intro y hy
    rcases (hmem y).mp hy with hy | rfl | rfl
    · rw [hsame y hy]; exact h.sorted y (hold y hy)
    · dsimp only; rw [r1.2]; exact (List.pairwise_append.mp hUs).1
    · dsimp only; rw [r2.2]; exact (List.pairwise_append.mp hUs).2.1
  case uses =>
    rw [← h.uses]
    simp only [usesIn_append, usesIn_cons, r1.2, r2.2, hU]
    rw [usesIn_congr (st := st) (es := X) (fun x hx => by rw [hsame x (.inl hx)]),
      usesIn_congr (st := st) (es := Y) (fun x hx => by rw [hsame x (.inr hx)])]
    simp only [List.append_assoc]
  case index =>
    intro y hy
    have hg := h.grow
    rcases (hmem y).mp hy with hy | rfl | rfl
    · exact h.index y (hold y hy)
    · rcases hi with ⟨h1, h2⟩ | ⟨h1, h2⟩
      · dsimp only; rw [h1]; exact h.index e (by simp)
      · left; dsimp only; omega
    · rcases hi with ⟨h1, h2⟩ | ⟨h1, h2⟩
      · left; dsimp only; omega
      · dsimp only; rw [h2]; exact h.index e (by simp)
  case others =>
    intro j hj hne
    have hg := h.grow
    have hje : j ≠ e.index := by
      intro hh
      rcases h.index e (by simp) with h5 | ⟨e0, h5, h6⟩
      · omega
      · exact hne e0 h5 (h6.trans hh.symm)
    rw [r3 j ?_ ?_]
    · exact h.others j hj hne
    all_goals rcases hi with ⟨h1, h2⟩ | ⟨h1, h2⟩ <;> omega
  case grow => have := h.grow; omega

theorem Splittable.refines {st : St} {b : Nat} (h : Splittable st b) :
    Refines st (st.bundles b).ranges st (st.bundles b).ranges where
  tidy := h.tidy
  range := h.range
  piece := fun e he => ⟨e, he, ⟨Nat.le_refl _, Nat.le_refl _, .inl rfl, .inl rfl⟩, fun _ => Iff.rfl⟩
  cover := fun e0 he0 p hp => ⟨e0, he0, hp⟩
  inside := h.inside
  sorted := h.sorted
  uses := rfl
  index := fun e he => .inr ⟨e, he, rfl⟩
  others := fun _ _ _ => rfl
  grow := Nat.le_refl _

/-- A fresh index keeps a list of entries free of repetitions. -/
theorem nodup_push {g : Nat → List Entry} {v n : Nat} {r : RKey} (h : ∀ w, ((g w).map (·.index)).Nodup)
    (hf : ∀ w, ∀ e ∈ g w, e.index < n) : ∀ w, ((upd g v (g v ++ [⟨r, n⟩]) w).map (·.index)).Nodup := by
  intro w
  unfold upd
  split
  · subst_vars
    rw [List.map_append, List.nodup_append]
    refine ⟨h _, by simp, ?_⟩
    rintro a ha b hb rfl
    obtain ⟨e, he, rfl⟩ := List.mem_map.mp ha
    simp at hb
    have := hf _ e he
    omega
  · exact h w

/-! ### The working state of `split_and_requeue_bundle` -/

structure Work (st0 : St) (b : Nat) (st : St) (nb p : Nat) (A B : List Entry) : Prop where
  ref : Refines st0 (st0.bundles b).ranges st ((st.bundles b).ranges ++ A ++ B ++ (st.bundles nb).ranges)
  live : ∀ e, e ∈ (st.bundles b).ranges ∨ e ∈ (st.bundles nb).ranges →
    ∃ v, (st.ranges e.index).vreg = some v ∧ ∀ w, Owns st w e.index ↔ w = v
  fresh : ∀ v, ∀ e ∈ st.vregs v, e.index < st.nRanges
  boundL : ∀ e ∈ (st.bundles b).ranges ++ A, e.range.to ≤ p
  boundR : ∀ e ∈ B ++ (st.bundles nb).ranges, p ≤ e.range.fr
  linkOld : ∀ e ∈ (st.bundles b).ranges, (st.ranges e.index).bundle = some b
  linkNew : ∀ e ∈ (st.bundles nb).ranges, (st.ranges e.index).bundle = some nb
  moved : ∃ moved, moved.Perm (A ++ B) ∧
    spillRanges st (st0.bundles b).spillset = spillRanges st0 (st0.bundles b).spillset ++ moved
  unused : ∀ e ∈ A ++ B, (st.ranges e.index).uses = []
  linkSpill : ∀ e ∈ A ++ B, ∃ s, (st.spillsets (st0.bundles b).spillset).spillBundle = some s ∧
    (st.ranges e.index).bundle = some s
  spill : ∀ s, (st.spillsets (st0.bundles b).spillset).spillBundle = some s → s ≠ b ∧ s ≠ nb ∧ s < st.nBundles ∧
    ((st0.spillsets (st0.bundles b).spillset).spillBundle = some s ∨ st0.nBundles ≤ s)
  sets : (st.bundles b).spillset = (st0.bundles b).spillset ∧ (st.bundles nb).spillset = (st0.bundles b).spillset
  flag : (∀ e ∈ (st0.bundles b).ranges, Flagged (st0.ranges e.index) ∧ DefFirst e (st0.ranges e.index).uses) →
    ∀ e ∈ (st.bundles b).ranges ++ A ++ B ++ (st.bundles nb).ranges, Flagged (st.ranges e.index)
  housed : ∀ i, (∃ e ∈ (st0.bundles b).ranges, e.index = i) ∨ (st0.nRanges ≤ i ∧ i < st.nRanges) →
    ∃ e ∈ (st.bundles b).ranges ++ A ++ B ++ (st.bundles nb).ranges, e.index = i
  owners : ∀ w i, i < st0.nRanges → (Owns st w i ↔ Owns st0 w i)
  made : ∀ c, st0.nBundles ≤ c → c < st.nBundles →
    c = nb ∨ (st.spillsets (st0.bundles b).spillset).spillBundle = some c
  listed : (∀ v, ((st0.vregs v).map (·.index)).Nodup) → ∀ v, ((st.vregs v).map (·.index)).Nodup
  nb : nb = st0.nBundles ∧ nb < st.nBundles ∧ b < nb
  others : ∀ c < st0.nBundles, c ≠ b → (st0.spillsets (st0.bundles b).spillset).spillBundle ≠ some c →
    st.bundles c = st0.bundles c

/-- Creating the spill bundle changes nothing else. -/
theorem Work.spillBundle {st0 st : St} {b nb p x : Nat} {A B : List Entry} (h : Work st0 b st nb p A B)
    (hx : x = b ∨ x = nb) :
    Work st0 b (spillBundle st x).1 nb p A B ∧
    ((Ion.spillBundle st x).1.spillsets (st0.bundles b).spillset).spillBundle = some (Ion.spillBundle st x).2 ∧
    (Ion.spillBundle st x).1.ranges = st.ranges ∧ (Ion.spillBundle st x).1.nRanges = st.nRanges ∧
    (Ion.spillBundle st x).1.vregs = st.vregs ∧
    (Ion.spillBundle st x).1.bundles b = st.bundles b ∧ (Ion.spillBundle st x).1.bundles nb = st.bundles nb := by
  have hss : (st.bundles x).spillset = (st0.bundles b).spillset := by
    rcases hx with rfl | rfl
    · exact h.sets.1
    · exact h.sets.2
  unfold Ion.spillBundle
  dsimp only
  rw [hss]
  cases hsp : (st.spillsets (st0.bundles b).spillset).spillBundle with
  | some s => exact ⟨h, hsp, rfl, rfl, rfl, rfl, rfl⟩
  | none =>
    dsimp only [St.modS]
    have n1 : b ≠ st.nBundles := by have := h.nb; omega
    have n2 : nb ≠ st.nBundles := by have := h.nb; omega
    have e1 : upd st.bundles st.nBundles { Bundle.fresh with spillset := (st0.bundles b).spillset } b = st.bundles b :=
      upd_ne _ _ n1
    have e2 : upd st.bundles st.nBundles { Bundle.fresh with spillset := (st0.bundles b).spillset } nb = st.bundles nb :=
      upd_ne _ _ n2
    refine ⟨?_, by rw [upd_same], rfl, rfl, rfl, e1, e2⟩
    constructor
    case ref =>
      dsimp only; rw [e1, e2]
      exact h.ref.congr (fun _ => ⟨rfl, rfl⟩) (fun _ _ => rfl) rfl rfl
    case live => dsimp only; rw [e1, e2]; exact h.live
    case fresh => exact h.fresh
    case boundL => dsimp only; rw [e1]; exact h.boundL
    case boundR => dsimp only; rw [e2]; exact h.boundR
    case linkOld => dsimp only; rw [e1]; exact h.linkOld
    case linkNew => dsimp only; rw [e2]; exact h.linkNew
    case moved =>
      obtain ⟨m, hm, hr⟩ := h.moved
      refine ⟨m, hm, ?_⟩
      rw [← hr]
      unfold spillRanges
      dsimp only
      rw [upd_same, hsp]
      dsimp only
      rw [upd_same]
      rfl
    case unused => exact h.unused
    case linkSpill =>
      intro e he
      obtain ⟨s, hs, -⟩ := h.linkSpill e he
      rw [hsp] at hs; cases hs
    case spill =>
      intro s hs
      dsimp only at hs
      rw [upd_same] at hs
      injection hs with hs
      have := h.nb
      subst hs
      refine ⟨by omega, by omega, by dsimp only; omega, .inr (by omega)⟩
    case sets => dsimp only; rw [e1, e2]; exact h.sets
    case nb => have := h.nb; exact ⟨this.1, by dsimp only; omega, this.2.2⟩
    case others =>
      intro c hc hcb hcs
      dsimp only
      rw [upd_ne _ _ (by have := h.nb; omega)]
      exact h.others c hc hcb hcs
    case flag => dsimp only; rw [e1, e2]; exact h.flag
    case housed => dsimp only; rw [e1, e2]; exact h.housed
    case owners => exact h.owners
    case made =>
      intro c h1 h2
      dsimp only at h2 ⊢
      rw [upd_same]
      by_cases hc : c = st.nBundles
      · exact .inr (by rw [hc])
      · rcases h.made c h1 (by omega) with h3 | h3
        · exact .inl h3
        · rw [hsp] at h3; cases h3
    case listed => exact h.listed

/-- Facts used by every step: where the pieces are. -/
theorem Work.mem_idx {st0 st : St} {b nb p : Nat} {A B : List Entry} (h : Work st0 b st nb p A B) {e x : Entry}
    {X Y : List Entry} (hl : (st.bundles b).ranges ++ A ++ B ++ (st.bundles nb).ranges = X ++ e :: Y)
    (hx : x ∈ X ∨ x ∈ Y) : x.index ≠ e.index := by
  have := h.ref
  rw [hl] at this
  exact this.index_ne x hx

/-- The last range of the old bundle goes to the spill bundle. -/
theorem Work.moveTail {st0 st : St} {b nb p s : Nat} {A B X : List Entry} {e : Entry} (h : Work st0 b st nb p A B)
    (hs : (st.spillsets (st0.bundles b).spillset).spillBundle = some s)
    (hl : (st.bundles b).ranges = X ++ [e]) (hu : (st.ranges e.index).uses = []) :
    Work st0 b (((st.modB s (fun x => { x with ranges := x.ranges ++ [e] })).modB b
      (fun x => { x with ranges := x.ranges.dropLast })).modR e.index (fun r => { r with bundle := some s }))
      nb p (e :: A) B := by
  obtain ⟨hsb, hsn, hsl, hso⟩ := h.spill s hs
  have hbn : b ≠ nb := by have := h.nb; omega
  have hlist : (st.bundles b).ranges ++ A ++ B ++ (st.bundles nb).ranges =
      X ++ e :: (A ++ B ++ (st.bundles nb).ranges) := by simp [hl]
  have eb : (((st.modB s (fun x => { x with ranges := x.ranges ++ [e] })).modB b
      (fun x => { x with ranges := x.ranges.dropLast })).modR e.index (fun r => { r with bundle := some s })).bundles b =
      { st.bundles b with ranges := X } := by
    simp [St.modB, St.modR, upd, hsb.symm, hl]
  have en : (((st.modB s (fun x => { x with ranges := x.ranges ++ [e] })).modB b
      (fun x => { x with ranges := x.ranges.dropLast })).modR e.index (fun r => { r with bundle := some s })).bundles nb =
      st.bundles nb := by
    simp [St.modB, St.modR, upd, hsn.symm, hbn.symm]
  have es : (((st.modB s (fun x => { x with ranges := x.ranges ++ [e] })).modB b
      (fun x => { x with ranges := x.ranges.dropLast })).modR e.index (fun r => { r with bundle := some s })).bundles s =
      { st.bundles s with ranges := (st.bundles s).ranges ++ [e] } := by
    simp [St.modB, St.modR, upd, hsb]
  have er : ∀ j, (((st.modB s (fun x => { x with ranges := x.ranges ++ [e] })).modB b
      (fun x => { x with ranges := x.ranges.dropLast })).modR e.index (fun r => { r with bundle := some s })).ranges j =
      if j = e.index then { st.ranges e.index with bundle := some s } else st.ranges j := by
    intro j; simp [St.modB, St.modR, upd]
  have eo : ∀ c, c ≠ b → c ≠ s → (((st.modB s (fun x => { x with ranges := x.ranges ++ [e] })).modB b
      (fun x => { x with ranges := x.ranges.dropLast })).modR e.index (fun r => { r with bundle := some s })).bundles c =
      st.bundles c := by
    intro c h1 h2; simp [St.modB, St.modR, upd, h1, h2]
  have hidx : ∀ x, x ∈ X ∨ x ∈ A ++ B ++ (st.bundles nb).ranges → x.index ≠ e.index := fun x hx => h.mem_idx hlist hx
  generalize hst : (((st.modB s (fun x => { x with ranges := x.ranges ++ [e] })).modB b
      (fun x => { x with ranges := x.ranges.dropLast })).modR e.index (fun r => { r with bundle := some s })) = st' at *
  have hv : st'.vregs = st.vregs := by rw [← hst]; rfl
  have hn : st'.nRanges = st.nRanges := by rw [← hst]; rfl
  have hsp : st'.spillsets = st.spillsets := by rw [← hst]; rfl
  have hnb : st'.nBundles = st.nBundles := by rw [← hst]; rfl
  clear hst
  have hsame : ∀ j, (st'.ranges j).range = (st.ranges j).range ∧ (st'.ranges j).uses = (st.ranges j).uses ∧
      (st'.ranges j).vreg = (st.ranges j).vreg := by
    intro j; rw [er]; split
    · rename_i hj; subst hj; exact ⟨rfl, rfl, rfl⟩
    · exact ⟨rfl, rfl, rfl⟩
  have hown : ∀ v i, Owns st' v i ↔ Owns st v i := by intro v i; unfold Owns; rw [hv]
  constructor
  case ref =>
    rw [eb, en]
    have := h.ref
    rw [hlist] at this
    have hl2 : X ++ e :: A ++ B ++ (st.bundles nb).ranges = X ++ e :: (A ++ B ++ (st.bundles nb).ranges) := by simp
    dsimp only; rw [hl2]
    refine this.congr (fun j => ⟨(hsame j).1, (hsame j).2.1⟩) ?_ hn hv
    intro j hj
    rw [er, if_neg (fun hh => hj e (by simp) hh.symm)]
  case live =>
    rw [eb, en]
    intro y hy
    rw [(hsame _).2.2]
    obtain ⟨v, hv1, hv2⟩ := h.live y (by rcases hy with hy | hy; exact .inl (by simp at hy; simp [hl, hy]); exact .inr hy)
    exact ⟨v, hv1, fun w => (hown w _).trans (hv2 w)⟩
  case fresh => rw [hv, hn]; exact h.fresh
  case boundL =>
    rw [eb]; intro y hy; apply h.boundL; rw [hl]; simpa using hy
  case boundR => rw [en]; exact h.boundR
  case linkOld =>
    rw [eb]; intro y hy
    rw [er, if_neg (hidx y (.inl hy))]
    exact h.linkOld y (by rw [hl]; simp at hy ⊢; exact .inl hy)
  case linkNew =>
    rw [en]; intro y hy
    rw [er, if_neg (hidx y (.inr (by simp [hy])))]
    exact h.linkNew y hy
  case moved =>
    obtain ⟨m, hm, hr⟩ := h.moved
    refine ⟨m ++ [e], ?_, ?_⟩
    · exact (List.perm_append_comm (l₁ := m) (l₂ := [e])).trans (List.Perm.cons e hm)
    · unfold spillRanges at hr ⊢
      rw [hs] at hr
      rw [hsp, hs]
      dsimp only at hr ⊢
      rw [es]
      dsimp only
      rw [hr, List.append_assoc]
  case unused =>
    intro y hy
    rw [(hsame _).2.1]
    rcases List.mem_cons.mp hy with rfl | hy
    · exact hu
    · exact h.unused y hy
  case linkSpill =>
    intro y hy
    rw [hsp]
    rcases List.mem_cons.mp hy with rfl | hy
    · exact ⟨s, hs, by rw [er, if_pos rfl]⟩
    · rw [er, if_neg (hidx y (.inr (by simp at hy ⊢; grind)))]
      exact h.linkSpill y hy
  case spill => rw [hsp, hnb]; exact h.spill
  case sets => rw [eb, en]; exact h.sets
  case nb => rw [hnb]; exact h.nb
  case others =>
    intro c hc hcb hcs
    rw [eo c hcb ?_]
    · exact h.others c hc hcb hcs
    · rintro rfl
      rcases hso with hso | hso
      · exact hcs hso
      · omega
  case flag =>
    rw [eb, en]; dsimp only
    intro hf y hy
    have := h.flag hf y (by rw [hl]; simp only [List.mem_append, List.mem_cons, List.not_mem_nil, or_false] at hy ⊢; grind)
    rw [er]
    split
    · rename_i hj; rw [hj] at this; exact this
    · exact this
  case housed =>
    rw [eb, en, hn]; dsimp only
    intro i hi
    obtain ⟨y, hy, h2⟩ := h.housed i hi
    rw [hlist] at hy
    exact ⟨y, by simp only [List.mem_append, List.mem_cons] at hy ⊢; grind, h2⟩
  case owners => intro w i hi; rw [hown]; exact h.owners w i hi
  case made => rw [hnb, hsp]; exact h.made
  case listed => rw [hv]; exact h.listed

/-- The first range of the new bundle goes to the spill bundle. -/
theorem Work.moveHead {st0 st : St} {b nb p s : Nat} {A B X : List Entry} {e : Entry} (h : Work st0 b st nb p A B)
    (hs : (st.spillsets (st0.bundles b).spillset).spillBundle = some s)
    (hl : (st.bundles nb).ranges = e :: X) (hu : (st.ranges e.index).uses = []) :
    Work st0 b (((st.modB s (fun x => { x with ranges := x.ranges ++ [e] })).modB nb
      (fun x => { x with ranges := X })).modR e.index (fun r => { r with bundle := some s }))
      nb p A (B ++ [e]) := by
  obtain ⟨hsb, hsn, hsl, hso⟩ := h.spill s hs
  have hbn : b ≠ nb := by have := h.nb; omega
  have hlist : (st.bundles b).ranges ++ A ++ B ++ (st.bundles nb).ranges =
      ((st.bundles b).ranges ++ A ++ B) ++ e :: X := by simp [hl]
  have en : (((st.modB s (fun x => { x with ranges := x.ranges ++ [e] })).modB nb
      (fun x => { x with ranges := X })).modR e.index (fun r => { r with bundle := some s })).bundles nb =
      { st.bundles nb with ranges := X } := by
    simp [St.modB, St.modR, upd, hsn.symm]
  have eb : (((st.modB s (fun x => { x with ranges := x.ranges ++ [e] })).modB nb
      (fun x => { x with ranges := X })).modR e.index (fun r => { r with bundle := some s })).bundles b =
      st.bundles b := by
    simp [St.modB, St.modR, upd, hsb.symm, hbn]
  have es : (((st.modB s (fun x => { x with ranges := x.ranges ++ [e] })).modB nb
      (fun x => { x with ranges := X })).modR e.index (fun r => { r with bundle := some s })).bundles s =
      { st.bundles s with ranges := (st.bundles s).ranges ++ [e] } := by
    simp [St.modB, St.modR, upd, hsn]
  have er : ∀ j, (((st.modB s (fun x => { x with ranges := x.ranges ++ [e] })).modB nb
      (fun x => { x with ranges := X })).modR e.index (fun r => { r with bundle := some s })).ranges j =
      if j = e.index then { st.ranges e.index with bundle := some s } else st.ranges j := by
    intro j; simp [St.modB, St.modR, upd]
  have eo : ∀ c, c ≠ nb → c ≠ s → (((st.modB s (fun x => { x with ranges := x.ranges ++ [e] })).modB nb
      (fun x => { x with ranges := X })).modR e.index (fun r => { r with bundle := some s })).bundles c =
      st.bundles c := by
    intro c h1 h2; simp [St.modB, St.modR, upd, h1, h2]
  have hidx : ∀ x, x ∈ (st.bundles b).ranges ++ A ++ B ∨ x ∈ X → x.index ≠ e.index := fun x hx => h.mem_idx hlist hx
  generalize hst : (((st.modB s (fun x => { x with ranges := x.ranges ++ [e] })).modB nb
      (fun x => { x with ranges := X })).modR e.index (fun r => { r with bundle := some s })) = st' at *
  have hv : st'.vregs = st.vregs := by rw [← hst]; rfl
  have hn : st'.nRanges = st.nRanges := by rw [← hst]; rfl
  have hsp : st'.spillsets = st.spillsets := by rw [← hst]; rfl
  have hnb : st'.nBundles = st.nBundles := by rw [← hst]; rfl
  clear hst
  have hsame : ∀ j, (st'.ranges j).range = (st.ranges j).range ∧ (st'.ranges j).uses = (st.ranges j).uses ∧
      (st'.ranges j).vreg = (st.ranges j).vreg := by
    intro j; rw [er]; split
    · rename_i hj; subst hj; exact ⟨rfl, rfl, rfl⟩
    · exact ⟨rfl, rfl, rfl⟩
  have hown : ∀ v i, Owns st' v i ↔ Owns st v i := by intro v i; unfold Owns; rw [hv]
  constructor
  case ref =>
    rw [eb, en]
    have := h.ref
    rw [hlist] at this
    have hl2 : (st.bundles b).ranges ++ A ++ (B ++ [e]) ++ X = ((st.bundles b).ranges ++ A ++ B) ++ e :: X := by simp
    dsimp only; rw [hl2]
    refine this.congr (fun j => ⟨(hsame j).1, (hsame j).2.1⟩) ?_ hn hv
    intro j hj
    rw [er, if_neg (fun hh => hj e (by simp) hh.symm)]
  case live =>
    rw [eb, en]
    intro y hy
    rw [(hsame _).2.2]
    obtain ⟨v, hv1, hv2⟩ := h.live y (by rcases hy with hy | hy; exact .inl hy; exact .inr (by simp at hy; simp [hl, hy]))
    exact ⟨v, hv1, fun w => (hown w _).trans (hv2 w)⟩
  case fresh => rw [hv, hn]; exact h.fresh
  case boundL =>
    rw [eb]; exact h.boundL
  case boundR => rw [en]; intro y hy; apply h.boundR; rw [hl]; simpa using hy
  case linkOld =>
    rw [eb]; intro y hy
    rw [er, if_neg (hidx y (.inl (by simp [hy])))]
    exact h.linkOld y hy
  case linkNew =>
    rw [en]; intro y hy
    rw [er, if_neg (hidx y (.inr hy))]
    exact h.linkNew y (by rw [hl]; simp at hy ⊢; exact .inr hy)
  case moved =>
    obtain ⟨m, hm, hr⟩ := h.moved
    refine ⟨m ++ [e], ?_, ?_⟩
    · rw [← List.append_assoc]; exact hm.append_right [e]
    · unfold spillRanges at hr ⊢
      rw [hs] at hr
      rw [hsp, hs]
      dsimp only at hr ⊢
      rw [es]
      dsimp only
      rw [hr, List.append_assoc]
  case unused =>
    intro y hy
    rw [(hsame _).2.1]
    have hy : y ∈ A ++ B ∨ y = e := by simpa [or_assoc] using hy
    rcases hy with hy | rfl
    · exact h.unused y hy
    · exact hu
  case linkSpill =>
    intro y hy
    rw [hsp]
    have hy : y ∈ A ++ B ∨ y = e := by simpa [or_assoc] using hy
    rcases hy with hy | rfl
    · rw [er, if_neg (hidx y (.inl (by simp at hy ⊢; grind)))]
      exact h.linkSpill y hy
    · exact ⟨s, hs, by rw [er, if_pos rfl]⟩
  case spill => rw [hsp, hnb]; exact h.spill
  case sets => rw [eb, en]; exact h.sets
  case nb => rw [hnb]; exact h.nb
  case others =>
    intro c hc hcb hcs
    rw [eo c (by have := h.nb; omega) ?_]
    · exact h.others c hc hcb hcs
    · rintro rfl
      rcases hso with hso | hso
      · exact hcs hso
      · omega
  case flag =>
    rw [eb, en]; dsimp only
    intro hf y hy
    have := h.flag hf y (by rw [hl]; simp only [List.mem_append, List.mem_cons, List.not_mem_nil, or_false] at hy ⊢; grind)
    rw [er]
    split
    · rename_i hj; rw [hj] at this; exact this
    · exact this
  case housed =>
    rw [eb, en, hn]; dsimp only
    intro i hi
    obtain ⟨y, hy, h2⟩ := h.housed i hi
    rw [hlist] at hy
    exact ⟨y, by simp only [List.mem_append, List.mem_cons] at hy ⊢; grind, h2⟩
  case owners => intro w i hi; rw [hown]; exact h.owners w i hi
  case made => rw [hnb, hsp]; exact h.made
  case listed => rw [hv]; exact h.listed

/-- The part without uses at the end of the old bundle is cut off. -/
theorem Work.cutTail {st0 st st' : St} {b nb p s q v : Nat} {A B X : List Entry} {e : Entry} (h : Work st0 b st nb p A B)
    (hs : (st.spillsets (st0.bundles b).spillset).spillBundle = some s)
    (hl : (st.bundles b).ranges = X ++ [e])
    (hq : q % 2 = 0) (hq1 : e.range.fr < q) (hq2 : q < e.range.to) (hu : ∀ u ∈ (st.ranges e.index).uses, u.pos < q)
    (hvr : (st.ranges e.index).vreg = some v)
    (hst' : st' = { st with
      ranges := upd (upd st.ranges e.index { st.ranges e.index with range := ⟨(st.ranges e.index).range.fr, q⟩ }) st.nRanges
        { LRange.fresh ⟨q, e.range.to⟩ with bundle := some s }
      nRanges := st.nRanges + 1
      bundles := upd (upd st.bundles b { st.bundles b with ranges := X ++ [⟨⟨e.range.fr, q⟩, e.index⟩] }) s
        { st.bundles s with ranges := (st.bundles s).ranges ++ [⟨⟨q, e.range.to⟩, st.nRanges⟩] }
      vregs := upd st.vregs v (st.vregs v ++ [⟨⟨q, e.range.to⟩, st.nRanges⟩]) }) :
    Work st0 b st' nb p (⟨⟨q, e.range.to⟩, st.nRanges⟩ :: A) B := by
  obtain ⟨hsb, hsn, hsl, hso⟩ := h.spill s hs
  have hbn : b ≠ nb := by have := h.nb; omega
  have hlist : (st.bundles b).ranges ++ A ++ B ++ (st.bundles nb).ranges =
      X ++ e :: (A ++ B ++ (st.bundles nb).ranges) := by simp [hl]
  have hmemall : e ∈ (st.bundles b).ranges ++ A ++ B ++ (st.bundles nb).ranges := by rw [hlist]; simp
  have hre := h.ref.range e hmemall
  have hei : e.index ≠ st.nRanges := by omega
  have eb : st'.bundles b = { st.bundles b with ranges := X ++ [⟨⟨e.range.fr, q⟩, e.index⟩] } := by
    rw [hst']; simp [upd, hsb.symm]
  have en : st'.bundles nb = st.bundles nb := by rw [hst']; simp [upd, hsn.symm, hbn.symm]
  have es : st'.bundles s = { st.bundles s with ranges := (st.bundles s).ranges ++ [⟨⟨q, e.range.to⟩, st.nRanges⟩] } := by
    rw [hst']; simp [upd]
  have er1 : st'.ranges e.index = { st.ranges e.index with range := ⟨e.range.fr, q⟩ } := by
    rw [hst', ← hre.1]; simp [upd, hei]
  have er2 : st'.ranges st.nRanges = { LRange.fresh ⟨q, e.range.to⟩ with bundle := some s } := by
    rw [hst']; simp [upd]
  have er3 : ∀ j, j ≠ e.index → j ≠ st.nRanges → st'.ranges j = st.ranges j := by
    intro j h1 h2; rw [hst']; simp [upd, h1, h2]
  have eo : ∀ c, c ≠ b → c ≠ s → st'.bundles c = st.bundles c := by
    intro c h1 h2; rw [hst']; simp [upd, h1, h2]
  have hv : st'.vregs = upd st.vregs v (st.vregs v ++ [⟨⟨q, e.range.to⟩, st.nRanges⟩]) := by rw [hst']
  have hn : st'.nRanges = st.nRanges + 1 := by rw [hst']
  have hsp : st'.spillsets = st.spillsets := by rw [hst']
  have hnb : st'.nBundles = st.nBundles := by rw [hst']
  clear hst'
  have hidx : ∀ x, x ∈ X ∨ x ∈ A ++ B ++ (st.bundles nb).ranges → x.index ≠ e.index := fun x hx => h.mem_idx hlist hx
  have hlt : ∀ x, x ∈ X ∨ x ∈ A ++ B ++ (st.bundles nb).ranges → x.index ≠ st.nRanges := fun x hx => by
    have := (h.ref.range x (by rw [hlist]; simp at hx ⊢; grind)).2; omega
  have hsame : ∀ x, x ∈ X ∨ x ∈ A ++ B ++ (st.bundles nb).ranges → st'.ranges x.index = st.ranges x.index :=
    fun x hx => er3 _ (hidx x hx) (hlt x hx)
  obtain ⟨v', hv1, hv2⟩ := h.live e (.inl (by simp [hl]))
  rw [hvr] at hv1; injection hv1 with hv1; subst hv1
  have hnf : ∀ w, ¬ Owns st w st.nRanges := by
    rintro w ⟨y, hy, hy2⟩; have := h.fresh w y hy; omega
  have hownlt : ∀ i, i ≠ st.nRanges → ∀ w, Owns st' w i ↔ Owns st w i := by
    intro i hi w
    unfold Owns
    rw [hv]
    by_cases hw : w = v
    · subst hw; rw [upd_same]; simp only [List.mem_append, List.mem_singleton]
      constructor
      · rintro ⟨y, hy | rfl, hy2⟩
        · exact ⟨y, hy, hy2⟩
        · exact absurd hy2.symm hi
      · rintro ⟨y, hy, hy2⟩; exact ⟨y, .inl hy, hy2⟩
    · rw [upd_ne _ _ hw]
  constructor
  case ref =>
    rw [eb, en]
    have href := h.ref
    rw [hlist] at href
    have hl2 : X ++ [(⟨⟨e.range.fr, q⟩, e.index⟩ : Entry)] ++ ⟨⟨q, e.range.to⟩, st.nRanges⟩ :: A ++ B ++ (st.bundles nb).ranges =
      X ++ ⟨⟨e.range.fr, q⟩, e.index⟩ :: ⟨⟨q, e.range.to⟩, st.nRanges⟩ :: (A ++ B ++ (st.bundles nb).ranges) := by simp
    dsimp only; rw [hl2]
    exact href.cut q e.index st.nRanges (st.ranges e.index).uses [] v hq hq1 hq2 (.inl ⟨rfl, rfl⟩) (by simp) hu (by simp)
      (by rw [er1]; exact ⟨rfl, rfl⟩) (by rw [er2]; exact ⟨rfl, rfl⟩) er3 hn hv2 hnf ⟨_, hv⟩
  case live =>
    rw [eb, en]
    intro y hy
    dsimp only at hy
    rw [List.mem_append, List.mem_singleton] at hy
    rcases hy with (hy | rfl) | hy
    · rw [hsame y (.inl hy)]
      obtain ⟨v, a1, a2⟩ := h.live y (.inl (by simp [hl, hy]))
      exact ⟨v, a1, fun w => (hownlt _ (hlt y (.inl hy)) w).trans (a2 w)⟩
    · dsimp only; rw [er1]
      exact ⟨v, hvr, fun w => (hownlt _ hei w).trans (hv2 w)⟩
    · rw [hsame y (.inr (by simp [hy]))]
      obtain ⟨v, a1, a2⟩ := h.live y (.inr hy)
      exact ⟨v, a1, fun w => (hownlt _ (hlt y (.inr (by simp [hy]))) w).trans (a2 w)⟩
  case fresh =>
    rw [hv, hn]
    intro w y hy
    by_cases hw : w = v
    · subst hw; rw [upd_same, List.mem_append, List.mem_singleton] at hy
      rcases hy with hy | rfl
      · have := h.fresh _ y hy; omega
      · dsimp only; omega
    · rw [upd_ne _ _ hw] at hy
      have := h.fresh _ y hy; omega
  case boundL =>
    rw [eb]; intro y hy
    have hep := h.boundL e (by simp [hl])
    dsimp only at hy
    simp only [List.mem_append, List.mem_cons, List.not_mem_nil, or_false] at hy
    rcases hy with (hy | rfl) | rfl | hy
    · exact h.boundL y (by simp [hl, hy])
    · dsimp only; omega
    · exact hep
    · exact h.boundL y (by simp [hy])
  case boundR => rw [en]; exact h.boundR
  case linkOld =>
    rw [eb]; intro y hy
    dsimp only at hy
    rw [List.mem_append, List.mem_singleton] at hy
    rcases hy with hy | rfl
    · rw [hsame y (.inl hy)]; exact h.linkOld y (by simp [hl, hy])
    · dsimp only; rw [er1]; exact h.linkOld e (by simp [hl])
  case linkNew =>
    rw [en]; intro y hy
    rw [hsame y (.inr (by simp [hy]))]
    exact h.linkNew y hy
  case moved =>
    obtain ⟨m, hm, hr⟩ := h.moved
    refine ⟨m ++ [⟨⟨q, e.range.to⟩, st.nRanges⟩], ?_, ?_⟩
    · exact (List.perm_append_comm (l₁ := m) (l₂ := [_])).trans (List.Perm.cons _ hm)
    · unfold spillRanges at hr ⊢
      rw [hs] at hr
      rw [hsp, hs]
      dsimp only at hr ⊢
      rw [es]
      dsimp only
      rw [hr, List.append_assoc]
  case unused =>
    intro y hy
    rcases List.mem_cons.mp hy with rfl | hy
    · dsimp only; rw [er2]; rfl
    · rw [hsame y (.inr (by simp at hy ⊢; grind))]; exact h.unused y hy
  case linkSpill =>
    intro y hy
    rw [hsp]
    rcases List.mem_cons.mp hy with rfl | hy
    · exact ⟨s, hs, by dsimp only; rw [er2]⟩
    · rw [hsame y (.inr (by simp at hy ⊢; grind))]
      exact h.linkSpill y hy
  case spill => rw [hsp, hnb]; exact h.spill
  case sets => rw [eb, en]; exact h.sets
  case nb => rw [hnb]; exact h.nb
  case others =>
    intro c hc hcb hcs
    rw [eo c hcb ?_]
    · exact h.others c hc hcb hcs
    · rintro rfl
      rcases hso with hso | hso
      · exact hcs hso
      · omega
  case flag =>
    rw [eb, en]; dsimp only
    intro hf y hy
    have hy : (y ∈ X ∨ y ∈ A ++ B ++ (st.bundles nb).ranges) ∨ y = ⟨⟨e.range.fr, q⟩, e.index⟩ ∨
        y = ⟨⟨q, e.range.to⟩, st.nRanges⟩ := by
      simp only [List.mem_append, List.mem_cons, List.not_mem_nil, or_false] at hy ⊢; grind
    rcases hy with hy | rfl | rfl
    · rw [hsame y hy]
      exact h.flag hf y (by rw [hlist]; simp only [List.mem_append, List.mem_cons] at hy ⊢; grind)
    · dsimp only; rw [er1]; exact h.flag hf e hmemall
    · dsimp only; rw [er2]; simp [Flagged, LRange.fresh]
  case housed =>
    rw [eb, en, hn]; dsimp only
    intro i hi
    by_cases hin : i = st.nRanges
    · exact ⟨⟨⟨q, e.range.to⟩, st.nRanges⟩, by simp, hin.symm⟩
    · obtain ⟨y, hy, h2⟩ := h.housed i (by rcases hi with hi | hi; exact .inl hi; exact .inr (by omega))
      rw [hlist] at hy
      by_cases hye : y = e
      · subst hye; exact ⟨⟨⟨y.range.fr, q⟩, y.index⟩, by simp, h2⟩
      · exact ⟨y, by simp only [List.mem_append, List.mem_cons] at hy ⊢; grind, h2⟩
  case owners =>
    intro w i hi
    have := h.ref.grow
    rw [hownlt i (by omega)]; exact h.owners w i hi
  case made => rw [hnb, hsp]; exact h.made
  case listed => intro h0; rw [hv]; exact nodup_push (h.listed h0) h.fresh

/-- The part without uses at the start of the new bundle is cut off. -/
theorem Work.cutHead {st0 st st' : St} {b nb p s q v : Nat} {A B X : List Entry} {e : Entry} (h : Work st0 b st nb p A B)
    (hs : (st.spillsets (st0.bundles b).spillset).spillBundle = some s)
    (hl : (st.bundles nb).ranges = e :: X)
    (hq : q % 2 = 0) (hq1 : e.range.fr < q) (hq2 : q < e.range.to) (hu : ∀ u ∈ (st.ranges e.index).uses, q ≤ u.pos)
    (hvr : (st.ranges e.index).vreg = some v)
    (hst' : st' = { st with
      ranges := upd (upd st.ranges e.index { st.ranges e.index with range := ⟨q, (st.ranges e.index).range.to⟩ }) st.nRanges
        { LRange.fresh ⟨e.range.fr, q⟩ with bundle := some s }
      nRanges := st.nRanges + 1
      bundles := upd (upd st.bundles nb { st.bundles nb with ranges := ⟨⟨q, e.range.to⟩, e.index⟩ :: X }) s
        { st.bundles s with ranges := (st.bundles s).ranges ++ [⟨⟨e.range.fr, q⟩, st.nRanges⟩] }
      vregs := upd st.vregs v (st.vregs v ++ [⟨⟨e.range.fr, q⟩, st.nRanges⟩]) }) :
    Work st0 b st' nb p A (B ++ [⟨⟨e.range.fr, q⟩, st.nRanges⟩]) := by
  obtain ⟨hsb, hsn, hsl, hso⟩ := h.spill s hs
  have hbn : b ≠ nb := by have := h.nb; omega
  have hlist : (st.bundles b).ranges ++ A ++ B ++ (st.bundles nb).ranges =
      ((st.bundles b).ranges ++ A ++ B) ++ e :: X := by simp [hl]
  have hmemall : e ∈ (st.bundles b).ranges ++ A ++ B ++ (st.bundles nb).ranges := by rw [hlist]; simp
  have hre := h.ref.range e hmemall
  have hei : e.index ≠ st.nRanges := by omega
  have en : st'.bundles nb = { st.bundles nb with ranges := ⟨⟨q, e.range.to⟩, e.index⟩ :: X } := by
    rw [hst']; simp [upd, hsn.symm]
  have eb : st'.bundles b = st.bundles b := by rw [hst']; simp [upd, hsb.symm, hbn]
  have es : st'.bundles s = { st.bundles s with ranges := (st.bundles s).ranges ++ [⟨⟨e.range.fr, q⟩, st.nRanges⟩] } := by
    rw [hst']; simp [upd]
  have er1 : st'.ranges e.index = { st.ranges e.index with range := ⟨q, e.range.to⟩ } := by
    rw [hst', ← hre.1]; simp [upd, hei]
  have er2 : st'.ranges st.nRanges = { LRange.fresh ⟨e.range.fr, q⟩ with bundle := some s } := by
    rw [hst']; simp [upd]
  have er3 : ∀ j, j ≠ e.index → j ≠ st.nRanges → st'.ranges j = st.ranges j := by
    intro j h1 h2; rw [hst']; simp [upd, h1, h2]
  have eo : ∀ c, c ≠ nb → c ≠ s → st'.bundles c = st.bundles c := by
    intro c h1 h2; rw [hst']; simp [upd, h1, h2]
  have hv : st'.vregs = upd st.vregs v (st.vregs v ++ [⟨⟨e.range.fr, q⟩, st.nRanges⟩]) := by rw [hst']
  have hn : st'.nRanges = st.nRanges + 1 := by rw [hst']
  have hsp : st'.spillsets = st.spillsets := by rw [hst']
  have hnb : st'.nBundles = st.nBundles := by rw [hst']
  clear hst'
  have hidx : ∀ x, x ∈ (st.bundles b).ranges ++ A ++ B ∨ x ∈ X → x.index ≠ e.index := fun x hx => h.mem_idx hlist hx
  have hlt : ∀ x, x ∈ (st.bundles b).ranges ++ A ++ B ∨ x ∈ X → x.index ≠ st.nRanges := fun x hx => by
    have := (h.ref.range x (by rw [hlist]; simp at hx ⊢; grind)).2; omega
  have hsame : ∀ x, x ∈ (st.bundles b).ranges ++ A ++ B ∨ x ∈ X → st'.ranges x.index = st.ranges x.index :=
    fun x hx => er3 _ (hidx x hx) (hlt x hx)
  obtain ⟨v', hv1, hv2⟩ := h.live e (.inr (by simp [hl]))
  rw [hvr] at hv1; injection hv1 with hv1; subst hv1
  have hnf : ∀ w, ¬ Owns st w st.nRanges := by
    rintro w ⟨y, hy, hy2⟩; have := h.fresh w y hy; omega
  have hownlt : ∀ i, i ≠ st.nRanges → ∀ w, Owns st' w i ↔ Owns st w i := by
    intro i hi w
    unfold Owns
    rw [hv]
    by_cases hw : w = v
    · subst hw; rw [upd_same]; simp only [List.mem_append, List.mem_singleton]
      constructor
      · rintro ⟨y, hy | rfl, hy2⟩
        · exact ⟨y, hy, hy2⟩
        · exact absurd hy2.symm hi
      · rintro ⟨y, hy, hy2⟩; exact ⟨y, .inl hy, hy2⟩
    · rw [upd_ne _ _ hw]
  constructor
  case ref =>
    rw [eb, en]
    have href := h.ref
    rw [hlist] at href
    have hl2 : (st.bundles b).ranges ++ A ++ (B ++ [(⟨⟨e.range.fr, q⟩, st.nRanges⟩ : Entry)]) ++ ⟨⟨q, e.range.to⟩, e.index⟩ :: X =
      ((st.bundles b).ranges ++ A ++ B) ++ ⟨⟨e.range.fr, q⟩, st.nRanges⟩ :: ⟨⟨q, e.range.to⟩, e.index⟩ :: X := by simp
    dsimp only; rw [hl2]
    exact href.cut q st.nRanges e.index [] (st.ranges e.index).uses v hq hq1 hq2 (.inr ⟨rfl, rfl⟩) (by simp) (by simp) hu
      (by rw [er2]; exact ⟨rfl, rfl⟩) (by rw [er1]; exact ⟨rfl, rfl⟩) (fun j a b => er3 j b a) hn hv2 hnf ⟨_, hv⟩
  case live =>
    rw [eb, en]
    intro y hy
    dsimp only at hy
    rw [List.mem_cons] at hy
    rcases hy with hy | rfl | hy
    · rw [hsame y (.inl (by simp [hy]))]
      obtain ⟨v, a1, a2⟩ := h.live y (.inl hy)
      exact ⟨v, a1, fun w => (hownlt _ (hlt y (.inl (by simp [hy]))) w).trans (a2 w)⟩
    · dsimp only; rw [er1]
      exact ⟨v, hvr, fun w => (hownlt _ hei w).trans (hv2 w)⟩
    · rw [hsame y (.inr hy)]
      obtain ⟨v, a1, a2⟩ := h.live y (.inr (by simp [hl, hy]))
      exact ⟨v, a1, fun w => (hownlt _ (hlt y (.inr hy)) w).trans (a2 w)⟩
  case fresh =>
    rw [hv, hn]
    intro w y hy
    by_cases hw : w = v
    · subst hw; rw [upd_same, List.mem_append, List.mem_singleton] at hy
      rcases hy with hy | rfl
      · have := h.fresh _ y hy; omega
      · dsimp only; omega
    · rw [upd_ne _ _ hw] at hy
      have := h.fresh _ y hy; omega
  case boundL => rw [eb]; exact h.boundL
  case boundR =>
    rw [en]; intro y hy
    have hep := h.boundR e (by simp [hl])
    dsimp only at hy
    simp only [List.mem_append, List.mem_cons, List.not_mem_nil, or_false] at hy
    rcases hy with (hy | rfl) | rfl | hy
    · exact h.boundR y (by simp [hy])
    · exact hep
    · dsimp only; omega
    · exact h.boundR y (by simp [hl, hy])
  case linkOld =>
    rw [eb]; intro y hy
    rw [hsame y (.inl (by simp [hy]))]
    exact h.linkOld y hy
  case linkNew =>
    rw [en]; intro y hy
    dsimp only at hy
    rw [List.mem_cons] at hy
    rcases hy with rfl | hy
    · dsimp only; rw [er1]; exact h.linkNew e (by simp [hl])
    · rw [hsame y (.inr hy)]; exact h.linkNew y (by simp [hl, hy])
  case moved =>
    obtain ⟨m, hm, hr⟩ := h.moved
    refine ⟨m ++ [⟨⟨e.range.fr, q⟩, st.nRanges⟩], ?_, ?_⟩
    · rw [← List.append_assoc]; exact hm.append_right _
    · unfold spillRanges at hr ⊢
      rw [hs] at hr
      rw [hsp, hs]
      dsimp only at hr ⊢
      rw [es]
      dsimp only
      rw [hr, List.append_assoc]
  case unused =>
    intro y hy
    have hy : y ∈ A ++ B ∨ y = ⟨⟨e.range.fr, q⟩, st.nRanges⟩ := by simpa [or_assoc] using hy
    rcases hy with hy | rfl
    · rw [hsame y (.inl (by simp at hy ⊢; grind))]; exact h.unused y hy
    · dsimp only; rw [er2]; rfl
  case linkSpill =>
    intro y hy
    rw [hsp]
    have hy : y ∈ A ++ B ∨ y = ⟨⟨e.range.fr, q⟩, st.nRanges⟩ := by simpa [or_assoc] using hy
    rcases hy with hy | rfl
    · rw [hsame y (.inl (by simp at hy ⊢; grind))]
      exact h.linkSpill y hy
    · exact ⟨s, hs, by dsimp only; rw [er2]⟩
  case spill => rw [hsp, hnb]; exact h.spill
  case sets => rw [eb, en]; exact h.sets
  case nb => rw [hnb]; exact h.nb
  case others =>
    intro c hc hcb hcs
    rw [eo c (by have := h.nb; omega) ?_]
    · exact h.others c hc hcb hcs
    · rintro rfl
      rcases hso with hso | hso
      · exact hcs hso
      · omega
  case flag =>
    rw [eb, en]; dsimp only
    intro hf y hy
    have hy : (y ∈ (st.bundles b).ranges ++ A ++ B ∨ y ∈ X) ∨ y = ⟨⟨q, e.range.to⟩, e.index⟩ ∨
        y = ⟨⟨e.range.fr, q⟩, st.nRanges⟩ := by
      simp only [List.mem_append, List.mem_cons, List.not_mem_nil, or_false] at hy ⊢; grind
    rcases hy with hy | rfl | rfl
    · rw [hsame y hy]
      exact h.flag hf y (by rw [hlist]; simp only [List.mem_append, List.mem_cons] at hy ⊢; grind)
    · dsimp only; rw [er1]; exact h.flag hf e hmemall
    · dsimp only; rw [er2]; simp [Flagged, LRange.fresh]
  case housed =>
    rw [eb, en, hn]; dsimp only
    intro i hi
    by_cases hin : i = st.nRanges
    · exact ⟨⟨⟨e.range.fr, q⟩, st.nRanges⟩, by simp, hin.symm⟩
    · obtain ⟨y, hy, h2⟩ := h.housed i (by rcases hi with hi | hi; exact .inl hi; exact .inr (by omega))
      rw [hlist] at hy
      by_cases hye : y = e
      · subst hye; exact ⟨⟨⟨q, y.range.to⟩, y.index⟩, by simp, h2⟩
      · exact ⟨y, by simp only [List.mem_append, List.mem_cons] at hy ⊢; grind, h2⟩
  case owners =>
    intro w i hi
    have := h.ref.grow
    rw [hownlt i (by omega)]; exact h.owners w i hi
  case made => rw [hnb, hsp]; exact h.made
  case listed => intro h0; rw [hv]; exact nodup_push (h.listed h0) h.fresh

/-! ### The trimming loops -/

theorem last_le {us : List Use} {u : Use} (h : us.Pairwise (fun a b => a.pos ≤ b.pos)) (hu : us.getLast? = some u) :
    u ∈ us ∧ ∀ x ∈ us, x.pos ≤ u.pos := by
  obtain ⟨ys, rfl⟩ := List.getLast?_eq_some_iff.mp hu
  refine ⟨by simp, fun x hx => ?_⟩
  rw [List.mem_append, List.mem_singleton] at hx
  rcases hx with hx | rfl
  · exact (List.pairwise_append.mp h).2.2 x hx u (by simp)
  · exact Nat.le_refl _

theorem head_le_all {us : List Use} {u : Use} (h : us.Pairwise (fun a b => a.pos ≤ b.pos)) (hu : us.head? = some u) :
    u ∈ us ∧ ∀ x ∈ us, u.pos ≤ x.pos := by
  obtain ⟨ys, rfl⟩ := List.head?_eq_some_iff.mp hu
  refine ⟨by simp, fun x hx => ?_⟩
  rcases List.mem_cons.mp hx with rfl | hx
  · exact Nat.le_refl _
  · exact (List.pairwise_cons.mp h).1 x hx

theorem trimTail_work {st0 : St} {b nb p : Nat} {B : List Entry} (n : Nat) :
    ∀ {st : St} {A : List Entry}, Work st0 b st nb p A B → (st.bundles b).ranges.length ≤ n →
    ∃ st' A', trimTail b n st = some st' ∧ Work st0 b st' nb p A' B ∧ TailTrimmed st' b := by
  induction n with
  | zero =>
    intro st A h hn
    refine ⟨st, A, rfl, h, ?_⟩
    intro e he
    rw [List.length_eq_zero_iff.mp (Nat.le_zero.mp hn)] at he
    simp at he
  | succ n ih =>
    intro st A h hn
    unfold trimTail
    cases hl : (st.bundles b).ranges.getLast? with
    | none => exact ⟨st, A, rfl, h, fun e he => by rw [hl] at he; cases he⟩
    | some e =>
      dsimp only
      obtain ⟨X, hX⟩ := List.getLast?_eq_some_iff.mp hl
      obtain ⟨w, ws, wr, wn, wv, wb, wnb⟩ := h.spillBundle (.inl rfl : b = b ∨ b = nb)
      have heall : e ∈ (st.bundles b).ranges ++ A ++ B ++ (st.bundles nb).ranges := by simp [hX]
      cases hu : (st.ranges e.index).uses.getLast? with
      | none =>
        dsimp only
        have hu0 : (st.ranges e.index).uses = [] := by simpa using hu
        have w2 := w.moveTail ws (wb.symm ▸ hX) (wr.symm ▸ hu0)
        refine ih w2 ?_
        have hbs := (w.spill _ ws).1.symm
        simp only [St.modB, St.modR, upd, hbs, if_false, if_true, wb, hX, List.dropLast_concat]
        rw [hX, List.length_append] at hn
        simpa using hn
      | some u =>
        dsimp only
        obtain ⟨hu1, hu2⟩ := last_le (h.ref.sorted e heall) hu
        have hin := h.ref.inside e heall u hu1
        unfold Covers at hin
        by_cases hc : ptBefore (instOf u.pos + 1) < e.range.to
        · rw [if_pos hc]
          obtain ⟨v, hv1, -⟩ := h.live e (.inl (by simp [hX]))
          rw [hv1]
          have hbs := (w.spill _ ws).1.symm
          have hq : ptBefore (instOf u.pos + 1) = 2 * (u.pos / 2) + 2 := by unfold ptBefore instOf; omega
          refine ⟨_, _, rfl, w.cutTail (v := v) (q := ptBefore (instOf u.pos + 1)) (X := X) (e := e) ws (wb.symm ▸ hX)
            (by rw [hq]; omega) (by rw [hq]; omega) hc ?_ (wr.symm ▸ hv1) ?_, ?_⟩
          · rw [wr]; intro x hx; have := hu2 x hx; rw [hq]; omega
          · simp only [St.modB, St.modR, St.addRange, wb, hX, List.dropLast_concat]
            congr 1
            simp only [upd, hbs.symm, if_false]
          · intro y hy
            have hei : e.index ≠ (Ion.spillBundle st b).1.nRanges := by
              have := (h.ref.range e heall).2; rw [wn]; omega
            simp only [St.modB, St.modR, St.addRange, upd, hbs, if_false, if_true, wb, hX, List.dropLast_concat,
              List.getLast?_append, List.getLast?_singleton, Option.some_or, Option.some.injEq] at hy
            subst hy
            refine ⟨u, ?_, by dsimp only; omega⟩
            simp only [St.modB, St.modR, St.addRange, upd, hei, if_false, if_true, wr]
            exact hu1
        · rw [if_neg hc]
          refine ⟨st, A, rfl, h, ?_⟩
          intro y hy
          rw [hl] at hy; injection hy with hy; subst hy
          refine ⟨u, hu1, ?_⟩
          unfold ptBefore instOf at hc; omega

theorem trimHead_work {st0 : St} {b nb p : Nat} {A : List Entry} (n : Nat) :
    ∀ {st : St} {B : List Entry}, Work st0 b st nb p A B → (st.bundles nb).ranges.length ≤ n →
    ∃ st' B', trimHead nb n st = some st' ∧ Work st0 b st' nb p A B' ∧ HeadTrimmed st' nb ∧
      st'.bundles b = st.bundles b ∧ ∀ e ∈ (st.bundles b).ranges, st'.ranges e.index = st.ranges e.index := by
  induction n with
  | zero =>
    intro st B h hn
    refine ⟨st, B, rfl, h, ?_, rfl, fun _ _ => rfl⟩
    intro e he
    rw [List.length_eq_zero_iff.mp (Nat.le_zero.mp hn)] at he
    simp at he
  | succ n ih =>
    intro st B h hn
    unfold trimHead
    cases hX : (st.bundles nb).ranges with
    | nil => exact ⟨st, B, rfl, h, (fun e he => by rw [hX] at he; cases he), rfl, fun _ _ => rfl⟩
    | cons e X =>
      dsimp only
      obtain ⟨w, ws, wr, wn, wv, wb, wnb⟩ := h.spillBundle (.inr rfl : nb = b ∨ nb = nb)
      have heall : e ∈ (st.bundles b).ranges ++ A ++ B ++ (st.bundles nb).ranges := by simp [hX]
      have hlist : (st.bundles b).ranges ++ A ++ B ++ (st.bundles nb).ranges =
        ((st.bundles b).ranges ++ A ++ B) ++ e :: X := by simp [hX]
      have hidx : ∀ x ∈ (st.bundles b).ranges, x.index ≠ e.index := fun x hx =>
        h.mem_idx hlist (.inl (by simp [hx]))
      have hbn : b ≠ nb := by have := h.nb; omega
      by_cases hd : (st.ranges e.index).startsAtDef = true
      · rw [if_pos hd]
        refine ⟨st, B, rfl, h, ?_, rfl, fun _ _ => rfl⟩
        intro y hy
        rw [hX] at hy; injection hy with hy; subst hy
        exact .inl hd
      · rw [if_neg hd]
        cases hu : (st.ranges e.index).uses.head? with
        | none =>
          dsimp only
          have hu0 : (st.ranges e.index).uses = [] := by simpa using hu
          have w2 := w.moveHead ws (wnb.symm ▸ hX) (wr.symm ▸ hu0)
          have hbs := (w.spill _ ws).1.symm
          have hns := (w.spill _ ws).2.1.symm
          obtain ⟨st', B', h1, h2, h3, h4, h5⟩ := ih w2 (by
            simp only [St.modB, St.modR, upd, hns, if_false, if_true]
            rw [hX, List.length_cons] at hn
            omega)
          refine ⟨st', B', h1, h2, h3, ?_, ?_⟩
          · rw [h4]; simp only [St.modB, St.modR, upd, hbs, hbn, if_false, wb]
          · intro y hy
            rw [h5 y (by simp only [St.modB, St.modR, upd, hbs, hbn, if_false, wb]; exact hy)]
            simp only [St.modB, St.modR, upd, hidx y hy, if_false, wr]
        | some u =>
          dsimp only
          obtain ⟨hu1, hu2⟩ := head_le_all (h.ref.sorted e heall) hu
          have hin := h.ref.inside e heall u hu1
          unfold Covers at hin
          by_cases hc : ptBefore (instOf u.pos) > e.range.fr
          · rw [if_pos hc]
            obtain ⟨v, hv1, -⟩ := h.live e (.inr (by simp [hX]))
            rw [hv1]
            have hbs := (w.spill _ ws).1.symm
            have hns := (w.spill _ ws).2.1.symm
            have hq : ptBefore (instOf u.pos) = 2 * (u.pos / 2) := by unfold ptBefore instOf; omega
            have hei : e.index ≠ (Ion.spillBundle st nb).1.nRanges := by
              have := (h.ref.range e heall).2; rw [wn]; omega
            refine ⟨_, _, rfl, w.cutHead (v := v) (q := ptBefore (instOf u.pos)) (X := X) (e := e) ws (wnb.symm ▸ hX)
              (by rw [hq]; omega) hc (by rw [hq]; omega) ?_ (wr.symm ▸ hv1) ?_, ?_, ?_, ?_⟩
            · rw [wr]; intro x hx; have := hu2 x hx; rw [hq]; omega
            · simp only [St.modB, St.modR, St.addRange, wnb]
              congr 1
              simp only [upd, hns.symm, if_false]
            · intro y hy
              simp only [St.modB, St.modR, St.addRange, upd, hns, if_false, if_true,
                List.head?_cons, Option.some.injEq] at hy
              subst hy
              refine .inr ⟨u, ?_, by dsimp only; omega⟩
              simp only [St.modB, St.modR, St.addRange, upd, hei, if_false, if_true, wr]
              exact hu1
            · simp only [St.modB, St.modR, St.addRange, upd, hbs, hbn, if_false, wb]
            · intro y hy
              have : y.index ≠ (Ion.spillBundle st nb).1.nRanges := by
                have := (h.ref.range y (by simp [hy])).2; rw [wn]; omega
              simp only [St.modB, St.modR, St.addRange, upd, hidx y hy, this, if_false, wr]
          · rw [if_neg hc]
            refine ⟨st, B, rfl, h, ?_, rfl, fun _ _ => rfl⟩
            intro y hy
            rw [hX] at hy; injection hy with hy; subst hy
            refine .inr ⟨u, hu1, ?_⟩
            unfold ptBefore instOf at hc; omega

/-! ### Choosing the point -/

theorem splitPoint_bounds {start stop at_ : Nat} {fu : Option Nat} (h1 : start ≤ at_) (h2 : at_ < stop)
    (h3 : (stop - 1) / 2 ≠ start / 2) (h4 : ∀ p, fu = some p → start ≤ p ∧ p < stop) :
    splitPoint start stop fu at_ % 2 = 0 ∧ start < splitPoint start stop fu at_ ∧ splitPoint start stop fu at_ < stop := by
  have hlt : start / 2 + 1 ≤ (stop - 1) / 2 := by
    have : start / 2 ≤ (stop - 1) / 2 := Nat.div_le_div_right (by omega)
    omega
  unfold splitPoint
  split
  · cases fu with
    | none => unfold ptBefore instOf; dsimp only; omega
    | some p =>
      have := h4 p rfl
      unfold ptBefore instOf; dsimp only
      split
      · omega
      · have : start / 2 ≤ p / 2 := Nat.div_le_div_right (by omega)
        omega
  · dsimp only
    split <;> split <;> omega

/-- Where the loop stops: inside an entry, or in a gap between two. -/
theorem locate_spec (fixed : Bool) (uses : Nat → List Use) (es : List Entry) :
    ∀ (pre : List Entry) (l : Located), Tidy (pre ++ es) →
    (∀ e ∈ es, ∀ u ∈ uses e.index, Covers e.range u.pos) → l.at_ % 2 = 0 →
    (∃ e ∈ es, l.at_ < e.range.to) →
    ((pre = [] ∧ ∃ e ∈ es.head?, e.range.fr < l.at_) ∨
      (pre ≠ [] ∧ l.last + 1 = pre.length ∧ ∀ e ∈ pre, e.range.to ≤ l.at_)) →
    ∃ X Y, (locate fixed uses es pre.length l).at_ % 2 = 0 ∧
      l.at_ ≤ (locate fixed uses es pre.length l).at_ ∧
      ((locate fixed uses es pre.length l).trim = true → l.trim = true) ∧
      ((∃ e, pre ++ es = X ++ e :: Y ∧ (locate fixed uses es pre.length l).last = X.length ∧
          (locate fixed uses es pre.length l).first = X.length ∧
          e.range.fr < (locate fixed uses es pre.length l).at_ ∧ (locate fixed uses es pre.length l).at_ < e.range.to) ∨
       (pre ++ es = X ++ Y ∧ X ≠ [] ∧ Y ≠ [] ∧ (locate fixed uses es pre.length l).last + 1 = X.length ∧
          (locate fixed uses es pre.length l).first = X.length ∧
          (∀ e ∈ X, e.range.to ≤ (locate fixed uses es pre.length l).at_) ∧
          (∀ e ∈ Y, (locate fixed uses es pre.length l).at_ ≤ e.range.fr))) := by
  induction es with
  | nil => intro pre l _ _ _ ⟨e, he, _⟩ _; cases he
  | cons e es ih =>
    intro pre l ht hin hev hend hst
    obtain ⟨t1, t2, t3⟩ := tidy_append.mp ht
    obtain ⟨c1, c2, c3⟩ := tidy_cons.mp t2
    unfold locate
    dsimp only
    by_cases hgt : l.at_ > e.range.fr
    · rw [if_pos hgt]
      dsimp only
      by_cases hlt : l.at_ < e.range.to
      · rw [if_pos hlt]
        cases fixed with
        | false =>
          exact ⟨pre, es, hev, Nat.le_refl _, id, .inl ⟨e, rfl, rfl, rfl, hgt, hlt⟩⟩
        | true =>
          rw [if_pos rfl]
          split
          · rename_i u hu
            have hu1 := List.mem_of_find?_eq_some hu
            have hu2 := List.find?_some hu
            simp only [Bool.and_eq_true, decide_eq_true_eq] at hu2
            have hcov := hin e (by simp) u hu1
            unfold Covers at hcov
            have hq : ptBefore (instOf u.pos) = 2 * (u.pos / 2) := by unfold ptBefore instOf; omega
            dsimp only
            rw [hq]
            refine ⟨pre, es, by omega, by omega, (fun h => by cases h), .inl ⟨e, rfl, ?_, rfl, by omega, by omega⟩⟩
            rw [if_pos (by omega)]
          · exact ⟨pre, es, hev, Nat.le_refl _, id, .inl ⟨e, rfl, rfl, rfl, hgt, hlt⟩⟩
      · rw [if_neg hlt]
        have hnext : ∃ x ∈ es, l.at_ < x.range.to := by
          obtain ⟨x, hx, hx2⟩ := hend
          rcases List.mem_cons.mp hx with rfl | hx
          · exact absurd hx2 hlt
          · exact ⟨x, hx, hx2⟩
        have := ih (pre ++ [e]) { l with last := pre.length, first := pre.length } (by simpa using ht)
          (fun x hx => hin x (by simp [hx])) hev hnext (.inr ⟨by simp, by simp, by
            intro x hx
            rw [List.mem_append, List.mem_singleton] at hx
            rcases hx with hx | rfl
            · have := t3 x hx e (by simp); dsimp only; omega
            · dsimp only; omega⟩)
        simpa only [List.length_append, List.length_singleton, List.append_assoc, List.singleton_append] using this
    · rw [if_neg hgt]
      have hpre : pre ≠ [] ∧ l.last + 1 = pre.length ∧ ∀ e ∈ pre, e.range.to ≤ l.at_ := by
        rcases hst with ⟨-, x, hx, hx2⟩ | h
        · simp at hx; subst hx; exact absurd hx2 hgt
        · exact h
      have hlt : l.at_ < e.range.to := by omega
      rw [if_pos hlt]
      have hgap : ∀ q, q ≤ e.range.fr → ∀ y ∈ e :: es, q ≤ y.range.fr := by
        intro q hq y hy
        rcases List.mem_cons.mp hy with rfl | hy
        · exact hq
        · have := c3 y hy; omega
      cases fixed with
      | false =>
        exact ⟨pre, e :: es, hev, Nat.le_refl _, id, .inr ⟨rfl, hpre.1, by simp, hpre.2.1, rfl, hpre.2.2,
          hgap _ (Nat.le_of_not_lt hgt)⟩⟩
      | true =>
        rw [if_pos rfl]
        split
        · rename_i u hu
          have hu1 := List.mem_of_find?_eq_some hu
          have hu2 := List.find?_some hu
          simp only [Bool.and_eq_true, decide_eq_true_eq] at hu2
          have hcov := hin e (by simp) u hu1
          unfold Covers at hcov
          have hq : ptBefore (instOf u.pos) = 2 * (u.pos / 2) := by unfold ptBefore instOf; omega
          dsimp only
          rw [hq]
          by_cases hc : 2 * (u.pos / 2) > e.range.fr
          · rw [if_pos hc]
            exact ⟨pre, es, by omega, by omega, (fun h => by cases h), .inl ⟨e, rfl, rfl, rfl, by omega, by omega⟩⟩
          · rw [if_neg hc]
            exact ⟨pre, e :: es, by omega, by omega, (fun h => by cases h), .inr ⟨rfl, hpre.1, by simp, hpre.2.1, rfl,
              fun x hx => by have := hpre.2.2 x hx; omega, hgap _ (by omega)⟩⟩
        · exact ⟨pre, e :: es, hev, Nat.le_refl _, id, .inr ⟨rfl, hpre.1, by simp, hpre.2.1, rfl, hpre.2.2,
            hgap _ (Nat.le_of_not_lt hgt)⟩⟩

/-! ### Dividing the list -/

theorem owns_push {st st' : St} {v n : Nat} {r : RKey} (hv : st'.vregs = upd st.vregs v (st.vregs v ++ [⟨r, n⟩]))
    (w i : Nat) : Owns st' w i ↔ Owns st w i ∨ (w = v ∧ i = n) := by
  unfold Owns
  rw [hv]
  by_cases hw : w = v
  · subst hw
    rw [upd_same]
    simp only [List.mem_append, List.mem_singleton]
    constructor
    · rintro ⟨x, hx | rfl, hxi⟩
      · exact .inl ⟨x, hx, hxi⟩
      · exact .inr ⟨trivial, hxi.symm⟩
    · rintro (⟨x, hx, hxi⟩ | ⟨-, rfl⟩)
      · exact ⟨x, .inl hx, hxi⟩
      · exact ⟨_, .inr rfl, rfl⟩
  · rw [upd_ne _ _ hw]
    simp [hw]

theorem cutUses (us : List Use) (q : Nat) (h : us.Pairwise (fun a b => a.pos ≤ b.pos)) :
    (∀ u ∈ us.take ((us.findIdx? (fun u => decide (u.pos ≥ q))).getD us.length), u.pos < q) ∧
    (∀ u ∈ us.drop ((us.findIdx? (fun u => decide (u.pos ≥ q))).getD us.length), q ≤ u.pos) := by
  induction us with
  | nil => simp
  | cons u us ih =>
    obtain ⟨h1, h2⟩ := List.pairwise_cons.mp h
    rw [List.findIdx?_cons]
    by_cases hc : u.pos ≥ q
    · simp only [hc, decide_true, if_true, Option.getD_some, List.take_zero, List.drop_zero]
      refine ⟨by simp, ?_⟩
      intro x hx
      rcases List.mem_cons.mp hx with rfl | hx
      · exact hc
      · have := h1 x hx; omega
    · simp only [hc, decide_false, Bool.false_eq_true, if_false]
      have e : (Option.map (fun i => i + 1) (us.findIdx? (fun u => decide (u.pos ≥ q)))).getD (u :: us).length =
          (us.findIdx? (fun u => decide (u.pos ≥ q))).getD us.length + 1 := by
        cases us.findIdx? (fun u => decide (u.pos ≥ q)) <;> simp
      rw [e, List.take_succ_cons, List.drop_succ_cons]
      obtain ⟨i1, i2⟩ := ih h2
      refine ⟨?_, i2⟩
      intro x hx
      rcases List.mem_cons.mp hx with rfl | hx
      · omega
      · exact i1 x hx

theorem recomputeRange_spec (st : St) (r : Nat) :
    (∀ j, ((recomputeRange st r).ranges j).range = (st.ranges j).range ∧
      ((recomputeRange st r).ranges j).uses = (st.ranges j).uses ∧
      ((recomputeRange st r).ranges j).vreg = (st.ranges j).vreg ∧
      ((recomputeRange st r).ranges j).bundle = (st.ranges j).bundle) ∧
    (∀ j, j ≠ r → (recomputeRange st r).ranges j = st.ranges j) ∧
    recomputeRange st r = { st with ranges := (recomputeRange st r).ranges } := by
  unfold recomputeRange
  split
  · split
    · refine ⟨?_, ?_, rfl⟩
      · intro j
        simp only [St.modR, upd]
        split
        · rename_i hj; subst hj; exact ⟨rfl, rfl, rfl, rfl⟩
        · exact ⟨rfl, rfl, rfl, rfl⟩
      · intro j hj; simp only [St.modR, upd, hj, if_false]
    · exact ⟨fun _ => ⟨rfl, rfl, rfl, rfl⟩, fun _ _ => rfl, rfl⟩
  · exact ⟨fun _ => ⟨rfl, rfl, rfl, rfl⟩, fun _ _ => rfl, rfl⟩

/-- Recomputing the mark of a range whose definition, if any, is its first use. -/
theorem recomputeRange_flag {st : St} {r : Nat} (h1 : (st.ranges r).startsAtDef = true → ∃ u ∈ (st.ranges r).uses, u.op.kind = .Def)
    (h2 : ∀ u ∈ (st.ranges r).uses, u.op.kind = .Def → ∃ d, (st.ranges r).uses.head? = some d ∧ d.op.kind = .Def) :
    Flagged ((recomputeRange st r).ranges r) := by
  unfold recomputeRange Flagged
  cases hu : (st.ranges r).uses with
  | nil =>
    rw [hu] at h1
    dsimp only
    rw [hu]
    exact ⟨h1, fun ⟨_, h, _⟩ => by simp at h⟩
  | cons u us =>
    dsimp only
    rw [hu] at h1 h2
    split
    · rename_i hd
      simp only [St.modR, upd, if_true, hu]
      exact ⟨fun _ => ⟨u, by simp, hd⟩, fun _ => trivial⟩
    · rename_i hd
      rw [hu]
      refine ⟨h1, ?_⟩
      rintro ⟨x, hx, hk⟩
      obtain ⟨d, e1, e2⟩ := h2 x hx hk
      simp only [List.head?_cons, Option.some.injEq] at e1
      subst e1
      exact absurd e2 hd

/-- What cutting one range does. -/
theorem cutRange_spec {st : St} {e : Entry} {q v : Nat} (hv : (st.ranges e.index).vreg = some v)
    (hi : e.index < st.nRanges) (hs : (st.ranges e.index).uses.Pairwise (fun a b => a.pos ≤ b.pos)) :
    ∃ st' U1 U2, cutRange st e q = some (st', ⟨⟨q, e.range.to⟩, st.nRanges⟩) ∧
      (st.ranges e.index).uses = U1 ++ U2 ∧ (∀ u ∈ U1, u.pos < q) ∧ (∀ u ∈ U2, q ≤ u.pos) ∧
      (st'.ranges e.index).range = ⟨(st.ranges e.index).range.fr, q⟩ ∧ (st'.ranges e.index).uses = U1 ∧
      (st'.ranges e.index).vreg = some v ∧ (st'.ranges e.index).bundle = (st.ranges e.index).bundle ∧
      (st'.ranges st.nRanges).range = ⟨q, e.range.to⟩ ∧ (st'.ranges st.nRanges).uses = U2 ∧
      (st'.ranges st.nRanges).vreg = some v ∧
      (∀ j, j ≠ e.index → j ≠ st.nRanges → st'.ranges j = st.ranges j) ∧
      st' = { st with
        ranges := st'.ranges
        nRanges := st.nRanges + 1
        vregs := upd st.vregs v (st.vregs v ++ [⟨⟨q, e.range.to⟩, st.nRanges⟩]) } ∧
      (Flagged (st.ranges e.index) → DefFirst e (st.ranges e.index).uses → e.range.fr < q →
        Flagged (st'.ranges e.index) ∧ Flagged (st'.ranges st.nRanges)) := by
  obtain ⟨hU1, hU2⟩ := cutUses (st.ranges e.index).uses q hs
  generalize hn : ((st.ranges e.index).uses.findIdx? (fun u => decide (u.pos ≥ q))).getD (st.ranges e.index).uses.length = n
    at hU1 hU2
  have hei : e.index ≠ st.nRanges := by omega
  unfold cutRange
  dsimp only
  rw [hv]
  simp only [hn, St.addRange, St.pushVreg]
  generalize hs1 : St.modR
      { st with
        ranges := upd st.ranges st.nRanges ⟨⟨q, e.range.to⟩, some v, none, false, (st.ranges e.index).uses.drop n⟩
        nRanges := st.nRanges + 1 } e.index (fun r => { r with uses := r.uses.take n }) = s1
  have a1 : s1.ranges e.index = { st.ranges e.index with uses := (st.ranges e.index).uses.take n } := by
    rw [← hs1]; simp [St.modR, upd, hei]
  have a2 : s1.ranges st.nRanges = ⟨⟨q, e.range.to⟩, some v, none, false, (st.ranges e.index).uses.drop n⟩ := by
    rw [← hs1]; simp [St.modR, upd, hei.symm]
  have a3 : ∀ j, j ≠ e.index → j ≠ st.nRanges → s1.ranges j = st.ranges j := by
    intro j h1 h2; rw [← hs1]; simp [St.modR, upd, h1, h2]
  have a4 : s1 = { st with ranges := s1.ranges, nRanges := st.nRanges + 1 } := by rw [← hs1]; rfl
  have hflag : Flagged (st.ranges e.index) → DefFirst e (st.ranges e.index).uses → e.range.fr < q →
      Flagged ((recomputeRange s1 e.index).ranges e.index) ∧
      Flagged ((recomputeRange (recomputeRange s1 e.index) st.nRanges).ranges st.nRanges) := by
    intro hf hd hlt
    have hin : ∀ d ∈ (st.ranges e.index).uses, d.op.kind = .Def → d ∈ (st.ranges e.index).uses.take n := by
      intro d h1 h2
      rw [← List.take_append_drop n (st.ranges e.index).uses, List.mem_append] at h1
      rcases h1 with h1 | h1
      · exact h1
      · have := hU2 d h1
        have := hd.start d (List.mem_of_mem_drop h1) h2
        omega
    constructor
    · apply recomputeRange_flag
      · rw [a1]; dsimp only
        intro h
        obtain ⟨u, h1, h2⟩ := hf.mp h
        exact ⟨u, hin u h1 h2, h2⟩
      · rw [a1]; dsimp only
        intro u h1 h2
        cases ht : (st.ranges e.index).uses.take n with
        | nil => rw [ht] at h1; simp at h1
        | cons x xs =>
          refine ⟨x, rfl, ?_⟩
          have hxm : x ∈ (st.ranges e.index).uses := List.mem_of_mem_take (by rw [ht]; simp)
          have hle : x.pos ≤ u.pos := by
            have hp := hs.sublist (List.take_sublist n _)
            rw [ht] at hp h1
            rcases List.mem_cons.mp h1 with rfl | h1
            · exact Nat.le_refl _
            · exact (List.pairwise_cons.mp hp).1 u h1
          cases hk : x.op.kind with
          | Def => rfl
          | Use =>
            have := hd.later u (List.mem_of_mem_take h1) h2 x hxm hk
            have : x.pos / 2 ≤ u.pos / 2 := Nat.div_le_div_right hle
            omega
    · have e2 : (recomputeRange s1 e.index).ranges st.nRanges = s1.ranges st.nRanges :=
        (recomputeRange_spec s1 e.index).2.1 _ hei.symm
      have hno : ∀ u ∈ (st.ranges e.index).uses.drop n, u.op.kind ≠ .Def := by
        intro u h1 h2
        have := hU2 u h1
        have := hd.start u (List.mem_of_mem_drop h1) h2
        omega
      apply recomputeRange_flag
      · rw [e2, a2]; intro h; simp at h
      · rw [e2, a2]; intro u h1 h2; exact absurd h2 (hno u h1)
  obtain ⟨b1, b2, b3⟩ := recomputeRange_spec s1 e.index
  obtain ⟨c1, c2, c3⟩ := recomputeRange_spec (recomputeRange s1 e.index) st.nRanges
  have hflag2 : Flagged (st.ranges e.index) → DefFirst e (st.ranges e.index).uses → e.range.fr < q →
      Flagged ((recomputeRange (recomputeRange s1 e.index) st.nRanges).ranges e.index) ∧
      Flagged ((recomputeRange (recomputeRange s1 e.index) st.nRanges).ranges st.nRanges) := by
    intro h1 h2 h3
    rw [c2 e.index hei]; exact hflag h1 h2 h3
  clear hflag
  generalize recomputeRange (recomputeRange s1 e.index) st.nRanges = s3 at c1 c2 c3 hflag2 ⊢
  generalize recomputeRange s1 e.index = s2 at b1 b2 b3 c1 c2 c3
  have d1 := c1 e.index
  have d2 := c1 st.nRanges
  have d3 := b1 e.index
  have d4 := b1 st.nRanges
  rw [a1] at d3
  rw [a2] at d4
  refine ⟨_, (st.ranges e.index).uses.take n, (st.ranges e.index).uses.drop n, rfl, (List.take_append_drop n _).symm, hU1, hU2,
    ?_, ?_, ?_, ?_, ?_, ?_, ?_, ?_, ?_, ?_⟩
  · simp [St.modR, upd, d1.1, d3.1]
  · simp [St.modR, upd, d1.2.1, d3.2.1]
  · simp [St.modR, upd, d1.2.2.1, d3.2.2.1, hv]
  · simp [St.modR, upd, d1.2.2.2, d3.2.2.2]
  · simp [St.modR, upd, hei.symm, d2.1, d4.1]
  · simp [St.modR, upd, hei.symm, d2.2.1, d4.2.1]
  · simp [St.modR, upd, hei.symm, d2.2.2.1, d4.2.2.1]
  · intro j h1 h2
    simp [St.modR, upd, h1, c2 j h2, b2 j h1, a3 j h1 h2]
  · rw [b3, a4] at c3
    rw [c3]; rfl
  · intro h1 h2 h3
    obtain ⟨k1, k2⟩ := hflag2 h1 h2 h3
    unfold Flagged at k1 k2 ⊢
    constructor
    · simp only [St.modR, upd, if_true]; exact k1
    · simp only [St.modR, upd, hei.symm, if_false]; exact k2

theorem cutTail_list (X Y : List Entry) (e : Entry) :
    (X ++ e :: Y).drop X.length = e :: Y ∧ (X ++ e :: Y).take (X.length + 1) = X ++ [e] := by
  constructor
  · simp
  · rw [List.take_append]
    simp [List.take_of_length_le]

/-- The last part of `divide`: link the new list to a new bundle. -/
theorem work_of_lists {st0 s : St} {b p : Nat} {old new : List Entry} (hpre : Splittable st0 b)
    (href : Refines st0 (st0.bundles b).ranges s (old ++ new))
    (hlive : ∀ e ∈ old ++ new, ∃ v, (s.ranges e.index).vreg = some v ∧ ∀ w, Owns s w e.index ↔ w = v)
    (hfresh : ∀ v, ∀ e ∈ s.vregs v, e.index < s.nRanges)
    (hL : ∀ e ∈ old, e.range.to ≤ p) (hR : ∀ e ∈ new, p ≤ e.range.fr)
    (hlink : ∀ e ∈ old, (s.ranges e.index).bundle = some b)
    (hb : (s.bundles b).ranges = old) (hbs : (s.bundles b).spillset = (st0.bundles b).spillset)
    (ho : ∀ c, c ≠ b → s.bundles c = st0.bundles c) (hnb : s.nBundles = st0.nBundles)
    (hsp : ∀ ss, (s.spillsets ss).spillBundle = (st0.spillsets ss).spillBundle)
    (hflag : (∀ e ∈ (st0.bundles b).ranges, Flagged (st0.ranges e.index) ∧ DefFirst e (st0.ranges e.index).uses) →
      ∀ e ∈ old ++ new, Flagged (s.ranges e.index))
    (hhoused : ∀ i, (∃ e ∈ (st0.bundles b).ranges, e.index = i) ∨ (st0.nRanges ≤ i ∧ i < s.nRanges) →
      ∃ e ∈ old ++ new, e.index = i)
    (howners : ∀ w i, i < st0.nRanges → (Owns s w i ↔ Owns st0 w i))
    (hlisted : (∀ v, ((st0.vregs v).map (·.index)).Nodup) → ∀ v, ((s.vregs v).map (·.index)).Nodup) :
    Work st0 b ((St.linkAll { s with
      bundles := upd s.bundles s.nBundles { Bundle.fresh with spillset := (s.bundles b).spillset }
      nBundles := s.nBundles + 1 } new s.nBundles).modB s.nBundles (fun x => { x with ranges := new })) s.nBundles p [] [] := by
  have hbn : b ≠ s.nBundles := by have := hpre.bundle; omega
  generalize hs' : ((St.linkAll { s with
      bundles := upd s.bundles s.nBundles { Bundle.fresh with spillset := (s.bundles b).spillset }
      nBundles := s.nBundles + 1 } new s.nBundles).modB s.nBundles (fun x => { x with ranges := new })) = s'
  have eb : s'.bundles b = s.bundles b := by rw [← hs']; simp [St.modB, upd, hbn]
  have en : s'.bundles s.nBundles = { Bundle.fresh with spillset := (s.bundles b).spillset, ranges := new } := by
    rw [← hs']; simp [St.modB, upd]
  have eo : ∀ c, c ≠ s.nBundles → s'.bundles c = s.bundles c := by
    intro c hc; rw [← hs']; simp [St.modB, upd, hc]
  have er : ∀ j, s'.ranges j = if ∃ e ∈ new, e.index = j then { s.ranges j with bundle := some s.nBundles } else s.ranges j := by
    intro j; rw [← hs']; exact linkAll_ranges _ new s.nBundles j
  have ev : s'.vregs = s.vregs := by rw [← hs']; simp [St.modB]
  have enr : s'.nRanges = s.nRanges := by rw [← hs']; simp [St.modB]
  have enb : s'.nBundles = s.nBundles + 1 := by rw [← hs']; simp [St.modB]
  have esp : s'.spillsets = s.spillsets := by rw [← hs']; simp [St.modB]
  clear hs'
  have hsame : ∀ j, (s'.ranges j).range = (s.ranges j).range ∧ (s'.ranges j).uses = (s.ranges j).uses ∧
      (s'.ranges j).vreg = (s.ranges j).vreg := by
    intro j; rw [er]; split <;> exact ⟨rfl, rfl, rfl⟩
  have hown : ∀ v i, Owns s' v i ↔ Owns s v i := by intro v i; unfold Owns; rw [ev]
  constructor
  case ref =>
    rw [eb, en, hb]
    simp only [List.append_nil]
    refine href.congr (fun j => ⟨(hsame j).1, (hsame j).2.1⟩) ?_ enr ev
    intro j hj
    rw [er, if_neg]
    rintro ⟨e, he, hej⟩
    exact hj e (by simp [he]) hej
  case live =>
    rw [eb, en, hb]
    intro e he
    rw [(hsame _).2.2]
    obtain ⟨v, h1, h2⟩ := hlive e (by simpa using he)
    exact ⟨v, h1, fun w => (hown w _).trans (h2 w)⟩
  case fresh => rw [ev, enr]; exact hfresh
  case boundL => rw [eb, hb]; simpa using hL
  case boundR => rw [en]; simpa using hR
  case linkOld =>
    rw [eb, hb]
    intro e he
    rw [er, if_neg]
    · exact hlink e he
    · rintro ⟨y, hy, hye⟩
      obtain ⟨P, Q, hPQ⟩ := List.append_of_mem he
      have h1 := href
      rw [hPQ, List.append_assoc] at h1
      exact h1.index_ne y (.inr (by simp [hy])) hye
  case linkNew =>
    rw [en]
    intro e he
    rw [er, if_pos ⟨e, he, rfl⟩]
  case moved =>
    refine ⟨[], by simp, ?_⟩
    rw [List.append_nil]
    unfold spillRanges
    rw [esp, hsp]
    cases hc : (st0.spillsets (st0.bundles b).spillset).spillBundle with
    | none => rfl
    | some c =>
      have := hpre.spill c hc
      dsimp only
      rw [eo c (by omega), ho c this.1]
  case unused => intro e he; simp at he
  case linkSpill => intro e he; simp at he
  case spill =>
    intro c hc
    rw [esp, hsp] at hc
    have := hpre.spill c hc
    exact ⟨this.1, by omega, by omega, .inl hc⟩
  case sets => rw [eb, en]; exact ⟨hbs, hbs⟩
  case nb => have := hpre.bundle; exact ⟨hnb, by omega, by omega⟩
  case others =>
    intro c hc hcb _
    rw [eo c (by omega), ho c hcb]
  case flag =>
    rw [eb, en, hb]
    intro hf e he
    have := hflag hf e (by simpa using he)
    rw [er]
    split
    · exact this
    · exact this
  case housed =>
    rw [eb, en, hb, enr]
    intro i hi
    obtain ⟨e, he, h2⟩ := hhoused i hi
    exact ⟨e, by simpa using he, h2⟩
  case owners => intro w i hi; rw [hown]; exact howners w i hi
  case made => intro c h1 h2; exact .inl (by omega)
  case listed => rw [ev]; exact hlisted

theorem divide_work {st0 : St} {b : Nat} {sp : Nat → SpillSet} {l : Located} (hpre : Splittable st0 b)
    (hsp : ∀ ss, (sp ss).spillBundle = (st0.spillsets ss).spillBundle) (hev : l.at_ % 2 = 0)
    (hloc : ∃ X Y, (∃ e, (st0.bundles b).ranges = X ++ e :: Y ∧ l.last = X.length ∧ l.first = X.length ∧
          e.range.fr < l.at_ ∧ l.at_ < e.range.to) ∨
       ((st0.bundles b).ranges = X ++ Y ∧ X ≠ [] ∧ Y ≠ [] ∧ l.last + 1 = X.length ∧
          l.first = X.length ∧ (∀ e ∈ X, e.range.to ≤ l.at_) ∧ (∀ e ∈ Y, l.at_ ≤ e.range.fr))) :
    ∃ st', divide { st0 with spillsets := sp } b l = some (st', st0.nBundles) ∧
      Work st0 b st' st0.nBundles l.at_ [] [] ∧ st'.queue = st0.queue := by
  obtain ⟨X, Y, ⟨e, hl, h1, h2, h3, h4⟩ | ⟨hl, hX, hY, h1, h2, h3, h4⟩⟩ := hloc
  · have hmem : e ∈ (st0.bundles b).ranges := by simp [hl]
    obtain ⟨v, hv1, hv2⟩ := hpre.vreg e hmem
    have hre := hpre.range e hmem
    obtain ⟨l1, l2⟩ := cutTail_list X Y e
    unfold divide
    dsimp only
    rw [h1, h2, hl, l1]
    simp only [if_pos h3]
    generalize hs1 : St.modB { st0 with spillsets := sp } b (fun x => { x with ranges := x.ranges.take (X.length + 1) }) = s1
    have f1 : s1.ranges = st0.ranges := by rw [← hs1]; rfl
    have f2 : s1.nRanges = st0.nRanges := by rw [← hs1]; rfl
    have f3 : s1.vregs = st0.vregs := by rw [← hs1]; rfl
    have f4 : s1.bundles = upd st0.bundles b { st0.bundles b with ranges := X ++ [e] } := by
      rw [← hs1]; simp only [St.modB, hl, l2]
    have f5 : s1.nBundles = st0.nBundles := by rw [← hs1]; rfl
    have f6 : s1.spillsets = sp := by rw [← hs1]; rfl
    have f7 : s1.queue = st0.queue := by rw [← hs1]; rfl
    clear hs1
    obtain ⟨s2, U1, U2, g1, g2, g3, g4, g5, g6, g7, g8, g9, g10, g11, g12, g13, g14⟩ :=
      cutRange_spec (st := s1) (e := e) (q := l.at_) (v := v) (by rw [f1]; exact hv1) (by rw [f2]; exact hre.2)
        (by rw [f1]; exact hpre.sorted e hmem)
    rw [g1]
    rw [f2] at g9 g10 g11 g12 g13 g14 ⊢
    rw [f1] at g2 g5 g8 g12 g14
    rw [f3] at g13
    have k1 : s2.bundles = upd st0.bundles b { st0.bundles b with ranges := X ++ [e] } := by rw [g13]; exact f4
    have k2 : s2.nBundles = st0.nBundles := by rw [g13]; exact f5
    have k3 : s2.spillsets = sp := by rw [g13]; exact f6
    have k4 : s2.vregs = upd st0.vregs v (st0.vregs v ++ [⟨⟨l.at_, e.range.to⟩, st0.nRanges⟩]) := by rw [g13]
    have k5 : s2.nRanges = st0.nRanges + 1 := by rw [g13]
    have k6 : s2.queue = st0.queue := by rw [g13]; exact f7
    clear g13 g1
    have hget : (s2.bundles b).ranges[X.length]? = some e := by rw [k1, upd_same]; simp
    simp only [Option.bind_eq_bind, Option.bind_some, hget]
    generalize hs3 : s2.modB b (fun x => { x with ranges := x.ranges.set X.length ⟨(s2.ranges e.index).range, e.index⟩ }) = s3
    have m1 : s3.ranges = s2.ranges := by rw [← hs3]; rfl
    have m2 : s3.nRanges = st0.nRanges + 1 := by rw [← hs3]; exact k5
    have m3 : s3.vregs = upd st0.vregs v (st0.vregs v ++ [⟨⟨l.at_, e.range.to⟩, st0.nRanges⟩]) := by rw [← hs3]; exact k4
    have m4 : s3.bundles b = { st0.bundles b with ranges := X ++ [⟨⟨e.range.fr, l.at_⟩, e.index⟩] } := by
      rw [← hs3]; simp [St.modB, k1, upd_same, g5, hre.1]
    have m5 : ∀ c, c ≠ b → s3.bundles c = st0.bundles c := by
      intro c hc; rw [← hs3]; simp [St.modB, k1, upd, hc]
    have m6 : s3.nBundles = st0.nBundles := by rw [← hs3]; exact k2
    have m7 : s3.spillsets = sp := by rw [← hs3]; exact k3
    have m8 : s3.queue = st0.queue := by rw [← hs3]; exact k6
    clear hs3
    have hnf : ∀ w, ¬ Owns st0 w st0.nRanges := by
      rintro w ⟨y, hy, hy2⟩; have := hpre.fresh w y hy; omega
    have href0 := hpre.refines
    rw [hl] at href0
    have href : Refines st0 (st0.bundles b).ranges s3
        ((X ++ [⟨⟨e.range.fr, l.at_⟩, e.index⟩]) ++ (⟨⟨l.at_, e.range.to⟩, st0.nRanges⟩ :: Y)) := by
      have := href0.cut (st' := s3) l.at_ e.index st0.nRanges U1 U2 v hev h3 h4 (.inl ⟨rfl, rfl⟩) g2 g3 g4
        (by rw [m1]; exact ⟨by rw [g5, hre.1], g6⟩) (by rw [m1]; exact ⟨g9, g10⟩)
        (by rw [m1]; exact g12) m2 hv2 hnf ⟨_, m3⟩
      rw [hl]
      simpa using this
    have hidx := href0.index_ne
    have hlt : ∀ x, x ∈ X ∨ x ∈ Y → x.index ≠ st0.nRanges := fun x hx => by
      have := (hpre.range x (by rw [hl]; simp; grind)).2; omega
    have hei : e.index ≠ st0.nRanges := by omega
    have hsame : ∀ x, x ∈ X ∨ x ∈ Y → s3.ranges x.index = st0.ranges x.index := fun x hx => by
      rw [m1]; exact g12 _ (hidx x hx) (hlt x hx)
    have hown := owns_push m3
    refine ⟨_, by rw [m6], ?_, ?_⟩
    · rw [← m6]
      refine work_of_lists hpre href ?_ ?_ ?_ ?_ ?_ (by rw [m4]) (by rw [m4]) m5 m6 (by rw [m7]; exact hsp) ?_ ?_ ?_ ?_
      · intro y hy
        have hy : (y ∈ X ∨ y ∈ Y) ∨ y = ⟨⟨e.range.fr, l.at_⟩, e.index⟩ ∨ y = ⟨⟨l.at_, e.range.to⟩, st0.nRanges⟩ := by
          simp only [List.mem_append, List.mem_cons, List.not_mem_nil, or_false] at hy; grind
        rcases hy with hy | rfl | rfl
        · rw [hsame y hy]
          obtain ⟨v', a1, a2⟩ := hpre.vreg y (by rw [hl]; simp; grind)
          refine ⟨v', a1, fun w => ?_⟩
          rw [hown, a2]
          have := hlt y hy
          constructor
          · rintro (h | ⟨-, h⟩)
            · exact h
            · exact absurd h this
          · exact .inl
        · dsimp only; rw [m1]
          refine ⟨v, g7, fun w => ?_⟩
          rw [hown, hv2]
          constructor
          · rintro (h | ⟨h, -⟩) <;> exact h
          · exact .inl
        · dsimp only; rw [m1]
          refine ⟨v, g11, fun w => ?_⟩
          rw [hown]
          constructor
          · rintro (h | ⟨h, -⟩)
            · exact absurd h (hnf w)
            · exact h
          · exact fun h => .inr ⟨h, rfl⟩
      · rw [m3, m2]
        intro w y hy
        by_cases hw : w = v
        · subst hw; rw [upd_same, List.mem_append, List.mem_singleton] at hy
          rcases hy with hy | rfl
          · have := hpre.fresh _ y hy; omega
          · dsimp only; omega
        · rw [upd_ne _ _ hw] at hy
          have := hpre.fresh _ y hy; omega
      · intro y hy
        rw [List.mem_append, List.mem_singleton] at hy
        rcases hy with hy | rfl
        · have ht := (tidy_append.mp (hl ▸ hpre.tidy)).2.2 y hy e (by simp)
          omega
        · exact Nat.le_refl _
      · intro y hy
        rcases List.mem_cons.mp hy with rfl | hy
        · exact Nat.le_refl _
        · have ht := (tidy_cons.mp (tidy_append.mp (hl ▸ hpre.tidy)).2.1).2.2 y hy
          omega
      · intro y hy
        rw [List.mem_append, List.mem_singleton] at hy
        rcases hy with hy | rfl
        · rw [hsame y (.inl hy)]; exact hpre.link y (by simp [hl, hy])
        · dsimp only; rw [m1, g8]; exact hpre.link e hmem
      · intro hf y hy
        have hy : (y ∈ X ∨ y ∈ Y) ∨ y = ⟨⟨e.range.fr, l.at_⟩, e.index⟩ ∨ y = ⟨⟨l.at_, e.range.to⟩, st0.nRanges⟩ := by
          simp only [List.mem_append, List.mem_cons, List.not_mem_nil, or_false] at hy; grind
        have hg := g14 (hf e hmem).1 (hf e hmem).2 h3
        rcases hy with hy | rfl | rfl
        · rw [hsame y hy]; exact (hf y (by rw [hl]; simp; grind)).1
        · dsimp only; rw [m1]; exact hg.1
        · dsimp only; rw [m1]; exact hg.2
      · intro i hi
        rw [m2] at hi
        by_cases hin : i = st0.nRanges
        · exact ⟨⟨⟨l.at_, e.range.to⟩, st0.nRanges⟩, by simp, hin.symm⟩
        · obtain ⟨y, hy, rfl⟩ : ∃ y ∈ (st0.bundles b).ranges, y.index = i := by
            rcases hi with hi | hi
            · exact hi
            · omega
          rw [hl] at hy
          by_cases hye : y = e
          · subst hye; exact ⟨⟨⟨y.range.fr, l.at_⟩, y.index⟩, by simp, rfl⟩
          · exact ⟨y, by simp only [List.mem_append, List.mem_cons] at hy ⊢; grind, rfl⟩
      · intro w i hi
        rw [hown]
        constructor
        · rintro (h | ⟨-, h⟩)
          · exact h
          · omega
        · exact .inl
      · intro h0; rw [m3]; exact nodup_push h0 hpre.fresh
    · simp [St.modB, m8]
  · unfold divide
    dsimp only
    have hd : (X ++ Y).drop X.length = Y := by simp
    have htk : (X ++ Y).take X.length = X := by simp
    rw [h1, h2, hl, hd]
    cases Y with
    | nil => exact absurd rfl hY
    | cons e Y =>
      have hng : ¬ l.at_ > e.range.fr := by have := h4 e (by simp); omega
      simp only [if_neg hng, Option.bind_eq_bind, Option.bind_some]
      generalize hs3 : St.modB { st0 with spillsets := sp } b (fun x => { x with ranges := x.ranges.take X.length }) = s3
      have m1 : s3.ranges = st0.ranges := by rw [← hs3]; rfl
      have m2 : s3.nRanges = st0.nRanges := by rw [← hs3]; rfl
      have m3 : s3.vregs = st0.vregs := by rw [← hs3]; rfl
      have m4 : s3.bundles b = { st0.bundles b with ranges := X } := by
        rw [← hs3]; simp only [St.modB, upd_same, hl, htk]
      have m5 : ∀ c, c ≠ b → s3.bundles c = st0.bundles c := by
        intro c hc; rw [← hs3]; simp [St.modB, upd, hc]
      have m6 : s3.nBundles = st0.nBundles := by rw [← hs3]; rfl
      have m7 : s3.spillsets = sp := by rw [← hs3]; rfl
      have m8 : s3.queue = st0.queue := by rw [← hs3]; rfl
      clear hs3
      have hown : ∀ v i, Owns s3 v i ↔ Owns st0 v i := by intro v i; unfold Owns; rw [m3]
      refine ⟨_, by rw [m6], ?_, ?_⟩
      · rw [← m6]
        refine work_of_lists hpre ?_ ?_ ?_ h3 h4 ?_ (by rw [m4]) (by rw [m4]) m5 m6 (by rw [m7]; exact hsp) ?_ ?_ ?_ ?_
        · rw [← hl]
          exact hpre.refines.congr (fun _ => by rw [m1]; exact ⟨rfl, rfl⟩) (fun _ _ => by rw [m1]) m2 m3
        · rw [← hl, m1]
          intro y hy
          obtain ⟨v, a1, a2⟩ := hpre.vreg y hy
          exact ⟨v, a1, fun w => (hown w _).trans (a2 w)⟩
        · rw [m3, m2]; exact hpre.fresh
        · rw [m1]; intro y hy; exact hpre.link y (by simp [hl, hy])
        · rw [← hl, m1]; intro hf y hy; exact (hf y hy).1
        · rw [← hl, m2]
          intro i hi
          rcases hi with hi | hi
          · exact hi
          · omega
        · intro w i _; exact hown w i
        · rw [m3]; exact id
      · simp [St.modB, m8]

theorem locate_nofixed (uses : Nat → List Use) (es : List Entry) :
    ∀ (i : Nat) (l : Located), (locate false uses es i l).at_ = l.at_ ∧ (locate false uses es i l).trim = l.trim := by
  induction es with
  | nil => intro i l; exact ⟨rfl, rfl⟩
  | cons e es ih =>
    intro i l
    unfold locate
    dsimp only
    by_cases h1 : l.at_ > e.range.fr
    · rw [if_pos h1]
      dsimp only
      by_cases h2 : l.at_ < e.range.to
      · rw [if_pos h2]; exact ⟨rfl, rfl⟩
      · rw [if_neg h2]; exact ih _ _
    · rw [if_neg h1]
      by_cases h2 : l.at_ < e.range.to
      · rw [if_pos h2]; exact ⟨rfl, rfl⟩
      · rw [if_neg h2]; exact ih _ _

/-! ### Requeueing -/

theorem spillBundle_queue (st : St) (b : Nat) : (spillBundle st b).1.queue = st.queue := by
  unfold spillBundle; dsimp only; split <;> rfl

theorem trimTail_queue (b n : Nat) : ∀ {st st' : St}, trimTail b n st = some st' → st'.queue = st.queue := by
  induction n with
  | zero => intro st st' h; injection h with h; rw [h]
  | succ n ih =>
    intro st st' h
    unfold trimTail at h
    split at h
    · injection h with h; rw [h]
    · dsimp only at h
      split at h
      · rw [ih h]; exact spillBundle_queue st b
      · split at h
        · unfold St.pushVreg at h
          split at h
          · cases h
          · injection h with h; rw [← h]; exact spillBundle_queue st b
        · injection h with h; rw [h]

theorem trimHead_queue (b n : Nat) : ∀ {st st' : St}, trimHead b n st = some st' → st'.queue = st.queue := by
  induction n with
  | zero => intro st st' h; injection h with h; rw [h]
  | succ n ih =>
    intro st st' h
    unfold trimHead at h
    split at h
    · injection h with h; rw [h]
    · split at h
      · injection h with h; rw [h]
      · dsimp only at h
        split at h
        · rw [ih h]; exact spillBundle_queue st b
        · split at h
          · unfold St.pushVreg at h
            split at h
            · cases h
            · injection h with h; rw [← h]; exact spillBundle_queue st b
          · injection h with h; rw [h]

theorem minimalRange_needed (u : Use) (x : Nat) (h : Covers (minimalRangeForUse u) x) : Needed u x := by
  unfold Covers minimalRangeForUse at h
  unfold Needed
  cases hk : u.op.kind <;> simp only [hk, instOf, ptBefore, ptAfter] at h ⊢ <;> (split at h) <;>
    simp only [forall_const, reduceCtorEq, false_implies, and_true, true_and] at h ⊢ <;> omega

theorem scanFlags_one (u : Use) : (scanFlags [u] (false, false, false)).1 = true ↔ ∃ p, u.op.constraint = .FixedReg p := by
  unfold scanFlags
  dsimp only
  cases hc : u.op.constraint <;> simp [scanFlags]

/-- Recomputing and enqueueing a bundle only changes its cached properties and the queue. -/
theorem requeue_spec (st : St) (b : Nat) (hint : Option PReg) :
    ∃ st', requeue st b hint = some st' ∧ st'.ranges = st.ranges ∧ st'.nRanges = st.nRanges ∧ st'.vregs = st.vregs ∧
      st'.nBundles = st.nBundles ∧ st'.spillsets = st.spillsets ∧ (∀ c, c ≠ b → st'.bundles c = st.bundles c) ∧
      (st'.bundles b).ranges = (st.bundles b).ranges ∧ (st'.bundles b).spillset = (st.bundles b).spillset ∧
      st'.spilled = st.spilled ∧
      st'.queue = st.queue ++ (if (st.bundles b).ranges = [] then [] else [(b, bundlePrio (st.bundles b).ranges, hint)]) ∧
      ((st.bundles b).ranges ≠ [] → (st'.bundles b).limit = bundleLimit st (st.bundles b).ranges ∧
        ((st'.bundles b).minimal = true →
          (∀ e ∈ (st.bundles b).ranges, (st.ranges e.index).vreg ≠ none ∧ (st.ranges e.index).range = e.range) →
          FewUses st (st.bundles b).ranges (st'.bundles b).fixed)) := by
  unfold requeue
  cases h : (st.bundles b).ranges with
  | nil => exact ⟨st, rfl, rfl, rfl, rfl, rfl, rfl, fun _ _ => rfl, h, rfl, rfl, by simp, by simp⟩
  | cons e es =>
    rw [if_pos (by simp)]
    unfold recomputeBundle
    rw [h]
    refine ⟨_, rfl, rfl, rfl, rfl, rfl, rfl, ?_, ?_, ?_, rfl, ?_, ?_⟩
    · intro c hc; simp [St.modB, upd, hc]
    · simp [St.modB, upd, h]
    · simp [St.modB, upd]
    · simp [St.modB, upd]
    · intro _
      refine ⟨by simp [St.modB, upd], ?_⟩
      intro hm hv
      simp only [St.modB, upd_same] at hm ⊢
      obtain ⟨hv, hrg⟩ := hv e (by simp)
      have hv' : (st.ranges e.index).vreg.isNone = false := by
        cases hx : (st.ranges e.index).vreg with
        | none => exact absurd hx hv
        | some _ => rfl
      rw [hv'] at hm ⊢
      cases es with
      | cons x xs => cases hm
      | nil =>
        refine ⟨e, rfl, ?_⟩
        cases hu : (st.ranges e.index).uses with
        | nil => exact .inl ⟨rfl, rfl⟩
        | cons u us =>
          cases us with
          | nil =>
            rw [hu] at hm
            refine .inr ⟨u, rfl, fun x hx => minimalRange_needed u x ?_, ?_⟩
            · have hm : (minimalRangeForUse u).contains (st.ranges e.index).range = true := hm
              simp only [RKey.contains, Bool.and_eq_true, decide_eq_true_eq, hrg] at hm
              unfold Covers at hx ⊢
              omega
            · exact scanFlags_one u
          | cons _ _ => rw [hu] at hm; cases hm

/-- The working state gives the result. -/
theorem Work.halved {st0 st st' : St} {b nb p : Nat} {A B : List Entry} (h : Work st0 b st nb p A B)
    (hp : p % 2 = 0) (hin : (∃ e ∈ (st0.bundles b).ranges, e.range.fr < p) ∧ ∃ e ∈ (st0.bundles b).ranges, p < e.range.to)
    (r : st'.ranges = st.ranges) (n : st'.nRanges = st.nRanges) (v : st'.vregs = st.vregs) (sp : st'.spillsets = st.spillsets)
    (o : ∀ c, c ≠ b → c ≠ nb → st'.bundles c = st.bundles c)
    (b1 : (st'.bundles b).ranges = (st.bundles b).ranges) (b2 : (st'.bundles b).spillset = (st.bundles b).spillset)
    (n1 : (st'.bundles nb).ranges = (st.bundles nb).ranges) (n2 : (st'.bundles nb).spillset = (st.bundles nb).spillset)
    (nbc : st'.nBundles = st.nBundles)
    (lb : (st'.bundles b).ranges ≠ [] → (st'.bundles b).limit = bundleLimit st (st.bundles b).ranges)
    (ln : (st'.bundles nb).ranges ≠ [] → (st'.bundles nb).limit = bundleLimit st (st.bundles nb).ranges)
    (mb : (st'.bundles b).ranges ≠ [] → (st'.bundles b).minimal = true →
      (∀ e ∈ (st.bundles b).ranges, (st.ranges e.index).vreg ≠ none ∧ (st.ranges e.index).range = e.range) →
      FewUses st (st.bundles b).ranges (st'.bundles b).fixed)
    (mn : (st'.bundles nb).ranges ≠ [] → (st'.bundles nb).minimal = true →
      (∀ e ∈ (st.bundles nb).ranges, (st.ranges e.index).vreg ≠ none ∧ (st.ranges e.index).range = e.range) →
      FewUses st (st.bundles nb).ranges (st'.bundles nb).fixed) :
    ∃ moved, Halved st0 b st' nb p moved ∧ moved.Perm (A ++ B) := by
  obtain ⟨m, hm, hr⟩ := h.moved
  refine ⟨m, ?_, hm⟩
  constructor
  case point => exact hp
  case inner => exact hin
  case parts =>
    refine ⟨A, B, hm, ?_, ?_, ?_⟩
    · rw [b1, n1]
      exact h.ref.congr (fun j => by rw [r]; exact ⟨rfl, rfl⟩) (fun j _ => by rw [r]) n v
    · rw [b1]; exact h.boundL
    · rw [n1]; exact h.boundR
  case spilled =>
    rw [← hr]
    unfold spillRanges
    rw [sp]
    cases hc : (st.spillsets (st0.bundles b).spillset).spillBundle with
    | none => rfl
    | some c =>
      have := h.spill c hc
      dsimp only
      rw [o c this.1 this.2.1]
  case unused => intro e he; rw [r]; exact h.unused e (hm.mem_iff.mp he)
  case linkOld => rw [b1, r]; exact h.linkOld
  case linkNew => rw [n1, r]; exact h.linkNew
  case linkSpill => intro e he; rw [r, sp]; exact h.linkSpill e (hm.mem_iff.mp he)
  case sets => rw [b2, n2]; exact h.sets
  case live =>
    intro e he
    rw [b1, n1] at he
    obtain ⟨w, h1, h2⟩ := h.live e he
    refine ⟨w, by rw [r]; exact h1, fun x => ?_⟩
    unfold Owns
    rw [v]
    exact h2 x
  case flags =>
    intro hf e he
    rw [b1, n1] at he
    rw [r]
    have := hm.mem_iff (a := e)
    exact h.flag hf e (by simp only [List.mem_append] at this ⊢; grind)
  case housed =>
    rw [n, b1, n1]
    intro i hi
    obtain ⟨e, he, h2⟩ := h.housed i hi
    have := hm.mem_iff (a := e)
    exact ⟨e, by simp only [List.mem_append] at this he ⊢; grind, h2⟩
  case owners => intro w i hi; unfold Owns at *; rw [v]; exact h.owners w i hi
  case fresh => rw [v, n]; exact h.fresh
  case made => rw [nbc, sp]; exact h.made
  case listed => rw [v]; exact h.listed
  case limits =>
    intro c hc hne
    unfold bundleLimit at *
    rw [r]
    rcases hc with rfl | rfl
    · rw [lb hne, b1]
    · rw [ln hne, n1]
  case minimal =>
    intro c hc hne hm
    unfold FewUses at *
    rw [r]
    rcases hc with rfl | rfl
    · rw [b1]
      refine mb hne hm ?_
      intro e he
      obtain ⟨w, h1, -⟩ := h.live e (.inl he)
      exact ⟨by rw [h1]; simp, (h.ref.range e (by simp [he])).1⟩
    · rw [n1]
      refine mn hne hm ?_
      intro e he
      obtain ⟨w, h1, -⟩ := h.live e (.inr he)
      exact ⟨by rw [h1]; simp, (h.ref.range e (by simp [he])).1⟩
  case new =>
    rw [nbc, sp]
    exact ⟨h.nb.1, h.nb.2.1, fun s hs => ⟨(h.spill s hs).1, (h.spill s hs).2.1⟩⟩
  case others =>
    intro c hc hcb hcs
    rw [o c hcb (by have := h.nb; omega)]
    exact h.others c hc hcb hcs

end Regalloc.Ion
