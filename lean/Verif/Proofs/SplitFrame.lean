import Verif.Proofs.SplitReg

/-
What splitting a bundle leaves alone: allocations, spill sets, the queue. Helper lemmas for C40.
-/
namespace Regalloc.Ion

/-- `st` was made from `st0` by splitting a bundle of spill set `ss`. -/
structure Frm (ss : Nat) (hint : Option PReg) (st0 st : St) : Prop where
  nB : st0.nBundles ≤ st.nBundles
  nS : st.nSpillsets = st0.nSpillsets
  set : ∀ t, { st.spillsets t with splits := 0, spillBundle := none } =
    { st0.spillsets t with splits := 0, spillBundle := none }
  setOther : ∀ t, t ≠ ss → st.spillsets t = st0.spillsets t
  spilled : ((st.spillsets ss).spillBundle = (st0.spillsets ss).spillBundle ∧ st.spilled = st0.spilled) ∨
    ((st0.spillsets ss).spillBundle = none ∧ ∃ s, st0.nBundles ≤ s ∧ s < st.nBundles ∧
      (st.spillsets ss).spillBundle = some s ∧ st.spilled = st0.spilled ++ [s])
  old : ∀ c < st0.nBundles, (st.bundles c).alloc = (st0.bundles c).alloc ∧ (st.bundles c).spillset = (st0.bundles c).spillset
  new : ∀ c, st0.nBundles ≤ c → c < st.nBundles → (st.bundles c).alloc = none ∧ (st.bundles c).spillset = ss
  hints : ∀ x ∈ st.queue, x ∈ st0.queue ∨ x.2.2 = hint
  mono : ∀ t, (st0.spillsets t).splits ≤ (st.spillsets t).splits

theorem Frm.refl (ss : Nat) (hint : Option PReg) (st : St) : Frm ss hint st st :=
  ⟨Nat.le_refl _, rfl, fun _ => rfl, fun _ _ => rfl, .inl ⟨rfl, rfl⟩, fun _ _ => ⟨rfl, rfl⟩, fun _ h1 h2 => by omega,
    fun _ h => .inl h, fun _ => Nat.le_refl _⟩

variable {ss : Nat} {hint : Option PReg} {st0 : St}

/-- A step that keeps the allocations and spill sets. -/
theorem Frm.step {st st' : St} (h : Frm ss hint st0 st) (h1 : st'.nBundles = st.nBundles) (h2 : st'.nSpillsets = st.nSpillsets)
    (h3 : st'.spillsets = st.spillsets) (h4 : st'.spilled = st.spilled)
    (h5 : ∀ c, (st'.bundles c).alloc = (st.bundles c).alloc ∧ (st'.bundles c).spillset = (st.bundles c).spillset)
    (h6 : ∀ x ∈ st'.queue, x ∈ st.queue ∨ x.2.2 = hint) : Frm ss hint st0 st' := by
  refine ⟨by rw [h1]; exact h.nB, by rw [h2]; exact h.nS, by rw [h3]; exact h.set, by rw [h3]; exact h.setOther,
    by rw [h3, h4, h1]; exact h.spilled, fun c hc => ?_, fun c h7 h8 => ?_, fun x hx => ?_, by rw [h3]; exact h.mono⟩
  · rw [(h5 c).1, (h5 c).2]; exact h.old c hc
  · rw [(h5 c).1, (h5 c).2]; exact h.new c h7 (by rw [← h1]; exact h8)
  · rcases h6 x hx with h7 | h7
    · exact h.hints x h7
    · exact .inr h7

/-- A step that changes ranges and lists of registers only. -/
theorem Frm.congr {st st' : St} (h : Frm ss hint st0 st) (h1 : st'.nBundles = st.nBundles) (h2 : st'.nSpillsets = st.nSpillsets)
    (h3 : st'.spillsets = st.spillsets) (h4 : st'.spilled = st.spilled) (h5 : st'.bundles = st.bundles)
    (h6 : st'.queue = st.queue) : Frm ss hint st0 st' :=
  h.step h1 h2 h3 h4 (fun _ => by rw [h5]; exact ⟨rfl, rfl⟩) (fun _ hx => .inl (h6 ▸ hx))

theorem Frm.modB {st : St} (h : Frm ss hint st0 st) (b : Nat) (g : Bundle → Bundle)
    (hg : ∀ x, (g x).alloc = x.alloc ∧ (g x).spillset = x.spillset) : Frm ss hint st0 (st.modB b g) := by
  refine h.step rfl rfl rfl rfl ?_ (fun _ hx => .inl hx)
  intro c
  simp only [St.modB, upd]
  split
  · subst_vars; exact hg _
  · exact ⟨rfl, rfl⟩

theorem Frm.modR {st : St} (h : Frm ss hint st0 st) (r : Nat) (g : LRange → LRange) : Frm ss hint st0 (st.modR r g) :=
  h.congr rfl rfl rfl rfl rfl rfl

theorem Frm.addRange {st : St} (h : Frm ss hint st0 st) (r : LRange) : Frm ss hint st0 (st.addRange r).1 :=
  h.congr rfl rfl rfl rfl rfl rfl

/-- A new bundle. -/
theorem Frm.addBundle {st : St} (h : Frm ss hint st0 st) (x : Bundle) (h1 : x.alloc = none) (h2 : x.spillset = ss) :
    Frm ss hint st0 { st with bundles := upd st.bundles st.nBundles x, nBundles := st.nBundles + 1 } := by
  have hn := h.nB
  refine ⟨?_, h.nS, h.set, h.setOther, ?_, ?_, ?_, h.hints, h.mono⟩
  · dsimp only; omega
  · rcases h.spilled with h3 | ⟨h3, s, h4, h5, h6⟩
    · exact .inl h3
    · exact .inr ⟨h3, s, h4, by dsimp only; omega, h6⟩
  · intro c hc
    dsimp only
    rw [upd_ne _ _ (by omega)]
    exact h.old c hc
  · intro c h3 h4
    dsimp only at h4 ⊢
    by_cases hc : c = st.nBundles
    · subst hc; rw [upd_same]; exact ⟨h1, h2⟩
    · rw [upd_ne _ _ hc]; exact h.new c h3 (by omega)

theorem Frm.spillBundle {st : St} (h : Frm ss hint st0 st) {b : Nat} (hb : (st.bundles b).spillset = ss) :
    Frm ss hint st0 (spillBundle st b).1 := by
  unfold Ion.spillBundle
  dsimp only
  rw [hb]
  cases hs : (st.spillsets ss).spillBundle with
  | some s => exact h
  | none =>
    dsimp only
    have hn := h.nB
    have h0 : (st0.spillsets ss).spillBundle = none ∧ st.spilled = st0.spilled := by
      rcases h.spilled with ⟨h1, h2⟩ | ⟨h1, s, -, -, h2, -⟩
      · rw [hs] at h1; exact ⟨h1.symm, h2⟩
      · rw [hs] at h2; cases h2
    refine ⟨?_, h.nS, ?_, ?_, .inr ⟨h0.1, st.nBundles, hn, ?_, ?_, ?_⟩, ?_, ?_, h.hints, ?_⟩
    · dsimp only; omega
    · intro t
      have := h.set t
      simp only [St.modS, upd]
      split
      · subst_vars; exact this
      · exact this
    · intro t ht; simp only [St.modS]; rw [upd_ne _ _ ht]; exact h.setOther t ht
    · dsimp only; omega
    · simp [St.modS, upd]
    · dsimp only [St.modS]; rw [h0.2]
    · intro c hc
      dsimp only [St.modS]
      rw [upd_ne _ _ (by omega)]
      exact h.old c hc
    · intro c h3 h4
      dsimp only [St.modS] at h4 ⊢
      by_cases hc : c = st.nBundles
      · subst hc; rw [upd_same]; exact ⟨rfl, rfl⟩
      · rw [upd_ne _ _ hc]; exact h.new c h3 (by omega)
    · intro t
      have := h.mono t
      simp only [St.modS, upd]
      split
      · subst_vars; exact this
      · exact this

theorem Frm.count (st : St) (b : Nat) : Frm (st.bundles b).spillset hint st (countSplit st b) := by
  unfold countSplit
  split
  · exact Frm.refl _ _ _
  · refine ⟨Nat.le_refl _, rfl, ?_, ?_, .inl ⟨?_, rfl⟩, fun _ _ => ⟨rfl, rfl⟩, ?_, fun _ h => .inl h, ?_⟩
    · intro t
      simp only [St.modS, upd]
      split
      · subst_vars; rfl
      · rfl
    · intro t ht; simp only [St.modS]; rw [upd_ne _ _ ht]
    · simp [St.modS, upd]
    · intro c h1 h2; dsimp only [St.modS] at h2; omega
    · intro t
      simp only [St.modS, upd]
      split
      · subst_vars; exact Nat.le_succ _
      · exact Nat.le_refl _

theorem Frm.pushVreg {st st' : St} {v : Option Nat} {e : Entry} (h : Frm ss hint st0 st)
    (hs : st.pushVreg v e = some st') : Frm ss hint st0 st' := by
  unfold St.pushVreg at hs
  cases v with
  | none => cases hs
  | some v => cases hs; exact h.congr rfl rfl rfl rfl rfl rfl

theorem Frm.requeue {st st' : St} {b : Nat} (h : Frm ss hint st0 st)
    (hs : requeue st b hint = some st') : Frm ss hint st0 st' := by
  unfold Ion.requeue at hs
  split at hs
  · cases hr : recomputeBundle st b with
    | none => rw [hr] at hs; cases hs
    | some st1 =>
      rw [hr] at hs
      cases hs
      have h1 : Frm ss hint st0 st1 := by
        unfold recomputeBundle at hr
        cases hl : (st.bundles b).ranges with
        | nil => rw [hl] at hr; cases hr
        | cons e es =>
          rw [hl] at hr
          cases Option.some.inj hr
          exact h.modB _ _ (fun _ => ⟨rfl, rfl⟩)
      refine h1.step rfl rfl rfl rfl (fun _ => ⟨rfl, rfl⟩) ?_
      intro x hx
      dsimp only at hx
      rw [List.mem_append, List.mem_singleton] at hx
      rcases hx with hx | rfl
      · exact .inl hx
      · exact .inr rfl
  · cases hs; exact h

theorem Frm.recomputeRange {st : St} {r : Nat} (h : Frm ss hint st0 st) : Frm ss hint st0 (recomputeRange st r) := by
  unfold Ion.recomputeRange
  split
  · split
    · exact h.modR _ _
    · exact h
  · exact h

theorem Frm.foldlM {α : Type} {f : St → α → Option St}
    (hf : ∀ st a st', Frm ss hint st0 st → f st a = some st' → Frm ss hint st0 st')
    (l : List α) : ∀ {st st' : St}, Frm ss hint st0 st → l.foldlM f st = some st' → Frm ss hint st0 st' := by
  induction l with
  | nil => intro st st' h hs; cases hs; exact h
  | cons a l ih =>
    intro st st' h hs
    rw [List.foldlM_cons] at hs
    cases h1 : f st a with
    | none => rw [h1] at hs; cases hs
    | some st1 => rw [h1] at hs; exact ih (hf _ _ _ h h1) hs

theorem Frm.minUses {vreg : Option Nat} (us : List Use) :
    ∀ {x : MinSt × RKey × Bool}, Frm ss hint st0 x.1.st → Frm ss hint st0 (minUses ss vreg us x).1.st := by
  induction us with
  | nil => intro x h; exact h
  | cons u us ih =>
    intro ⟨m, r, d⟩ h
    apply ih
    unfold minUse
    dsimp only
    split
    · exact h
    · exact (h.addRange ⟨minimalRangeForUse u, vreg, some m.st.nBundles, decide (u.op.kind = .Def), [u]⟩).addBundle
        { Bundle.fresh with spillset := ss, ranges := [⟨minimalRangeForUse u, m.st.nRanges⟩] } rfl rfl

theorem Frm.minEntry {spill : Nat} {m m' : MinSt} {e : Entry} (h : Frm ss hint st0 m.st)
    (hs : minEntry ss spill m e = some m') : Frm ss hint st0 m'.st := by
  unfold Ion.minEntry at hs
  dsimp only at hs
  have h1 := Frm.minUses (ss := ss) (hint := hint) (st0 := st0) (vreg := (m.st.ranges e.index).vreg) (m.st.ranges e.index).uses
    (x := ({ m with st := m.st.modR e.index (fun r => { r with uses := [] }) }, e.range, false))
    (h.modR e.index (fun r => { r with uses := [] }))
  generalize Ion.minUses ss (m.st.ranges e.index).vreg (m.st.ranges e.index).uses
    ({ m with st := m.st.modR e.index (fun r => { r with uses := [] }) }, e.range, false) = x at *
  obtain ⟨m1, r, d⟩ := x
  dsimp only at *
  split at hs
  · split at hs
    · cases hs; exact h1
    · cases hs
  · cases hs
    dsimp only
    refine Frm.modB (h1.addRange _) _ _ ?_
    intro x; exact ⟨rfl, rfl⟩

theorem Frm.minEntries {spill : Nat} (l : List Entry) :
    ∀ {m m' : MinSt}, Frm ss hint st0 m.st → l.foldlM (Ion.minEntry ss spill) m = some m' → Frm ss hint st0 m'.st := by
  induction l with
  | nil => intro st st' h hs; cases hs; exact h
  | cons a l ih =>
    intro st st' h hs
    rw [List.foldlM_cons] at hs
    cases h1 : Ion.minEntry ss spill st a with
    | none => rw [h1] at hs; cases hs
    | some st1 => rw [h1] at hs; exact ih (h.minEntry h1) hs

theorem Frm.splitMinimal {st st' : St} {b : Nat} (h : Frm ss hint st0 st) (hb : (st.bundles b).spillset = ss)
    (hs : splitMinimal st b hint = some st') : Frm ss hint st0 st' := by
  unfold Ion.splitMinimal at hs
  dsimp only at hs
  have h0 := h.spillBundle hb
  rw [hb] at hs
  generalize Ion.spillBundle st b = x at *
  obtain ⟨st1, spill⟩ := x
  dsimp only at *
  obtain ⟨m, hm, hs⟩ := bindSome.mp hs
  obtain ⟨st2, h2, hs⟩ := bindSome.mp hs
  obtain ⟨st3, h3, hs⟩ := bindSome.mp hs
  refine Frm.foldlM (fun _ _ _ h => h.requeue) _ (Frm.foldlM ?_ _ (Frm.foldlM ?_ _
    (Frm.minEntries _ ?_ hm) h2) h3) hs
  · intro st q st' h hs; exact h.pushVreg hs
  · intro st v st' h hs
    unfold dropOld at hs
    cases v with
    | none => cases hs
    | some v => cases hs; exact h.congr rfl rfl rfl rfl rfl rfl
  · dsimp only
    refine Frm.modB h0 b _ ?_
    intro x; exact ⟨rfl, rfl⟩

theorem linkAll_frame (l : List Entry) (b : Nat) : ∀ st : St,
    (st.linkAll l b).spillsets = st.spillsets ∧ (st.linkAll l b).spilled = st.spilled ∧ (st.linkAll l b).bundles = st.bundles ∧
    (st.linkAll l b).nBundles = st.nBundles ∧ (st.linkAll l b).nSpillsets = st.nSpillsets ∧ (st.linkAll l b).queue = st.queue ∧
    (st.linkAll l b).nRanges = st.nRanges ∧ (st.linkAll l b).vregs = st.vregs := by
  intro st
  unfold St.linkAll
  induction l generalizing st with
  | nil => exact ⟨rfl, rfl, rfl, rfl, rfl, rfl, rfl, rfl⟩
  | cons e l ih => rw [List.foldl_cons]; exact ih _

theorem Frm.linkAll {st : St} (h : Frm ss hint st0 st) (l : List Entry) (b : Nat) : Frm ss hint st0 (st.linkAll l b) := by
  obtain ⟨h1, h2, h3, h4, h5, h6, -, -⟩ := linkAll_frame l b st
  exact h.congr h4 h5 h1 h2 h3 h6

theorem Frm.divide {st st' : St} {b nb : Nat} {l : Located} (h : Frm ss hint st0 st) (hb : (st.bundles b).spillset = ss)
    (hs : divide st b l = some (st', nb)) : Frm ss hint st0 st' ∧ (st'.bundles nb).spillset = ss := by
  have hfin : ∀ (s : St) (n : List Entry), Frm ss hint st0 s → (s.bundles b).spillset = ss →
      Frm ss hint st0 ((St.linkAll { s with
        bundles := upd s.bundles s.nBundles { Bundle.fresh with spillset := (s.bundles b).spillset }
        nBundles := s.nBundles + 1 } n s.nBundles).modB s.nBundles (fun x => { x with ranges := n })) ∧
      (((St.linkAll { s with
        bundles := upd s.bundles s.nBundles { Bundle.fresh with spillset := (s.bundles b).spillset }
        nBundles := s.nBundles + 1 } n s.nBundles).modB s.nBundles (fun x => { x with ranges := n })).bundles s.nBundles).spillset = ss := by
    intro s n hs hb
    have h1 := (hs.addBundle { Bundle.fresh with spillset := (s.bundles b).spillset } rfl hb).linkAll n s.nBundles
    refine ⟨h1.modB _ _ (fun _ => ⟨rfl, rfl⟩), ?_⟩
    simp [St.modB, upd, (linkAll_frame _ _ _).2.2.1, hb]
  unfold Ion.divide at hs
  dsimp only at hs
  split at hs
  · cases hs
  · split at hs
    · obtain ⟨⟨st2, e2⟩, h2, hs⟩ := bindSome.mp hs
      obtain ⟨la, hla, hs⟩ := bindSome.mp hs
      obtain ⟨st2', h2', h22⟩ := bindSome.mp h2
      have h24 := Prod.mk.inj (Option.some.inj h22)
      have h25 := Prod.mk.inj (Option.some.inj hs)
      have hb1 : ((st.modB b (fun x => { x with ranges := x.ranges.take (l.last + 1) })).bundles b).spillset = ss := by
        simp [St.modB, upd, hb]
      have h1 : Frm ss hint st0 (st.modB b (fun x => { x with ranges := x.ranges.take (l.last + 1) })) := by
        refine Frm.modB h b _ ?_
        intro x; exact ⟨rfl, rfl⟩
      have hpb : ∀ {s s' : St} {v : Option Nat} {e : Entry}, s.pushVreg v e = some s' → s'.bundles = s.bundles := by
        intro s s' v e hp
        unfold St.pushVreg at hp
        cases v with
        | none => cases hp
        | some v => cases hp; rfl
      have hrb : ∀ (s : St) (r : Nat), (Ion.recomputeRange s r).bundles = s.bundles := by
        intro s r; unfold Ion.recomputeRange; split
        · split <;> rfl
        · rfl
      have h4 : Frm ss hint st0 st2' := by
        refine Frm.pushVreg ?_ h2'
        refine Frm.modR (Frm.recomputeRange (Frm.recomputeRange ?_)) _ _
        exact (h1.addRange _).modR _ _
      have hb2 : (st2'.bundles b).spillset = ss := by
        rw [hpb h2']
        dsimp only [St.modR]
        rw [hrb, hrb]
        exact hb1
      rw [h24.1] at h4 hb2
      rw [← h25.1, ← h25.2]
      refine hfin _ _ ?_ ?_
      · dsimp only
        refine Frm.modB h4 b _ ?_
        intro x; exact ⟨rfl, rfl⟩
      · simp [St.modB, upd, hb2]
    · cases hs
      refine hfin _ _ ?_ ?_
      · dsimp only
        refine Frm.modB h b _ ?_
        intro x; exact ⟨rfl, rfl⟩
      · simp [St.modB, upd, hb]

theorem spillBundle_set (st : St) (b c : Nat) (hc : c < st.nBundles) :
    ((spillBundle st b).1.bundles c).spillset = (st.bundles c).spillset := by
  unfold spillBundle
  dsimp only
  split
  · rfl
  · dsimp only [St.modS]; rw [upd_ne _ _ (by omega)]

theorem Frm.trimTail {b : Nat} (n : Nat) : ∀ {st st' : St}, Frm ss hint st0 st → (st.bundles b).spillset = ss →
    b < st.nBundles → trimTail b n st = some st' → Frm ss hint st0 st' := by
  induction n with
  | zero => intro st st' h _ _ hs; cases hs; exact h
  | succ n ih =>
    intro st st' h hb hlt hs
    unfold Ion.trimTail at hs
    split at hs
    · cases hs; exact h
    · have h0 := h.spillBundle hb
      have hset := spillBundle_set st b b hlt
      have hmono : st.nBundles ≤ (Ion.spillBundle st b).1.nBundles := by
        unfold Ion.spillBundle; dsimp only; split
        · exact Nat.le_refl _
        · dsimp only; omega
      split at hs
      · dsimp only at hs
        refine ih ?_ ?_ ?_ hs
        · refine Frm.modR (Frm.modB (Frm.modB h0 _ _ ?_) _ _ ?_) _ _ <;> (intro x; exact ⟨rfl, rfl⟩)
        · simp only [St.modR, St.modB, upd]
          rw [if_true]
          dsimp only
          split
          · rename_i e; rw [← e]; exact hset.trans hb
          · exact hset.trans hb
        · exact Nat.lt_of_lt_of_le hlt hmono
      · dsimp only at hs
        split at hs
        · refine Frm.pushVreg ?_ hs
          refine Frm.modB (Frm.addRange (Frm.modR (Frm.modB h0 _ _ ?_) _ _) _) _ _ ?_ <;> (intro x; exact ⟨rfl, rfl⟩)
        · cases hs; exact h

theorem Frm.trimHead {b : Nat} (n : Nat) : ∀ {st st' : St}, Frm ss hint st0 st → (st.bundles b).spillset = ss →
    b < st.nBundles → trimHead b n st = some st' → Frm ss hint st0 st' := by
  induction n with
  | zero => intro st st' h _ _ hs; cases hs; exact h
  | succ n ih =>
    intro st st' h hb hlt hs
    unfold Ion.trimHead at hs
    split at hs
    · cases hs; exact h
    · split at hs
      · cases hs; exact h
      have h0 := h.spillBundle hb
      have hset := spillBundle_set st b b hlt
      have hmono : st.nBundles ≤ (Ion.spillBundle st b).1.nBundles := by
        unfold Ion.spillBundle; dsimp only; split
        · exact Nat.le_refl _
        · dsimp only; omega
      split at hs
      · dsimp only at hs
        refine ih ?_ ?_ ?_ hs
        · refine Frm.modR (Frm.modB (Frm.modB h0 _ _ ?_) _ _ ?_) _ _ <;> (intro x; exact ⟨rfl, rfl⟩)
        · simp only [St.modR, St.modB, upd]
          rw [if_true]
          dsimp only
          split
          · rename_i e; rw [← e]; exact hset.trans hb
          · exact hset.trans hb
        · exact Nat.lt_of_lt_of_le hlt hmono
      · dsimp only at hs
        split at hs
        · refine Frm.pushVreg ?_ hs
          refine Frm.modB (Frm.addRange (Frm.modR (Frm.modB h0 _ _ ?_) _ _) _) _ _ ?_ <;> (intro x; exact ⟨rfl, rfl⟩)
        · cases hs; exact h

theorem divide_nb {st st' : St} {b nb : Nat} {l : Located} (hs : divide st b l = some (st', nb)) :
    nb < st'.nBundles := by
  unfold divide at hs
  dsimp only at hs
  split at hs
  · cases hs
  · split at hs
    · obtain ⟨⟨st2, e2⟩, h2, hs⟩ := bindSome.mp hs
      obtain ⟨la, hla, hs⟩ := bindSome.mp hs
      have h25 := Prod.mk.inj (Option.some.inj hs)
      rw [← h25.1, ← h25.2]
      simp only [St.modB, (linkAll_frame _ _ _).2.2.2.1]
      omega
    · cases hs
      simp only [St.modB, (linkAll_frame _ _ _).2.2.2.1]
      omega

theorem splitAndRequeue_frm_from {st st' : St} {b at_ : Nat} {hint : Option PReg} {trim : Bool} (hb : b < st0.nBundles)
    (hb' : (st0.bundles b).spillset = (st.bundles b).spillset) (h0 : Frm (st.bundles b).spillset hint st0 (countSplit st b))
    (hs : splitAndRequeue st b at_ hint trim = some st') : Frm (st.bundles b).spillset hint st0 st' := by
  unfold splitAndRequeue at hs
  obtain ⟨plan, -, hs⟩ := bindSome.mp hs
  dsimp only at hs
  have hset : ((countSplit st b).bundles b).spillset = (st.bundles b).spillset := (h0.old b hb).2.trans hb'
  cases plan with
  | minimal => exact h0.splitMinimal hset hs
  | halves l =>
    dsimp only at hs
    obtain ⟨⟨s1, nb⟩, h1, hs⟩ := bindSome.mp hs
    obtain ⟨s2, h2, hs⟩ := bindSome.mp hs
    obtain ⟨s3, h3, h4⟩ := bindSome.mp hs
    obtain ⟨f1, f2⟩ := h0.divide hset h1
    have f3 : Frm (st.bundles b).spillset hint st0 s2 := by
      unfold trimHalves at h2
      split at h2
      · obtain ⟨s, t1, t2⟩ := bindSome.mp h2
        have hb1 : b < s1.nBundles := Nat.lt_of_lt_of_le hb f1.nB
        have g1 := f1.trimTail _ ((f1.old b hb).2.trans hb') hb1 t1
        have hnb := divide_nb h1
        have g2 := (Frm.refl (st.bundles b).spillset hint s1).trimTail _ ((f1.old b hb).2.trans hb') hb1 t1
        exact g1.trimHead _ ((g2.old nb hnb).2.trans f2) (Nat.lt_of_lt_of_le hnb g2.nB) t2
      · cases h2; exact f1
    exact (f3.requeue h3).requeue h4

/-- Splitting a bundle changes allocations and spill sets as stated in `Frm`. -/
theorem splitAndRequeue_frm {st st' : St} {b at_ : Nat} {hint : Option PReg} {trim : Bool} (hb : b < st.nBundles)
    (hs : splitAndRequeue st b at_ hint trim = some st') : Frm (st.bundles b).spillset hint st st' :=
  splitAndRequeue_frm_from hb rfl (Frm.count st b) hs

theorem countSplit_facts (st : St) (b : Nat) :
    (countSplit st b).ranges = st.ranges ∧ (countSplit st b).bundles = st.bundles ∧ (countSplit st b).nRanges = st.nRanges ∧
    (countSplit st b).nBundles = st.nBundles ∧ (countSplit st b).vregs = st.vregs ∧ (countSplit st b).queue = st.queue ∧
    (countSplit st b).spilled = st.spilled ∧
    (∀ t, ((countSplit st b).spillsets t).spillBundle = (st.spillsets t).spillBundle) ∧
    ((st.spillsets (st.bundles b).spillset).splits < 2 →
      ((countSplit st b).spillsets (st.bundles b).spillset).splits = (st.spillsets (st.bundles b).spillset).splits + 1) := by
  unfold countSplit
  split
  · exact ⟨rfl, rfl, rfl, rfl, rfl, rfl, rfl, fun _ => rfl, fun h => by omega⟩
  · refine ⟨rfl, rfl, rfl, rfl, rfl, rfl, rfl, ?_, ?_⟩
    · intro t
      simp only [St.modS, upd]
      split
      · subst_vars; rfl
      · rfl
    · intro _; simp [St.modS, upd]

/-- A split that is counted. -/
theorem splitAndRequeue_counts {st st' : St} {b at_ : Nat} {hint : Option PReg} {trim : Bool} (hb : b < st.nBundles)
    (hs : splitAndRequeue st b at_ hint trim = some st') (hlt : (st.spillsets (st.bundles b).spillset).splits < 2) :
    (st.spillsets (st.bundles b).spillset).splits < (st'.spillsets (st.bundles b).spillset).splits := by
  obtain ⟨-, c2, -, c4, -, -, -, -, c9⟩ := countSplit_facts st b
  have := (splitAndRequeue_frm_from (st0 := countSplit st b) (by rw [c4]; exact hb) (by rw [c2]) (Frm.refl _ _ _) hs).mono
    (st.bundles b).spillset
  rw [c9 hlt] at this
  omega

end Regalloc.Ion
