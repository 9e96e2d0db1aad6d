import Verif.Model.Merge
import Verif.Spec.Ion
import Verif.Props.Requirement

namespace Regalloc.Ion

@[simp] theorem upd_same {α : Type} (g : Nat → α) (i : Nat) (x : α) : upd g i x i = x := by simp [upd]
theorem upd_ne {α : Type} (g : Nat → α) {i j : Nat} (x : α) (h : j ≠ i) : upd g i x j = g j := by simp [upd, h]

theorem adjStart_le (fd : Bool) (r : RKey) : adjStart fd r ≤ r.fr := by
  unfold adjStart ptBefore; split <;> omega

theorem adjStart_mono (fd : Bool) (a b : RKey) (h : a.fr ≤ b.fr) : adjStart fd a ≤ adjStart fd b := by
  unfold adjStart ptBefore; split <;> omega

theorem Tidy.tail {e : Entry} {es : List Entry} (h : Tidy (e :: es)) : Tidy es :=
  ⟨fun x hx => h.1 x (List.mem_cons_of_mem _ hx), (List.pairwise_cons.mp h.2).2⟩

theorem Tidy.head_le {e : Entry} {es : List Entry} (h : Tidy (e :: es)) : ∀ x ∈ e :: es, e.range.fr ≤ x.range.fr := by
  intro x hx
  rcases List.mem_cons.mp hx with rfl | hx
  · exact Nat.le_refl _
  · have := (List.pairwise_cons.mp h.2).1 x hx
    have := h.1 e (by simp)
    omega

theorem Tidy.pair {es : List Entry} (h : Tidy es) {x y : Entry} (hx : x ∈ es) (hy : y ∈ es) (hne : x ≠ y) :
    x.range.to ≤ y.range.fr ∨ y.range.to ≤ x.range.fr := by
  induction es with
  | nil => simp at hx
  | cons e es ih =>
    have hp := List.pairwise_cons.mp h.2
    rcases List.mem_cons.mp hx with rfl | hx' <;> rcases List.mem_cons.mp hy with rfl | hy'
    · exact absurd rfl hne
    · exact .inl (hp.1 y hy')
    · exact .inr (hp.1 x hx')
    · exact ih h.tail hx' hy'

/-- The pair condition tested by the scan. -/
def PairOk (a b : Bool) (f t : Entry) : Prop :=
  adjStart a f.range ≥ t.range.to ∨ adjStart b t.range ≥ f.range.to

theorem scan_sound (a b : Bool) : ∀ n fs ts, Tidy fs → Tidy ts → scan a b n fs ts = true →
    ∀ f ∈ fs, ∀ t ∈ ts, PairOk a b f t
  | _, [], _, _, _, _ => by simp
  | _, _ :: _, [], _, _, _ => by simp
  | 0, _ :: _, _ :: _, _, _, h => by simp [scan] at h
  | n + 1, f :: fs, t :: ts, hf, ht, h => by
    unfold scan at h
    intro x hx y hy
    by_cases h1 : adjStart a f.range ≥ t.range.to
    · rw [if_pos h1] at h
      rcases List.mem_cons.mp hy with rfl | hy
      · left
        have := adjStart_mono a _ _ (hf.head_le x hx)
        omega
      · exact scan_sound a b n _ _ hf ht.tail h x hx y hy
    · rw [if_neg h1] at h
      by_cases h2 : adjStart b t.range ≥ f.range.to
      · rw [if_pos h2] at h
        rcases List.mem_cons.mp hx with rfl | hx
        · right
          have := adjStart_mono b _ _ (ht.head_le y hy)
          omega
        · exact scan_sound a b n _ _ hf.tail ht h x hx y hy
      · rw [if_neg h2] at h; cases h

theorem scan_complete (a b : Bool) : ∀ n fs ts, (∀ f ∈ fs, ∀ t ∈ ts, PairOk a b f t) →
    fs.length + ts.length ≤ n + 1 → scan a b n fs ts = true
  | _, [], _, _, _ => by simp [scan]
  | _, _ :: _, [], _, _ => by simp [scan]
  | 0, _ :: _, _ :: _, _, h => by simp at h; omega
  | n + 1, f :: fs, t :: ts, h, hl => by
    unfold scan
    simp only [List.length_cons] at hl
    split
    · exact scan_complete a b n _ _ (fun x hx y hy => h x hx y (List.mem_cons_of_mem _ hy)) (by simp; omega)
    · rename_i h1
      rw [if_pos]
      · exact scan_complete a b n _ _ (fun x hx y hy => h x (List.mem_cons_of_mem _ hx) y hy) (by simp; omega)
      · rcases h f (by simp) t (by simp) with h2 | h2
        · exact absurd h2 h1
        · exact h2

/-! ### linkAll -/

theorem linkAll_ranges (st : St) (es : List Entry) (b : Nat) (j : Nat) :
    (st.linkAll es b).ranges j =
      if ∃ e ∈ es, e.index = j then { st.ranges j with bundle := some b } else st.ranges j := by
  induction es generalizing st with
  | nil => simp [St.linkAll]
  | cons e es ih =>
    have : st.linkAll (e :: es) b = (st.modR e.index (fun r => { r with bundle := some b })).linkAll es b := rfl
    rw [this, ih]
    by_cases h : e.index = j
    · subst h
      simp [St.modR]
    · have h' : j ≠ e.index := fun h2 => h h2.symm
      simp [St.modR, upd_ne _ _ h', h]

theorem linkAll_rest (st : St) (es : List Entry) (b : Nat) :
    st.linkAll es b = { st with ranges := (st.linkAll es b).ranges } := by
  induction es generalizing st with
  | nil => rfl
  | cons e es ih =>
    have : st.linkAll (e :: es) b = (st.modR e.index (fun r => { r with bundle := some b })).linkAll es b := rfl
    rw [this, ih]
    rfl

@[simp] theorem linkAll_uses (st : St) (es : List Entry) (b : Nat) (j : Nat) :
    ((st.linkAll es b).ranges j).uses = (st.ranges j).uses := by
  rw [linkAll_ranges]; split <;> rfl
@[simp] theorem linkAll_range (st : St) (es : List Entry) (b : Nat) (j : Nat) :
    ((st.linkAll es b).ranges j).range = (st.ranges j).range := by
  rw [linkAll_ranges]; split <;> rfl
@[simp] theorem linkAll_vreg (st : St) (es : List Entry) (b : Nat) (j : Nat) :
    ((st.linkAll es b).ranges j).vreg = (st.ranges j).vreg := by
  rw [linkAll_ranges]; split <;> rfl
@[simp] theorem linkAll_flag (st : St) (es : List Entry) (b : Nat) (j : Nat) :
    ((st.linkAll es b).ranges j).startsAtDef = (st.ranges j).startsAtDef := by
  rw [linkAll_ranges]; split <;> rfl
@[simp] theorem linkAll_bundles (st : St) (es : List Entry) (b : Nat) : (st.linkAll es b).bundles = st.bundles := by
  rw [linkAll_rest]
@[simp] theorem linkAll_spillsets (st : St) (es : List Entry) (b : Nat) : (st.linkAll es b).spillsets = st.spillsets := by
  rw [linkAll_rest]
@[simp] theorem linkAll_vregs (st : St) (es : List Entry) (b : Nat) : (st.linkAll es b).vregs = st.vregs := by
  rw [linkAll_rest]
@[simp] theorem linkAll_nRanges (st : St) (es : List Entry) (b : Nat) : (st.linkAll es b).nRanges = st.nRanges := by
  rw [linkAll_rest]
@[simp] theorem linkAll_nBundles (st : St) (es : List Entry) (b : Nat) : (st.linkAll es b).nBundles = st.nBundles := by
  rw [linkAll_rest]
@[simp] theorem linkAll_nSpillsets (st : St) (es : List Entry) (b : Nat) : (st.linkAll es b).nSpillsets = st.nSpillsets := by
  rw [linkAll_rest]
@[simp] theorem linkAll_queue (st : St) (es : List Entry) (b : Nat) : (st.linkAll es b).queue = st.queue := by
  rw [linkAll_rest]
@[simp] theorem linkAll_spilled (st : St) (es : List Entry) (b : Nat) : (st.linkAll es b).spilled = st.spilled := by
  rw [linkAll_rest]

/-! ### mergeProps -/

theorem mergeProps_eq (a b : Bundle) : mergeProps a b =
    { b with
      fixed := a.fixed || b.fixed
      fixedDef := a.fixedDef || b.fixedDef
      stack := a.stack || b.stack
      limit := match a.limit, b.limit with
        | some x, some y => some (min y x)
        | some x, none => some x
        | none, l => l } := by
  obtain ⟨r1, s1, al1, p1, m1, f1, d1, k1, l1⟩ := a
  obtain ⟨r2, s2, al2, p2, m2, f2, d2, k2, l2⟩ := b
  cases f1 <;> cases d1 <;> cases k1 <;> cases l1 <;> cases l2 <;> rfl


@[simp] theorem mergeProps_ranges (a b : Bundle) : (mergeProps a b).ranges = b.ranges := by
  rw [mergeProps_eq]
@[simp] theorem mergeProps_spillset (a b : Bundle) : (mergeProps a b).spillset = b.spillset := by
  rw [mergeProps_eq]
@[simp] theorem mergeProps_alloc (a b : Bundle) : (mergeProps a b).alloc = b.alloc := by
  rw [mergeProps_eq]
@[simp] theorem mergeProps_fixed (a b : Bundle) : (mergeProps a b).fixed = (a.fixed || b.fixed) := by
  rw [mergeProps_eq]
@[simp] theorem mergeProps_fixedDef (a b : Bundle) : (mergeProps a b).fixedDef = (a.fixedDef || b.fixedDef) := by
  rw [mergeProps_eq]
@[simp] theorem mergeProps_stack (a b : Bundle) : (mergeProps a b).stack = (a.stack || b.stack) := by
  rw [mergeProps_eq]
theorem mergeProps_limit (a b : Bundle) :
    (mergeProps a b).limit = match a.limit, b.limit with
      | some x, some y => some (min y x)
      | some x, none => some x
      | none, l => l := by
  rw [mergeProps_eq]
theorem mergeProps_limit_isSome (a b : Bundle) :
    (mergeProps a b).limit.isSome = (a.limit.isSome || b.limit.isSome) := by
  rw [mergeProps_limit]; cases a.limit <;> cases b.limit <;> rfl

theorem FlagsSound.merge {a b : Bundle} {us vs : List Use} (ha : FlagsSound a us) (hb : FlagsSound b vs)
    (ws : List Use) (h : ∀ u ∈ ws, u ∈ us ∨ u ∈ vs) : FlagsSound (mergeProps a b) ws := by
  intro u hu
  simp only [mergeProps_fixed, mergeProps_fixedDef, mergeProps_stack, mergeProps_limit_isSome, Bool.or_eq_true]
  rcases h u hu with h | h
  · have := ha u h; grind
  · have := hb u h; grind

theorem FlagsSound.congr {a b : Bundle} {us : List Use} (ha : FlagsSound a us) (h1 : a.fixed = b.fixed)
    (h2 : a.fixedDef = b.fixedDef) (h3 : a.stack = b.stack) (h4 : a.limit = b.limit) : FlagsSound b us := by
  unfold FlagsSound at *; rw [← h1, ← h2, ← h3, ← h4]; exact ha

/-! ### the merged list -/

theorem mergedRanges_perm (src dst : List Entry) : (mergedRanges src dst).Perm (src ++ dst) := by
  unfold mergedRanges
  split
  · exact perm_insertBy _ _ _
  · exact (perm_isort _ _).trans List.perm_append_comm

theorem entryLe_trans : ∀ a b c : Entry, entryLe a b = true → entryLe b c = true → entryLe a c = true := by
  intro a b c; simp only [entryLe, decide_eq_true_eq]; omega
theorem entryLe_total : ∀ a b : Entry, entryLe a b = true ∨ entryLe b a = true := by
  intro a b; simp only [entryLe, decide_eq_true_eq]; omega

theorem Tidy.sorted {es : List Entry} (h : Tidy es) : es.Pairwise (fun x y => entryLe x y = true) := by
  have := List.Pairwise.and_mem.mp h.2
  refine List.Pairwise.imp ?_ this
  rintro a b ⟨ha, -, h1⟩
  have := h.1 a ha
  simp only [entryLe, decide_eq_true_eq]; omega

theorem mergedRanges_sorted (src dst : List Entry) (hd : Tidy dst) :
    (mergedRanges src dst).Pairwise (fun x y => entryLe x y = true) := by
  unfold mergedRanges
  split
  · exact pairwise_insertBy entryLe_trans entryLe_total _ _ hd.sorted
  · exact pairwise_isort entryLe_trans entryLe_total _

/-- Pairwise for a symmetric relation passes to permutations. -/
theorem tidy_of_sorted {es : List Entry} (hne : ∀ e ∈ es, e.range.fr < e.range.to)
    (hs : es.Pairwise (fun x y => entryLe x y = true))
    (hd : es.Pairwise (fun a b => a.range.to ≤ b.range.fr ∨ b.range.to ≤ a.range.fr)) : Tidy es := by
  refine ⟨hne, ?_⟩
  have := List.Pairwise.and_mem.mp (hs.and hd)
  refine List.Pairwise.imp ?_ this
  rintro a b ⟨ha, hb, h1, h2⟩
  have := hne a ha
  have := hne b hb
  simp only [entryLe, decide_eq_true_eq] at h1
  omega

theorem mergedRanges_tidy (src dst : List Entry) (hs : Tidy src) (hd : Tidy dst)
    (h : ∀ f ∈ src, ∀ t ∈ dst, f.range.to ≤ t.range.fr ∨ t.range.to ≤ f.range.fr) :
    Tidy (mergedRanges src dst) := by
  have hp := mergedRanges_perm src dst
  refine tidy_of_sorted ?_ (mergedRanges_sorted src dst hd) ?_
  · intro e he
    rcases List.mem_append.mp (hp.mem_iff.mp he) with h | h
    · exact hs.1 e h
    · exact hd.1 e h
  · refine (hp.symm.pairwise ?_ ?_)
    · refine List.pairwise_append.mpr ⟨hs.2.imp Or.inl, hd.2.imp Or.inl, h⟩
    · intro a b; exact Or.symm

end Regalloc.Ion

namespace Regalloc.Ion
open Requirement

theorem ofConstraint_sat (env : MachineEnv) (c : OperandConstraint) (h : c ≠ .Limit 0) :
    ∃ x, (ofConstraint env c).Admits x := by
  cases c with
  | Any => exact ⟨.slot 0, trivial⟩
  | Reg => exact ⟨.reg (PReg.new 0 .Int), _, rfl⟩
  | Stack => exact ⟨.slot 0, by intro p; simp⟩
  | FixedReg p =>
    unfold ofConstraint
    dsimp only
    split
    · exact ⟨.fixedStack p, rfl⟩
    · exact ⟨.reg p, rfl⟩
  | Reuse i => exact ⟨.reg (PReg.new 0 .Int), _, rfl⟩
  | Limit n =>
    refine ⟨.reg (PReg.new 0 .Int), PReg.new 0 .Int, rfl, ?_⟩
    have : (PReg.new 0 .Int).hwEnc = 0 := by decide +kernel
    rw [this]
    cases n with
    | zero => exact absurd rfl h
    | succ n => omega

theorem merge_sat {a b m : Requirement} (h : a.merge b = some m) (ha : ∃ x, a.Admits x) (hb : ∃ x, b.Admits x) :
    ∃ x, m.Admits x := by
  have := (not_congr (C17_conflict_iff a b ha hb)).mp (by rw [h]; simp)
  obtain ⟨x, hx⟩ := Classical.not_not.mp this
  exact ⟨x, (C17_merge_exact a b m h x).mpr hx⟩

theorem computeRange_sat (env : MachineEnv) : ∀ (us : List ReqUse) (req : Requirement) (last : Nat) (out : Requirement × Nat),
    computeRange env us (req, last) = .ok out → (∃ x, req.Admits x) → (∀ u ∈ us, u.constraint ≠ .Limit 0) →
    ∃ x, out.1.Admits x
  | [], req, last, out, h, hx, _ => by
    simp only [computeRange, Except.ok.injEq] at h; subst h; exact hx
  | u :: us, req, last, out, h, hx, hz => by
    simp only [computeRange] at h
    split at h
    · rename_i m hm
      exact computeRange_sat env us m _ out h
        (merge_sat hm hx (ofConstraint_sat env _ (hz u (by simp)))) (fun v hv => hz v (by simp [hv]))
    · split at h
      · cases h
      · split at h <;> cases h

theorem compute_sat (env : MachineEnv) (rs : List (List ReqUse)) (r : Requirement) (h : compute env rs = .ok r)
    (hz : ∀ us ∈ rs, ∀ u ∈ us, u.constraint ≠ .Limit 0) : ∃ x, r.Admits x := by
  unfold compute at h
  rw [computeRanges_flatten] at h
  split at h
  · cases h
  · rename_i r' l heq
    simp only [Except.ok.injEq] at h
    subst h
    refine computeRange_sat env _ .Any 0 _ heq ⟨.slot 0, trivial⟩ ?_
    intro u hu
    obtain ⟨us, h1, h2⟩ := List.mem_flatten.mp hu
    exact hz us h1 u h2

theorem mem_usesOf (st : St) (b : Nat) (u : Use) :
    u ∈ usesOf st b ↔ ∃ e ∈ (st.bundles b).ranges, u ∈ (st.ranges e.index).uses := by
  unfold usesOf; rw [List.mem_flatMap]

theorem reqUses_constraints (st : St) (b : Nat) (P : OperandConstraint → Prop) :
    (∀ us ∈ st.reqUses b, ∀ u ∈ us, P u.constraint) ↔ ∀ u ∈ usesOf st b, P u.op.constraint := by
  simp only [St.reqUses, List.mem_map, mem_usesOf]
  constructor
  · rintro h u ⟨e, he, hu⟩
    exact h _ ⟨e, he, rfl⟩ ⟨u.pos, u.op.constraint⟩ (List.mem_map.mpr ⟨u, hu, rfl⟩)
  · rintro h us ⟨e, he, rfl⟩ u hu
    obtain ⟨v, hv, rfl⟩ := List.mem_map.mp hu
    exact h v ⟨e, he, hv⟩

/-- The test of requirements leaves only bundles whose uses fit one location. -/
theorem sat_of_check (env : MachineEnv) (st : St) (a b : Nat)
    (h : ¬ ((((st.bundles a).stack || (st.bundles a).fixed || (st.bundles a).limit.isSome || (st.bundles b).stack ||
      (st.bundles b).fixed || (st.bundles b).limit.isSome) &&
        (Requirement.mergeBundles env (st.reqUses a) (st.reqUses b)).isNone) = true))
    (ha : FlagsSound (st.bundles a) (usesOf st a)) (hb : FlagsSound (st.bundles b) (usesOf st b))
    (hz : NoZeroLimit (usesOf st a ++ usesOf st b)) : Satisfiable env (usesOf st a ++ usesOf st b) := by
  by_cases hn : (Requirement.mergeBundles env (st.reqUses a) (st.reqUses b)).isNone = true
  · have hf : ¬ ((st.bundles a).stack || (st.bundles a).fixed || (st.bundles a).limit.isSome || (st.bundles b).stack ||
      (st.bundles b).fixed || (st.bundles b).limit.isSome) = true := fun h' => h (by rw [h', hn]; rfl)
    simp only [Bool.or_eq_true, not_or] at hf
    refine ⟨.reg (PReg.new 0 .Int), fun u hu => ?_⟩
    rcases List.mem_append.mp hu with hu | hu
    · have := ha u hu
      cases hc : u.op.constraint <;> simp only [OperandConstraint.Admits] <;> grind
    · have := hb u hu
      cases hc : u.op.constraint <;> simp only [OperandConstraint.Admits] <;> grind
  · cases hm : Requirement.mergeBundles env (st.reqUses a) (st.reqUses b) with
    | none => exact absurd (by rw [hm]; rfl) hn
    | some r =>
      have hx := (C17_two_bundles env _ _).1 r hm
      have hsat : ∃ x, r.Admits x := by
        unfold Requirement.mergeBundles at hm
        split at hm
        · rename_i ra rb h1 h2
          refine merge_sat hm (compute_sat env _ _ h1 ?_) (compute_sat env _ _ h2 ?_)
          · exact (reqUses_constraints st a (· ≠ .Limit 0)).mpr fun u hu => hz u (List.mem_append_left _ hu)
          · exact (reqUses_constraints st b (· ≠ .Limit 0)).mpr fun u hu => hz u (List.mem_append_right _ hu)
        · cases hm
      obtain ⟨x, hxx⟩ := hsat
      refine ⟨x, fun u hu => ?_⟩
      have hall := (hx x).mp hxx
      rcases List.mem_append.mp hu with hu | hu
      · exact (reqUses_constraints st a (·.Admits env x)).mp (fun us hus => hall us (List.mem_append_left _ hus)) u hu
      · exact (reqUses_constraints st b (·.Admits env x)).mp (fun us hus => hall us (List.mem_append_right _ hus)) u hu

/-- Conversely, uses that fit one location pass the test. -/
theorem check_of_sat (env : MachineEnv) (st : St) (a b : Nat) (h : Satisfiable env (usesOf st a ++ usesOf st b)) :
    (Requirement.mergeBundles env (st.reqUses a) (st.reqUses b)).isNone = false := by
  cases hm : Requirement.mergeBundles env (st.reqUses a) (st.reqUses b) with
  | some r => rfl
  | none =>
    exfalso
    refine (C17_two_bundles env _ _).2 hm ?_
    obtain ⟨x, hx⟩ := h
    refine ⟨x, fun us hus => ?_⟩
    rcases List.mem_append.mp hus with hu | hu
    · exact (reqUses_constraints st a (·.Admits env x)).mpr (fun u hu => hx u (List.mem_append_left _ hu)) us hu
    · exact (reqUses_constraints st b (·.Admits env x)).mpr (fun u hu => hx u (List.mem_append_right _ hu)) us hu

end Regalloc.Ion

namespace Regalloc.Ion

/-- `FlagsSound` for the state of the scan. -/
def PropsSound (p : Props) (us : List Use) : Prop :=
  ∀ u ∈ us,
    (∀ q, u.op.constraint = .FixedReg q → p.fixed = true ∧ (u.op.kind = .Def → p.fixedDef = true)) ∧
    (u.op.constraint = .Stack → p.stack = true) ∧
    (∀ n, u.op.constraint = .Limit n → p.limit.isSome = true ∨ (p.fixed = true ∧ p.stack = true))

def PLe (p q : Props) : Prop :=
  (p.fixed = true → q.fixed = true) ∧ (p.fixedDef = true → q.fixedDef = true) ∧ (p.stack = true → q.stack = true) ∧
  (p.limit.isSome = true → q.limit.isSome = true)

theorem PLe.refl (p : Props) : PLe p p := ⟨id, id, id, id⟩
theorem PLe.trans {p q r : Props} (h : PLe p q) (h' : PLe q r) : PLe p r :=
  ⟨h'.1 ∘ h.1, h'.2.1 ∘ h.2.1, h'.2.2.1 ∘ h.2.2.1, h'.2.2.2 ∘ h.2.2.2⟩

theorem PropsSound.mono {p q : Props} {us : List Use} (h : PropsSound p us) (hle : PLe p q) : PropsSound q us := by
  intro u hu
  obtain ⟨h1, h2, h3⟩ := h u hu
  obtain ⟨l1, l2, l3, l4⟩ := hle
  refine ⟨fun x hx => ⟨l1 (h1 x hx).1, fun hd => l2 ((h1 x hx).2 hd)⟩, fun hx => l3 (h2 hx), fun n hx => ?_⟩
  rcases h3 n hx with h | ⟨ha, hb⟩
  · exact .inl (l4 h)
  · exact .inr ⟨l1 ha, l3 hb⟩

theorem PropsSound.full {p : Props} (us : List Use) (h : (p.fixed && p.stack && p.fixedDef) = true) : PropsSound p us := by
  simp only [Bool.and_eq_true] at h
  intro u _
  exact ⟨fun _ _ => ⟨h.1.1, fun _ => h.2⟩, fun _ => h.1.2, fun _ _ => .inr ⟨h.1.1, h.1.2⟩⟩

theorem useProps_sound : ∀ (us : List Use) (p : Props), PLe p (useProps us p) ∧ PropsSound (useProps us p) us
  | [], p => ⟨.refl p, by simp [PropsSound, useProps]⟩
  | u :: us, p => by
    have key : ∀ p1 : Props, PLe p p1 → PropsSound p1 [u] →
        PLe p (if p1.fixed && p1.stack && p1.fixedDef then p1 else useProps us p1) ∧
        PropsSound (if p1.fixed && p1.stack && p1.fixedDef then p1 else useProps us p1) (u :: us) := by
      intro p1 h1 h2
      split
      · rename_i h; exact ⟨h1, .full _ h⟩
      · obtain ⟨i1, i2⟩ := useProps_sound us p1
        refine ⟨h1.trans i1, fun w hw => ?_⟩
        rcases List.mem_cons.mp hw with rfl | hw
        · exact (h2.mono i1) w (by simp)
        · exact i2 w hw
    have key' : PropsSound p [u] → PLe p (useProps us p) ∧ PropsSound (useProps us p) (u :: us) := by
      intro h2
      obtain ⟨i1, i2⟩ := useProps_sound us p
      refine ⟨i1, fun w hw => ?_⟩
      rcases List.mem_cons.mp hw with rfl | hw
      · exact (h2.mono i1) w (by simp)
      · exact i2 w hw
    cases hc : u.op.constraint with
    | Any => simp only [useProps, hc]; apply key'; intro w hw; simp_all
    | Reg => simp only [useProps, hc]; apply key'; intro w hw; simp_all
    | Reuse i => simp only [useProps, hc]; apply key'; intro w hw; simp_all
    | Stack =>
      simp only [useProps, hc]
      refine key { p with stack := true } ⟨id, id, fun _ => rfl, id⟩ ?_
      intro w hw; simp_all
    | FixedReg q =>
      simp only [useProps, hc]
      by_cases hd : u.op.kind = .Def
      · simp only [if_pos hd]
        refine key { p with fixed := true, fixedDef := true } ⟨fun _ => rfl, fun _ => rfl, id, id⟩ ?_
        intro w hw; simp_all
      · simp only [if_neg hd]
        refine key { p with fixed := true } ⟨fun _ => rfl, id, id, id⟩ ?_
        intro w hw; simp_all
    | Limit n =>
      simp only [useProps, hc]
      cases hl : p.limit with
      | none =>
        refine key { p with limit := some n } ⟨id, id, id, fun _ => rfl⟩ ?_
        intro w hw; simp_all
      | some m =>
        refine key { p with limit := some (min m n) } ⟨id, id, id, fun _ => rfl⟩ ?_
        intro w hw; simp_all

theorem foldProps_sound (g : Entry → List Use) : ∀ (es : List Entry) (p : Props),
    PLe p (es.foldl (fun p e => useProps (g e) p) p) ∧
    PropsSound (es.foldl (fun p e => useProps (g e) p) p) (es.flatMap g)
  | [], p => ⟨.refl p, by simp [PropsSound]⟩
  | e :: es, p => by
    obtain ⟨a1, a2⟩ := useProps_sound (g e) p
    obtain ⟨b1, b2⟩ := foldProps_sound g es (useProps (g e) p)
    refine ⟨a1.trans b1, fun u hu => ?_⟩
    rw [List.flatMap_cons] at hu
    rcases List.mem_append.mp hu with h | h
    · exact a2.mono b1 u h
    · exact b2 u h

theorem foldJoin_covers : ∀ (es : List Entry) (r : RKey) (p : Nat),
    (Covers r p → Covers (es.foldl (fun r e => r.join e.range) r) p) ∧
    (∀ e ∈ es, Covers e.range p → Covers (es.foldl (fun r e => r.join e.range) r) p)
  | [], r, p => by simp
  | e :: es, r, p => by
    obtain ⟨h1, h2⟩ := foldJoin_covers es (r.join e.range) p
    refine ⟨fun h => h1 (by unfold Covers RKey.join at *; dsimp only; omega), fun x hx hp => ?_⟩
    rcases List.mem_cons.mp hx with rfl | hx
    · exact h1 (by unfold Covers RKey.join at *; dsimp only; omega)
    · exact h2 x hx hp

end Regalloc.Ion
