import Verif.Proofs.ProcessReady
import Verif.Props.PRegSet

/-
When the allocation loop gives up. Helper lemmas for C40.
-/
namespace Regalloc.Ion

open PregMap (PMap ScanEnv tryAlloc Ov)
open Requirement (compute)

section
variable {P : Params} {q0 q : PSt} {b : Nat}

/-- Bundle `b` cannot have register `p`, which is reserved where it is needed or held there
by a bundle of weight `w` or more. -/
def Blocked (P : Params) (q : PSt) (b w : Nat) (p : PReg) : Prop :=
  (∃ k, (k, none) ∈ q.maps p ∧ ∃ r ∈ rangesOf q.st b, Ov k r.1) ∨
  ∃ k i, (k, some i) ∈ q.maps p ∧ w ≤ weight P q.st ((q.st.ranges i).bundle.getD q.st.nBundles) ∧ ∃ r ∈ rangesOf q.st b, Ov k r.1

/-- `bs` are all that keeps bundle `b` from register `p`. -/
def Whole (q : PSt) (b : Nat) (p : PReg) (bs : List Nat) : Prop :=
  (∀ k, (k, none) ∈ q.maps p → ∀ r ∈ rangesOf q.st b, ¬ Ov k r.1) ∧
  ∀ k i, (k, some i) ∈ q.maps p → ∀ r ∈ rangesOf q.st b, Ov k r.1 → (q.st.ranges i).bundle.getD q.st.nBundles ∈ bs

theorem maxWeightIn_mem (P : Params) (st : St) (bs : List Nat) (h : bs ≠ []) : ∃ d ∈ bs, maxWeightIn P st bs ≤ weight P st d := by
  unfold maxWeightIn
  have key : ∀ (bs : List Nat) (m : Nat), bs.foldl (fun m b => max m (weight P st b)) m ≤ m ∨
      ∃ d ∈ bs, bs.foldl (fun m b => max m (weight P st b)) m ≤ weight P st d := by
    intro bs
    induction bs with
    | nil => intro m; simp
    | cons x xs ih =>
      intro m
      rw [List.foldl_cons]
      rcases ih (max m (weight P st x)) with h | ⟨d, hd, h⟩
      · by_cases hx : m ≤ weight P st x
        · exact .inr ⟨x, by simp, by omega⟩
        · exact .inl (by omega)
      · exact .inr ⟨d, by simp [hd], h⟩
  rcases key bs 0 with h1 | h1
  · obtain ⟨d, hd⟩ := List.exists_mem_of_ne_nil bs h
    exact ⟨d, hd, by omega⟩
  · exact h1

theorem tryRegs_blocked (h : Inv P q0 q [b]) : ∀ (regs : List PReg) (x x' : Best), tryRegs P b q regs x = .ok (.best x') →
    (∀ c bs, x.evict = some (c, bs) → ∃ c' bs', x'.evict = some (c', bs') ∧ c' ≤ c) ∧
    (∀ p ∈ regs, ∀ w, (∀ c bs, x'.evict = some (c, bs) → w ≤ c) → Blocked P q b w p) ∧
    ∀ c bs, x'.evict = some (c, bs) → x.evict = some (c, bs) ∨ ∃ p ∈ regs, Whole q b p bs ∧ bs.Nodup ∧
      ∀ d ∈ bs, d < q.st.nBundles ∧ (q.st.bundles d).alloc ≠ none := by
  obtain ⟨b1, b2, b3, b4, b5, b6⟩ := h.busy_lt
  intro regs
  induction regs with
  | nil =>
    intro x x' hx
    cases hx
    exact ⟨fun c bs hc => ⟨c, bs, hc, Nat.le_refl _⟩, by simp, fun c bs hc => .inl hc⟩
  | cons p ps ih =>
    intro x x' hx
    have hne : rangesOf q.st b ≠ [] := by unfold rangesOf; simpa using b3
    unfold tryRegs at hx
    rcases PregMap.tryAlloc_spec (se := scanEnv P q.st x.limit) (h.core.sorted p)
      (rangesOf_sorted (h.core.shape.tidy b b1 b4)) hne with ⟨m, h1, -⟩ | ⟨cs, a, h1, h2, h3, h4, h5, h6, -⟩ | ⟨r, h1, h2⟩
    · rw [h1] at hx
      cases hx
    · rw [h1] at hx
      dsimp only at hx
      obtain ⟨i1, i2, i3⟩ := ih _ _ hx
      dsimp only at i1 i3
      have hlow : ∃ c1 bs1, lower x.evict (maxWeightIn P q.st cs) cs = some (c1, bs1) ∧ c1 ≤ maxWeightIn P q.st cs ∧
          ∀ c bs, x.evict = some (c, bs) → c1 ≤ c := by
        unfold lower
        cases hxe : x.evict with
        | none => exact ⟨_, _, rfl, Nat.le_refl _, by simp⟩
        | some y =>
          obtain ⟨c, y⟩ := y
          dsimp only
          split
          · refine ⟨_, _, rfl, Nat.le_refl _, ?_⟩
            intro c' bs' hc; cases hc; omega
          · refine ⟨_, _, rfl, by omega, ?_⟩
            intro c' bs' hc; cases hc; omega
      obtain ⟨c1, bs1, l1, l2, l3⟩ := hlow
      obtain ⟨c2, bs2, l4, l5⟩ := i1 c1 bs1 l1
      refine ⟨?_, ?_, ?_⟩
      · intro c bs hc
        have := l3 c bs hc
        exact ⟨c2, bs2, l4, by omega⟩
      · intro r hr w hw
        rcases List.mem_cons.mp hr with rfl | hr
        · have hw2 := hw c2 bs2 l4
          obtain ⟨d, hd, hd'⟩ := maxWeightIn_mem P q.st cs h2
          obtain ⟨e, i, hi, rfl, hov⟩ := (h4 d).mp hd
          refine .inr ⟨e, i, hi, ?_, hov⟩
          unfold scanEnv at hd'
          dsimp only at hd'
          omega
        · exact i2 r hr w hw
      · intro c bs hc
        rcases i3 c bs hc with h7 | ⟨r, hr, h7⟩
        · rcases lower_cases x.evict (maxWeightIn P q.st cs) cs with hl | ⟨hl, -⟩
          · rw [hl] at h7
            cases h7
            refine .inr ⟨p, by simp, ⟨h5, ?_⟩, h3, ?_⟩
            · intro k i hi r hr hov
              exact (h4 _).mpr ⟨k, i, hi, rfl, r, hr, hov⟩
            · intro d hd
              obtain ⟨e, i, hi, rfl, -⟩ := (h4 d).mp hd
              exact h.mapped hi
          · rw [hl] at h7; exact .inl h7
        · exact .inr ⟨r, by simp [hr], h7⟩
    · cases r with
      | Allocated m => exact absurd h2 (by simp [PregMap.RetOk])
      | Conflict cs a => exact absurd h2 (by simp [PregMap.RetOk])
      | ConflictWithFixed w a =>
        rw [h1] at hx
        dsimp only at hx
        obtain ⟨i1, i2, i3⟩ := ih _ _ hx
        dsimp only at i1 i3
        refine ⟨i1, ?_, ?_⟩
        · intro r hr w hw
          rcases List.mem_cons.mp hr with rfl | hr
          · obtain ⟨e, r, he, hr, ho, -⟩ := h2
            obtain ⟨r', hr', rfl⟩ := List.mem_map.mp hr
            exact .inl ⟨e, he, r', hr', ho⟩
          · exact i2 r hr w hw
        · intro c bs hc
          rcases i3 c bs hc with h7 | ⟨r, hr, h7⟩
          · exact .inl h7
          · exact .inr ⟨r, by simp [hr], h7⟩
      | ConflictHighCost =>
        rw [h1] at hx
        dsimp only at hx
        obtain ⟨i1, i2, i3⟩ := ih _ _ hx
        refine ⟨i1, ?_, ?_⟩
        · intro r hr w hw
          rcases List.mem_cons.mp hr with rfl | hr
          · obtain ⟨c, hc, e, i, r, hi, hr, ho, hlt⟩ := h2
            obtain ⟨r', hr', rfl⟩ := List.mem_map.mp hr
            refine .inr ⟨e, i, hi, ?_, r', hr', ho⟩
            unfold scanEnv at hc hlt
            dsimp only at hc hlt
            unfold Best.limit at hc
            split at hc
            · rename_i a bb ha hb
              obtain ⟨c0, bs0⟩ := a
              obtain ⟨c2, bs2, l4, l5⟩ := i1 c0 bs0 ha
              have := hw c2 bs2 l4
              cases hc
              dsimp only at hlt
              omega
            · cases hc
          · exact i2 r hr w hw
        · intro c bs hc
          rcases i3 c bs hc with h7 | ⟨r, hr, h7⟩
          · exact .inl h7
          · exact .inr ⟨r, by simp [hr], h7⟩

theorem evictAll_alloc (bs : List Nat) : ∀ {q : PSt}, bs.Nodup → (∀ d ∈ bs, (q.st.bundles d).alloc ≠ none) → ∀ c,
    ((bs.foldl evictBundle q).st.bundles c).alloc = if c ∈ bs then none else (q.st.bundles c).alloc := by
  induction bs with
  | nil => intro q _ _ c; simp
  | cons d bs ih =>
    intro q hnd hall c
    rw [List.foldl_cons]
    rw [List.nodup_cons] at hnd
    obtain ⟨p, hp⟩ := Option.ne_none_iff_exists'.mp (hall d (by simp))
    obtain ⟨e1, -⟩ := evictBundle_facts hp
    rw [ih (q := evictBundle q d) hnd.2 (by
      intro c hc
      rw [e1, if_neg (show ¬ c = d from fun hx => hnd.1 (hx ▸ hc))]
      exact hall c (by simp [hc])), e1]
    by_cases h1 : c = d
    · subst h1; simp
    · simp [h1]

/-- After evicting what keeps the bundle from a register, the register is free. -/
theorem Inv.freed (h : Inv P q0 q [b]) {p : PReg} {bs : List Nat} (hw : Whole q b p bs) (hnd : bs.Nodup)
    (hall : ∀ d ∈ bs, d < q.st.nBundles ∧ (q.st.bundles d).alloc ≠ none) : ¬ Blocked P (bs.foldl evictBundle q) b 0 p := by
  have h' := h.evictAll bs hnd hall
  have ha := evictAll_alloc bs hnd (fun d hd => (hall d hd).2)
  obtain ⟨qt, -⟩ := evictAll_facts bs hnd (fun d hd => (hall d hd).2)
  have hrs : rangesOf (bs.foldl evictBundle q).st b = rangesOf q.st b := by unfold rangesOf; rw [(qt.fields b).1]
  rintro (⟨k, hk, r, hr, ho⟩ | ⟨k, i, hk, -, r, hr, ho⟩)
  · rw [hrs] at hr
    exact hw.1 k ((h.core.fixed p k).mpr ((h'.core.fixed p k).mp hk)) r hr ho
  · rw [hrs] at hr
    obtain ⟨c, hl, hc⟩ := h'.core.entry p k i hk
    rw [ha c] at hc
    split at hc
    · cases hc
    · rename_i hcb
      have hl' : Live q.st c ⟨k, i⟩ := ⟨by have := hl.1; rw [qt.nBundles] at this; exact this, by
        have := hl.2; rw [(qt.fields c).1] at this; exact this⟩
      have hm := (h.core.alloc c hl'.1 p hc).2.2.2 _ hl'.2
      have := hw.2 k i hm r hr ho
      rw [(h.core.shape.neat c _ hl').link] at this
      exact hcb this

theorem tryRegs_error (regs : List PReg) : ∀ (x : Best) y, tryRegs P b q regs x = .error y → y = .panic := by
  induction regs with
  | nil => intro x y hy; cases hy
  | cons p ps ih =>
    intro x y hy
    unfold tryRegs at hy
    split at hy
    · cases hy; rfl
    · cases hy
    · exact ih _ _ hy
    · exact ih _ _ hy
    · exact ih _ _ hy

/-- The registers tried for a bundle. -/
def tried (P : Params) (q : PSt) (b : Nat) (cls : RegClass) (fixed hint : Option PReg) : List PReg :=
  match (q.st.bundles b).ranges with
  | [] => []
  | e :: _ => (RegTraversalIter.new P.env cls fixed hint (instOf (q.st.ranges e.index).range.fr + b) (q.st.bundles b).limit).all

theorem resolve_open (hne : (q.st.bundles b).ranges ≠ []) {cls : RegClass} {req : Requirement} {attempts : Nat} {x : Best} :
    (∀ e, resolve P b cls req attempts q x = .error e → e ≠ .panic → (q.st.bundles b).minimal = true ∧ e = stuck P q b cls req ∧
      (attempts < 2 → ∀ c bs, x.evict = some (c, bs) → weight P q.st b ≤ c)) ∧
    ∀ q1, resolve P b cls req attempts q x = .ok (false, q1) → ∃ c bs, x.evict = some (c, bs) ∧ q1 = bs.foldl evictBundle q := by
  obtain ⟨e0, es, hes⟩ := List.exists_cons_of_ne_nil hne
  unfold resolve
  rw [hes]
  dsimp only
  generalize splitAndRequeue q.st b _ _ true = sp
  cases hm : (q.st.bundles b).minimal <;> cases hx : x.evict with
  | none =>
    by_cases hn : x.split.isNone = true <;> cases sp <;> simp_all
  | some s =>
    obtain ⟨c, bs⟩ := s
    by_cases hw : c ≥ weight P q.st b <;> by_cases ha : attempts ≥ 2 <;> cases sp <;> simp_all <;> first | omega | grind

/-- An attempt that does not deal with the bundle. -/
theorem attempt_open (h : Inv P q0 q [b]) {cls : RegClass} {req : Requirement} {fixed hint : Option PReg} {attempts : Nat} :
    (∀ e, attempt P b cls req fixed hint attempts q = .error e → e ≠ .panic →
      (q.st.bundles b).minimal = true ∧ e = stuck P q b cls req ∧
      ∃ x', tryRegs P b q (tried P q b cls fixed hint) ⟨none, none⟩ = .ok (.best x') ∧
        (attempts < 2 → ∀ c bs, x'.evict = some (c, bs) → weight P q.st b ≤ c)) ∧
    ∀ q1, attempt P b cls req fixed hint attempts q = .ok (false, q1) →
      ∃ x' c bs, tryRegs P b q (tried P q b cls fixed hint) ⟨none, none⟩ = .ok (.best x') ∧
        x'.evict = some (c, bs) ∧ q1 = bs.foldl evictBundle q := by
  obtain ⟨b1, b2, b3, b4, b5, b6⟩ := h.busy_lt
  obtain ⟨e0, es, hes⟩ := List.exists_cons_of_ne_nil b3
  unfold attempt tried
  rw [hes]
  dsimp only
  constructor
  · intro e he hne
    split at he
    · exact absurd (Except.error.inj he).symm hne
    · split at he
      · rename_i y hy
        cases he
        exact absurd (tryRegs_error _ _ _ hy) hne
      · cases he
      · rename_i x' hx
        obtain ⟨h1, h2, h3⟩ := (resolve_open b3).1 e he hne
        exact ⟨h1, h2, x', hx, h3⟩
  · intro q1 he
    split at he
    · cases he
    · split at he
      · cases he
      · cases he
      · rename_i x' hx
        obtain ⟨c, bs, h1, h2⟩ := (resolve_open b3).2 q1 he
        exact ⟨x', c, bs, hx, h1, h2⟩

/-- The loop fails at the first attempt, when all registers are blocked. -/
theorem attemptLoop_error (h : Inv P q0 q [b]) {cls : RegClass} {req : Requirement} {fixed hint : Option PReg} {e : PErr}
    (he : attemptLoop P b cls req fixed hint 2 1 q = .error e) (hne : e ≠ .panic) :
    (q.st.bundles b).minimal = true ∧ e = stuck P q b cls req ∧
    ∀ p ∈ tried P q b cls fixed hint, Blocked P q b (weight P q.st b) p := by
  unfold attemptLoop at he
  cases hr : attempt P b cls req fixed hint 1 q with
  | error e' =>
    rw [hr] at he
    cases he
    obtain ⟨h1, h2, x', h3, h4⟩ := (attempt_open h).1 _ hr hne
    exact ⟨h1, h2, fun p hp => (tryRegs_blocked h _ _ _ h3).2.1 p hp _ (h4 (by omega))⟩
  | ok r =>
    rw [hr] at he
    obtain ⟨t, q1⟩ := r
    cases t with
    | true => cases he
    | false =>
      dsimp only at he
      exfalso
      obtain ⟨x1, c, bs, k1, k2, rfl⟩ := (attempt_open h).2 _ hr
      rcases (tryRegs_blocked h _ _ _ k1).2.2 c bs k2 with k3 | ⟨p, hp, k3, k4, k5⟩
      · cases k3
      · have hfree := h.freed k3 k4 k5
        have h' := h.evictAll bs k4 k5
        obtain ⟨qt, -⟩ := evictAll_facts bs k4 (fun d hd => (k5 d hd).2)
        have htried : tried P (bs.foldl evictBundle q) b cls fixed hint = tried P q b cls fixed hint := by
          unfold tried
          rw [(qt.fields b).1, (qt.fields b).2.2.2.1, qt.ranges]
        have hno : ∀ x', tryRegs P b (bs.foldl evictBundle q) (tried P (bs.foldl evictBundle q) b cls fixed hint) ⟨none, none⟩ =
            .ok (.best x') → False := by
          intro x' hx
          exact hfree ((tryRegs_blocked h' _ _ _ hx).2.1 p (by rw [htried]; exact hp) 0 (fun _ _ _ => Nat.zero_le _))
        unfold attemptLoop at he
        cases hr2 : attempt P b cls req fixed hint (1 + 1) (bs.foldl evictBundle q) with
        | error e' =>
          rw [hr2] at he
          cases he
          obtain ⟨-, -, x', h3, -⟩ := (attempt_open h').1 _ hr2 hne
          exact hno _ h3
        | ok r =>
          rw [hr2] at he
          obtain ⟨t, q2⟩ := r
          cases t with
          | true => cases he
          | false =>
            obtain ⟨x', c', bs', h3, -⟩ := (attempt_open h').2 _ hr2
            exact hno _ h3

/-! ### What blocks a bundle -/

theorem weight_minimal_le (h : (q.st.bundles b).minimal = true) (hl : ∀ l, (q.st.bundles b).limit = some l → l ≤ 256) :
    2 ^ 28 - 258 ≤ weight P q.st b := by
  unfold weight
  dsimp only
  rw [if_pos h]
  split
  · omega
  · split
    · rename_i l hl'
      have := hl l hl'
      omega
    · omega

theorem minimal_of_weight {d : Nat} (h : 2 ^ 28 - 258 ≤ weight P q.st d) : (q.st.bundles d).minimal = true := by
  unfold weight at h
  dsimp only at h
  cases hm : (q.st.bundles d).minimal with
  | true => rfl
  | false =>
    rw [hm, if_neg (by simp)] at h
    split at h <;> omega

theorem fixed_of_weight {d : Nat} (h : 2 ^ 28 - 1 ≤ weight P q.st d) : (q.st.bundles d).minimal = true ∧ (q.st.bundles d).fixed = true := by
  have hm := minimal_of_weight (P := P) (q := q) (d := d) (by omega)
  refine ⟨hm, ?_⟩
  unfold weight at h
  dsimp only at h
  rw [if_pos hm] at h
  split at h
  · assumption
  · split at h <;> omega

/-- The use of a minimal bundle. -/
theorem Inv.single (h : Inv P q0 q [b]) {c : Nat} (hc : c < q.st.nBundles) (hs : ¬ IsSpill q.st c) (hm : (q.st.bundles c).minimal = true)
    {u : Use} (hu : u ∈ usesOf q.st c) : ∃ e, (q.st.bundles c).ranges = [e] ∧ (q.st.ranges e.index).uses = [u] ∧
      (∀ x, Covers e.range x → Needed u x) ∧ ((q.st.bundles c).fixed = true ↔ ∃ p, u.op.constraint = .FixedReg p) := by
  obtain ⟨e, he, hu'⟩ := (mem_usesOf _ _ _).mp hu
  obtain ⟨e1, h1, h2⟩ := (h.props c hc hs (List.ne_nil_of_mem he)).2 hm
  rw [h1, List.mem_singleton] at he
  subst he
  rcases h2 with ⟨h2, -⟩ | ⟨u', h2, h3, h4⟩
  · rw [h2] at hu'; cases hu'
  · rw [h2, List.mem_singleton] at hu'
    subst hu'
    exact ⟨e, h1, h2, h3, h4⟩

/-- What blocks the use of a minimal bundle: something that keeps it from the register. The
other bundle is given along. -/
theorem Inv.keeps (h : Inv P q0 q [b]) (hm : (q.st.bundles b).minimal = true) {u : Use} (hu : u ∈ usesOf q.st b) {w : Nat}
    (hw : 2 ^ 28 - 258 ≤ w) {p : PReg} (hb : Blocked P q b w p) :
    ∃ o, Keeps P q0 u p o ∧ ∀ u', o = some u' → ∃ d e, Live q.st d e ∧ u' ∈ (q.st.ranges e.index).uses ∧
      (q.st.bundles d).alloc = some p ∧ w ≤ weight P q.st d ∧
      ((q.st.bundles d).fixed = true ↔ ∃ p, u'.op.constraint = .FixedReg p) := by
  obtain ⟨b1, b2, b3, b4, b5, b6⟩ := h.busy_lt
  obtain ⟨e, s1, s2, s3, s4⟩ := h.single b1 b4 hm hu
  have hrs : rangesOf q.st b = [(e.range, e.index)] := by unfold rangesOf; rw [s1]; rfl
  rcases hb with ⟨k, hk, r, hr, ho⟩ | ⟨k, i, hk, hkw, r, hr, ho⟩
  · rw [hrs, List.mem_singleton] at hr
    subst hr
    dsimp only at ho
    have hn := (h.core.sorted p).1 _ hk
    have hn' := (h.core.shape.neat b e ⟨b1, by rw [s1]; simp⟩).nonempty
    unfold Ov at ho
    refine ⟨none, ⟨k, max k.fr e.range.fr, (h.core.fixed p k).mp hk, ?_, s3 _ ?_⟩, by simp⟩
    · unfold Covers; dsimp only at hn ⊢; omega
    · unfold Covers; omega
  · rw [hrs, List.mem_singleton] at hr
    subst hr
    dsimp only at ho
    unfold Ov at ho
    obtain ⟨d, hl, hd⟩ := h.core.entry p k i hk
    have hlink := (h.core.shape.neat d _ hl).link
    dsimp only at hlink
    rw [hlink, Option.getD_some] at hkw
    have hdm := minimal_of_weight (P := P) (q := q) (d := d) (by omega)
    have hds : ¬ IsSpill q.st d := fun hx => by rw [h.spill_none hx] at hd; cases hd
    obtain ⟨u', hu', hany⟩ := h.used d hl.1 (by rw [hd]; simp)
    obtain ⟨e', t1, t2, t3, t4⟩ := h.single hl.1 hds hdm hu'
    have he' : e' = ⟨k, i⟩ := by
      have := hl.2
      rw [t1, List.mem_singleton] at this
      exact this.symm
    have hn := (h.core.sorted p).1 _ hk
    have hn' := (h.core.shape.neat b e ⟨b1, by rw [s1]; simp⟩).nonempty
    dsimp only at hn
    have hx1 : Needed u (max k.fr e.range.fr) := s3 _ (by unfold Covers; omega)
    have hx2 : Needed u' (max k.fr e.range.fr) := t3 _ (by rw [he']; unfold Covers; dsimp only; omega)
    have hdb : d ≠ b := by rintro rfl; rw [b2] at hd; cases hd
    have hLd : Live q.st d e' := by rw [he']; exact hl
    have hLb : Live q.st b e := ⟨b1, by rw [s1]; simp⟩
    have hinst : u'.pos / 2 = u.pos / 2 := hx2.1.symm.trans hx1.1
    refine ⟨some u', ⟨?_, hinst, ?_, hany, (h.core.alloc d hl.1 p hd).2.2.1 u' hu', _, hx1, hx2⟩, ?_⟩
    · obtain ⟨b0, e0, k1, -, k2⟩ := h.core.shape.use_origin hl.1 hu'
      exact ⟨b0, e0, k1, k2⟩
    · intro hslot
      have := h.core.shape.once d e' b e hLd hLb u' (by rw [t2]; simp) u (by rw [s2]; simp) hinst hslot
      have l1 := (h.core.shape.neat d e' hLd).link
      have l2 := (h.core.shape.neat b e hLb).link
      rw [this.1, l2] at l1
      exact hdb (Option.some.inj l1).symm
    · intro u'' hu''
      cases hu''
      exact ⟨d, e', hLd, by rw [t2]; simp, hd, hkw, t4⟩

/-- One use keeps another from one register only. -/
theorem Inv.keeps_one (h : Inv P q0 q [b]) {u' : Use} {d d' : Nat} {e e' : Entry} {p p' : PReg} (hl : Live q.st d e) (hl' : Live q.st d' e')
    (hu : u' ∈ (q.st.ranges e.index).uses) (hu' : u' ∈ (q.st.ranges e'.index).uses)
    (ha : (q.st.bundles d).alloc = some p) (ha' : (q.st.bundles d').alloc = some p') : p = p' := by
  have := (h.core.shape.once d e d' e' hl hl' u' hu u' hu' rfl rfl).1
  have l1 := (h.core.shape.neat d e hl).link
  have l2 := (h.core.shape.neat d' e' hl').link
  rw [this, l2] at l1
  have : d' = d := Option.some.inj l1
  subst this
  rw [ha] at ha'
  exact Option.some.inj ha'

/-! ### The count -/

theorem countTaken_pos {st : St} {range : RKey} : ∀ {m : PMap}, SortedM m → ∀ k v, (k, v) ∈ m → Ov k range →
    (v = none ∨ ∃ i c, v = some i ∧ (st.ranges i).bundle = some c ∧ (st.bundles c).minimal = true) → 1 ≤ countTaken st range m := by
  intro m
  induction m with
  | nil => intro _ k v h; cases h
  | cons x m ih =>
    intro hs k v hm ho hv
    obtain ⟨k0, v0⟩ := x
    have hs' : SortedM m := ⟨fun e he => hs.1 e (by simp [he]), (List.pairwise_cons.mp hs.2).2⟩
    unfold countTaken
    rcases List.mem_cons.mp hm with heq | hm
    · cases heq
      unfold Ov at ho
      rw [if_neg (by omega), if_neg (by omega)]
      rcases hv with rfl | ⟨i, c, rfl, h1, h2⟩
      · dsimp only; omega
      · dsimp only
        rw [h1]
        dsimp only
        rw [if_pos h2]
        omega
    · have := (List.pairwise_cons.mp hs.2).1 _ hm
      have hn := hs'.1 _ hm
      have hn0 := hs.1 (k0, v0) (by simp)
      dsimp only at this hn hn0
      have h1 := ih hs' k v hm ho hv
      unfold Ov at ho
      split
      · exact h1
      · rw [if_neg (by omega)]
        exact Nat.le_trans h1 (Nat.le_add_left _ _)

theorem sum_ge_filter {α : Type} (l : List α) (f : α → Nat) (g : α → Bool) (h : ∀ x ∈ l, g x = true → 1 ≤ f x) :
    (l.filter g).length ≤ (l.map f).sum := by
  induction l with
  | nil => simp
  | cons x l ih =>
    have := ih (fun y hy => h y (by simp [hy]))
    rw [List.map_cons, List.sum_cons, List.filter_cons]
    split
    · have := h x (by simp) (by assumption)
      rw [List.length_cons]; omega
    · omega

/-- If all registers within the limit are blocked, the loop reports that there are too many
live registers, or fails at the start of the program. -/
theorem stuck_free (h : Inv P q0 q [b]) (hm : (q.st.bundles b).minimal = true) {u : Use} (hu : u ∈ usesOf q.st b) {w : Nat}
    (hw : 2 ^ 28 - 258 ≤ w) {cls : RegClass} {req : Requirement} {limit : Option Nat}
    (hr : (req = .Register ∧ limit = none) ∨ ∃ n, req = .Limit n ∧ limit = some n)
    (hb : ∀ p, (P.env.preferred cls).contains p = true ∨ (P.env.nonPreferred cls).contains p = true →
      RegTraversalIter.within limit p = true → Blocked P q b w p) :
    (stuck P q b cls req = .tooManyLiveRegs) ∨
    (stuck P q b cls req = .underflow ∧ ∃ e, (q.st.bundles b).ranges = [e] ∧ e.range.fr = 0) := by
  obtain ⟨b1, b2, b3, b4, b5, b6⟩ := h.busy_lt
  obtain ⟨e, s1, s2, s3, s4⟩ := h.single b1 b4 hm hu
  have hrs : rangesOf q.st b = [(e.range, e.index)] := by unfold rangesOf; rw [s1]; rfl
  unfold stuck
  dsimp only
  rw [s1]
  dsimp only
  have key : (if e.range.fr = 0 ∧ (P.env.preferred cls).toList ++ (P.env.nonPreferred cls).toList ≠ [] then PErr.underflow
      else if (((P.env.preferred cls).toList ++ (P.env.nonPreferred cls).toList).map (fun p =>
          countTaken q.st e.range (RangeMap.seek (q.maps p) ⟨e.range.fr - 1, e.range.fr - 1⟩))).sum ≥
        (((P.env.preferred cls).toList ++ (P.env.nonPreferred cls).toList).filter (RegTraversalIter.within limit)).length
      then PErr.tooManyLiveRegs else PErr.unallocatable) = .tooManyLiveRegs ∨
      (if e.range.fr = 0 ∧ (P.env.preferred cls).toList ++ (P.env.nonPreferred cls).toList ≠ [] then PErr.underflow
      else if (((P.env.preferred cls).toList ++ (P.env.nonPreferred cls).toList).map (fun p =>
          countTaken q.st e.range (RangeMap.seek (q.maps p) ⟨e.range.fr - 1, e.range.fr - 1⟩))).sum ≥
        (((P.env.preferred cls).toList ++ (P.env.nonPreferred cls).toList).filter (RegTraversalIter.within limit)).length
      then PErr.tooManyLiveRegs else PErr.unallocatable) = .underflow ∧ ∃ e', [e] = [e'] ∧ e'.range.fr = 0 := by
    split
    · rename_i h0
      exact .inr ⟨rfl, e, rfl, h0.1⟩
    · rename_i h0
      left
      rw [if_pos]
      refine sum_ge_filter _ _ _ ?_
      intro p hp hwi
      have hp' : (P.env.preferred cls).contains p = true ∨ (P.env.nonPreferred cls).contains p = true := by
        rcases List.mem_append.mp hp with hp | hp
        · exact .inl (((C06_iteration _).1 p).mp hp)
        · exact .inr (((C06_iteration _).1 p).mp hp)
      have hne : (P.env.preferred cls).toList ++ (P.env.nonPreferred cls).toList ≠ [] := List.ne_nil_of_mem hp
      have hpos : 0 < e.range.fr := by
        rcases Nat.eq_zero_or_pos e.range.fr with hz | hz
        · exact absurd ⟨hz, hne⟩ h0
        · exact hz
      obtain ⟨pre, k1, k2, k3⟩ := RangeMap.seek_spec (h.core.sorted p) (e.range.fr - 1)
      have hsuf : SortedM (RangeMap.seek (q.maps p) ⟨e.range.fr - 1, e.range.fr - 1⟩) := by
        have := h.core.sorted p
        rw [k1] at this
        exact ⟨fun x hx => this.1 x (List.mem_append_right _ hx), (List.pairwise_append.mp this.2).2.1⟩
      have hin : ∀ k v, (k, v) ∈ q.maps p → Ov k e.range → (k, v) ∈ RangeMap.seek (q.maps p) ⟨e.range.fr - 1, e.range.fr - 1⟩ := by
        intro k v hk ho
        rw [k1] at hk
        rcases List.mem_append.mp hk with hk | hk
        · have := k2 _ hk
          unfold Ov at ho
          dsimp only at this
          omega
        · exact hk
      rcases hb p hp' hwi with ⟨k, hk, r, hr, ho⟩ | ⟨k, i, hk, hkw, r, hr, ho⟩
      · rw [hrs, List.mem_singleton] at hr
        subst hr
        exact countTaken_pos hsuf k none (hin k _ hk ho) ho (.inl rfl)
      · rw [hrs, List.mem_singleton] at hr
        subst hr
        obtain ⟨d, hl, hd⟩ := h.core.entry p k i hk
        have hlink := (h.core.shape.neat d _ hl).link
        dsimp only at hlink
        rw [hlink, Option.getD_some] at hkw
        have hdm := minimal_of_weight (P := P) (q := q) (d := d) (by omega)
        exact countTaken_pos hsuf k (some i) (hin k _ hk ho) ho (.inr ⟨i, d, rfl, hlink, hdm⟩)
  rcases hr with ⟨rfl, rfl⟩ | ⟨n, rfl, rfl⟩
  · exact key
  · exact key

/-! ### Why the loop fails -/

/-- What an error of the loop says. -/
def Because (P : Params) (q0 : PSt) (e : PErr) : Prop :=
  (e = .tooManyLiveRegs ∧ Crowded P q0) ∨ (e = .unallocatable ∧ Clash P q0) ∨ (e = .underflow ∧ Crowded P q0 ∧ AtStart q0)

theorem because_fixed (h : Inv P q0 q [b]) {p : PReg} (hu : ∃ u ∈ usesOf q.st b, u.op.constraint = .FixedReg p) {cls : RegClass}
    {hint : Option PReg} {req : Requirement} (hr : req = .FixedReg p ∨ req = .FixedStack p) {e : PErr}
    (he : attemptLoop P b cls req (some p) hint 2 1 q = .error e) (hne : e ≠ .panic) : Because P q0 e := by
  obtain ⟨b1, b2, b3, b4, b5, b6⟩ := h.busy_lt
  obtain ⟨hm, he, hb⟩ := attemptLoop_error h he hne
  obtain ⟨u, hu, hp⟩ := hu
  obtain ⟨e0, s1, s2, s3, s4⟩ := h.single b1 b4 hm hu
  have hw : weight P q.st b = 2 ^ 28 - 1 := by
    unfold weight
    dsimp only
    rw [if_pos hm, if_pos (s4.mpr ⟨p, hp⟩)]
  obtain ⟨o, k1, k2⟩ := h.keeps hm hu (by rw [hw]; omega) (hb p (by unfold tried; rw [s1]; dsimp only; rw [RegTraversalIter.C18_fixed]; simp))
  have he' : e = .unallocatable := by rw [he]; rcases hr with rfl | rfl <;> rfl
  obtain ⟨b0, e1, o1, -, o2⟩ := h.core.shape.use_origin b1 hu
  refine .inr (.inl ⟨he', u, p, o, ⟨b0, e1, o1, o2⟩, hp, k1, ?_⟩)
  intro u' ho
  obtain ⟨d, e2, l1, l2, l3, l4, l5⟩ := k2 u' ho
  obtain ⟨p', hp'⟩ := l5.mp (fixed_of_weight (P := P) (by rw [hw] at l4; exact l4)).2
  subst ho
  have hk : u'.op.constraint.Admits P.env (Place.ofPReg P.env p) := k1.2.2.2.2.1
  rw [hp'] at hk ⊢
  have : Place.ofPReg P.env p = Place.ofPReg P.env p' := hk
  unfold Place.ofPReg at this
  split at this <;> split at this <;> cases this <;> rfl

theorem because_free (h : Inv P q0 q [b]) (hlim : LimitsOk q0.st) {req : Requirement} (hc : compute P.env (q.st.reqUses b) = .ok req)
    (hr : req = .Register ∨ ∃ n, req = .Limit n)
    {hint : Option PReg} {e : PErr}
    (he : attemptLoop P b (q.st.spillsets (q.st.bundles b).spillset).cls req none hint 2 1 q = .error e) (hne : e ≠ .panic) : Because P q0 e := by
  obtain ⟨b1, b2, b3, b4, b5, b6⟩ := h.busy_lt
  obtain ⟨hm, he, hb⟩ := attemptLoop_error h he hne
  have hl : (q.st.bundles b).limit = limOf req := by
    rw [(h.props b b1 b4 b3).1]
    refine (compute_free hc ?_).2
    rcases hr with rfl | ⟨n, rfl⟩ <;> trivial
  obtain ⟨u, hu, hk, hkl⟩ : ∃ u ∈ usesOf q.st b, (u.op.constraint = .Reg ∨ (∃ k, u.op.constraint = .Reuse k) ∨ ∃ n, u.op.constraint = .Limit n) ∧
      ∀ n, limOf req = some n → u.op.constraint = .Limit n := by
    rcases hr with rfl | ⟨n, rfl⟩
    · obtain ⟨u, hu, hk⟩ := compute_register hc
      exact ⟨u, hu, by rcases hk with hk | hk <;> simp [hk], fun n hn => by cases hn⟩
    · obtain ⟨u, hu, hk⟩ := compute_limit hc
      exact ⟨u, hu, .inr (.inr ⟨n, hk⟩), fun n hn => by cases hn; exact hk⟩
  obtain ⟨b0, e0, o1, o2, o3⟩ := h.core.shape.use_origin b1 hu
  have hcls := (h.core.sets (q.st.bundles b).spillset).1
  have hw := weight_minimal_le (P := P) hm (by
    intro l hl'
    rw [hl] at hl'
    have := hlim u ⟨b0, e0, o1, o3⟩ l (hkl l hl')
    have : PReg.MAX = 63 := rfl
    omega)
  obtain ⟨e1, s1, s2, s3, s4⟩ := h.single b1 b4 hm hu
  have hall : ∀ p, (P.env.preferred (q.st.spillsets (q.st.bundles b).spillset).cls).contains p = true ∨
      (P.env.nonPreferred (q.st.spillsets (q.st.bundles b).spillset).cls).contains p = true →
      UnderLimit (limOf req) p → Blocked P q b (weight P q.st b) p := by
    intro p hp hu
    refine hb p ?_
    unfold tried
    rw [s1]
    dsimp only
    rw [RegTraversalIter.C18_yields, hl]
    exact ⟨hu, .inr hp⟩
  have hcrowd : Crowded P q0 := by
    refine ⟨b0, e0, u, o1, o3, hk, ?_⟩
    have hblock : ∀ p, Wants P q0.st b0 u p → ∃ o, Keeps P q0 u p o ∧ ∀ u', o = some u' → ∃ d e, Live q.st d e ∧
        u' ∈ (q.st.ranges e.index).uses ∧ (q.st.bundles d).alloc = some p := by
      intro p hp
      obtain ⟨o, k1, k2⟩ := h.keeps hm hu hw (hall p (by rw [hcls, ← o2]; exact hp.1) (fun n hn => hp.2 n (hkl n hn)))
      refine ⟨o, k1, fun u' ho => ?_⟩
      obtain ⟨d, e2, l1, l2, l3, -⟩ := k2 u' ho
      exact ⟨d, e2, l1, l2, l3⟩
    classical
    refine ⟨fun p => if hp : Wants P q0.st b0 u p then (hblock p hp).choose else none, ?_, ?_⟩
    · intro p hp
      dsimp only
      rw [dif_pos hp]
      exact (hblock p hp).choose_spec.1
    · intro p p' hp hp' heq hnone
      dsimp only at heq hnone
      rw [dif_pos hp] at heq hnone
      rw [dif_pos hp'] at heq
      obtain ⟨u', hu'⟩ := Option.ne_none_iff_exists'.mp hnone
      obtain ⟨d, e2, l1, l2, l3⟩ := (hblock p hp).choose_spec.2 u' hu'
      obtain ⟨d', e2', m1, m2, m3⟩ := (hblock p' hp').choose_spec.2 u' (by rw [← heq]; exact hu')
      exact h.keeps_one l1 m1 l2 m2 l3 m3
  rcases stuck_free h hm hu (cls := (q.st.spillsets (q.st.bundles b).spillset).cls) (req := req) (limit := limOf req) hw
      (by rcases hr with rfl | ⟨n, rfl⟩ <;> [exact .inl ⟨rfl, rfl⟩; exact .inr ⟨n, rfl, rfl⟩])
      (fun p hp hwi => hall p hp ((RegTraversalIter.within_iff _ _).mp hwi)) with hx | ⟨hx, e2, hx2, hx3⟩
  · exact .inl ⟨he.trans hx, hcrowd⟩
  · refine .inr (.inr ⟨he.trans hx, hcrowd, ?_⟩)
    obtain ⟨b0', e0', m1, m2⟩ := h.core.shape.origin b e2 ⟨b1, by rw [hx2]; simp⟩
    have he21 : e2 = e1 := by rw [s1] at hx2; exact (List.cons.inj hx2).1.symm
    have hn := (h.core.shape.neat b e1 ⟨b1, by rw [s1]; simp⟩).nonempty
    have := m2.start
    refine ⟨b0', e0', u, m1, m2.uses u ?_, by omega, s3 0 ?_, hk⟩
    · rw [he21, s2]; simp
    · rw [he21] at hx3
      unfold Covers
      omega

theorem processBundle_error (h : Inv P q0 q [b]) (hlim : LimitsOk q0.st) {hint0 : Option PReg} {e : PErr}
    (he : processBundle P q b hint0 = .error e) (hne : e ≠ .panic) : Because P q0 e := by
  unfold processBundle at he
  dsimp only at he
  cases hc : compute P.env (q.st.reqUses b) with
  | error c =>
    rw [hc] at he
    dsimp only at he
    split at he
    · exact absurd (Except.error.inj he).symm hne
    · split at he
      · exact absurd (Except.error.inj he).symm hne
      · cases he
  | ok r =>
    rw [hc] at he
    cases r with
    | Any =>
      dsimp only at he
      split at he
      · cases he
      · split at he
        · exact absurd (Except.error.inj he).symm hne
        · cases he
    | Stack =>
      dsimp only at he
      split at he
      · exact absurd (Except.error.inj he).symm hne
      · cases he
    | FixedReg p => exact because_fixed h (compute_fixedReg hc).2 (.inl rfl) he hne
    | FixedStack p => exact because_fixed h (compute_fixedStack hc).2 (.inr rfl) he hne
    | Register => exact because_free h hlim hc (.inl rfl) he hne
    | Limit n => exact because_free h hlim hc (.inr ⟨n, rfl⟩) he hne

theorem processBundles_error (hP : Setting P q0.st) (hlim : LimitsOk q0.st) (fuel : Nat) : ∀ {q : PSt}, Inv P q0 q [] → ∀ e,
    processBundles P fuel q = .error e → e = .panic ∨ e = .fuel ∨ Because P q0 e := by
  induction fuel with
  | zero =>
    intro q h e he
    unfold processBundles at he
    cases hp : popMax q.st.queue with
    | none => rw [hp] at he; cases he
    | some r => rw [hp] at he; cases he; exact .inr (.inl rfl)
  | succ fuel ih =>
    intro q h e he
    unfold processBundles at he
    cases hp : popMax q.st.queue with
    | none => rw [hp] at he; cases he
    | some r =>
      obtain ⟨⟨b, prio, hint⟩, rest⟩ := r
      rw [hp] at he
      dsimp only at he
      obtain ⟨h1, h2⟩ := h.pop hp
      have h3 := processBundle_spec hP h1 hint h2
      cases hr : processBundle P { q with st := { q.st with queue := rest } } b hint with
      | error e' =>
        rw [hr] at he
        cases he
        by_cases hpa : e = .panic
        · exact .inl hpa
        · exact .inr (.inr (processBundle_error h1 hlim hr hpa))
      | ok q' =>
        rw [hr] at he h3
        exact ih h3.1 e he

theorem allocate_error (hP : Setting P q0.st) (hr : Ready q0) (hlim : LimitsOk q0.st) (fuel : Nat) (e : PErr)
    (he : allocate P fuel q0 = .error e) : e = .panic ∨ e = .fuel ∨ Because P q0 e := by
  obtain ⟨st, h1, -, h2⟩ := hr.queued (P := P)
  have h3 := processBundles_spec hP fuel h2
  have h4 := processBundles_error hP hlim fuel h2
  unfold allocate at he
  rw [h1] at he
  dsimp only at he
  cases hb : processBundles P fuel { q0 with st := st } with
  | error e' =>
    rw [hb] at he
    cases he
    exact h4 _ hb
  | ok q1 =>
    rw [hb] at h3 he
    obtain ⟨q2, h5, -⟩ := h3.1.spilledAll h3.2
    have : (Except.ok q1 >>= fun q => trySpilledAll P q) = trySpilledAll P q1 := rfl
    rw [this, h5] at he
    cases he

end
end Regalloc.Ion
