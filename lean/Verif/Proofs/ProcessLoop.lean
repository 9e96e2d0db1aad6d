import Verif.Proofs.ProcessInv
import Verif.Props.RegTraversal

/-
One turn of the allocation loop. Helper lemmas for C40.
-/
namespace Regalloc.Ion

open PregMap (PMap ScanEnv tryAlloc Ov)
open Requirement (compute)

/-- Only registers, hints and the lists differ. -/
structure Quiet (st st' : St) : Prop where
  ranges : st'.ranges = st.ranges
  nRanges : st'.nRanges = st.nRanges
  nBundles : st'.nBundles = st.nBundles
  bundles : ∀ c, { st'.bundles c with alloc := (st.bundles c).alloc } = st.bundles c
  nSets : st'.nSpillsets = st.nSpillsets
  splits : ∀ t, (st'.spillsets t).splits = (st.spillsets t).splits ∧ (st'.spillsets t).spillBundle = (st.spillsets t).spillBundle

theorem Quiet.refl (st : St) : Quiet st st := ⟨rfl, rfl, rfl, fun _ => rfl, rfl, fun _ => ⟨rfl, rfl⟩⟩

theorem Quiet.trans {a b c : St} (h : Quiet a b) (h' : Quiet b c) : Quiet a c :=
  ⟨h'.ranges.trans h.ranges, h'.nRanges.trans h.nRanges, h'.nBundles.trans h.nBundles, fun x => (by rw [← h.bundles x, ← h'.bundles x]),
    h'.nSets.trans h.nSets, fun t => ⟨(h'.splits t).1.trans (h.splits t).1, (h'.splits t).2.trans (h.splits t).2⟩⟩

theorem Quiet.fields {a b : St} (h : Quiet a b) (c : Nat) : (b.bundles c).ranges = (a.bundles c).ranges ∧
    (b.bundles c).minimal = (a.bundles c).minimal ∧ (b.bundles c).fixed = (a.bundles c).fixed ∧ (b.bundles c).limit = (a.bundles c).limit ∧
    (b.bundles c).prio = (a.bundles c).prio ∧ (b.bundles c).spillset = (a.bundles c).spillset := by
  rw [← h.bundles c]
  exact ⟨rfl, rfl, rfl, rfl, rfl, rfl⟩

theorem Quiet.weight {P : Params} {a b : St} (hP : LocalTotal P) (h : Quiet a b) (c : Nat) : weight P b c = weight P a c := by
  obtain ⟨h1, h2, h3, h4, h5, -⟩ := h.fields c
  unfold Ion.weight
  dsimp only
  rw [h2, h3, h4, h5, hP a b c h1 (fun _ _ => by rw [h.ranges])]

/-- How a turn of the loop ends: the bundle at hand was cut up, or it got a place, and
bundles of smaller weight may have lost theirs. -/
inductive Moved (P : Params) (q : PSt) (b : Nat) (q' : PSt) : Prop
  | cut (q1 : PSt) (same : Quiet q.st q1.st) (hint : Option PReg) (r : Recut q1.st b hint q'.st) (rq : Requeued q1.st b hint q'.st)
      (hm : (q.st.bundles b).minimal = false)
  | kept (same : Quiet q.st q'.st) (bs : List Nat) (queue : q'.st.queue.map (·.1) = q.st.queue.map (·.1) ++ bs)
      (lower : ∀ d ∈ bs, d < q.st.nBundles ∧ Ion.weight P q.st d < Ion.weight P q.st b)

/-- The bundle at hand was handed over to its spill bundle. -/
structure Spilt (q : PSt) (b : Nat) (q' : PSt) : Prop where
  recut : ∃ hint, Recut q.st b hint q'.st ∧ Requeued q.st b hint q'.st
  num : q'.st.nBundles = q.st.nBundles
  queue : q'.st.queue = q.st.queue
  gone : (q'.st.bundles b).ranges = []

section
variable {P : Params} {q0 q : PSt} {b : Nat}

/-! ### The scan over registers -/

theorem maxWeightIn_le (P : Params) (st : St) (bs : List Nat) : ∀ d ∈ bs, weight P st d ≤ maxWeightIn P st bs := by
  unfold maxWeightIn
  have key : ∀ (bs : List Nat) (m : Nat), m ≤ bs.foldl (fun m b => max m (weight P st b)) m ∧
      ∀ d ∈ bs, weight P st d ≤ bs.foldl (fun m b => max m (weight P st b)) m := by
    intro bs
    induction bs with
    | nil => intro m; simp
    | cons x xs ih =>
      intro m
      rw [List.foldl_cons]
      obtain ⟨h1, h2⟩ := ih (max m (weight P st x))
      refine ⟨by omega, ?_⟩
      intro d hd
      rcases List.mem_cons.mp hd with rfl | hd
      · omega
      · exact h2 d hd
  exact (key bs 0).2

/-- What the scan has found so far. -/
structure BestOk (P : Params) (q0 q : PSt) (b : Nat) (x : Best) : Prop where
  evict : ∀ c bs, x.evict = some (c, bs) → bs.Nodup ∧ c = maxWeightIn P q.st bs ∧
    ∀ d ∈ bs, d < q.st.nBundles ∧ (q.st.bundles d).alloc ≠ none
  split : ∀ c a p, x.split = some (c, a, p) → (∃ e ∈ (q.st.bundles b).ranges, a < e.range.to) ∧
    Eligible P.env q0.st (q.st.bundles b).spillset p
  both : x.evict ≠ none → x.split ≠ none

theorem lower_cases {α : Type} (old : Option (Nat × α)) (cost : Nat) (x : α) :
    lower old cost x = some (cost, x) ∨ (lower old cost x = old ∧ old ≠ none) := by
  unfold lower
  cases old with
  | none => exact .inl rfl
  | some y =>
    dsimp only
    split
    · exact .inl rfl
    · exact .inr ⟨rfl, by simp⟩

theorem lower_some {α : Type} (old : Option (Nat × α)) (cost : Nat) (x : α) : lower old cost x ≠ none := by
  rcases lower_cases old cost x with h | ⟨h, h'⟩
  · rw [h]; simp
  · rw [h]; exact h'

/-- The bundle of a range in a register's map. -/
theorem Inv.mapped (h : Inv P q0 q [b]) {mc : Option Nat} {p : PReg} {k : RKey} {i : Nat} (hi : (k, some i) ∈ q.maps p) :
    (scanEnv P q.st mc).bundleOf i < q.st.nBundles ∧ (q.st.bundles ((scanEnv P q.st mc).bundleOf i)).alloc ≠ none := by
  obtain ⟨c, hl, ha⟩ := h.core.entry p k i hi
  have := (h.core.shape.neat c _ hl).link
  dsimp only at this
  unfold scanEnv
  dsimp only
  rw [this]
  exact ⟨hl.1, by rw [Option.getD_some, ha]; simp⟩

theorem tryRegs_spec (h : Inv P q0 q [b]) (hany : ∃ u ∈ usesOf q.st b, u.op.constraint ≠ .Any) : ∀ (regs : List PReg) (x : Best),
    (∀ p ∈ regs, Eligible P.env q0.st (q.st.bundles b).spillset p ∧
      ∀ u ∈ usesOf q.st b, u.op.constraint.Admits P.env (Place.ofPReg P.env p)) → BestOk P q0 q b x →
    (∃ q', tryRegs P b q regs x = .ok (.done q') ∧ Inv P q0 q' [] ∧ Quiet q.st q'.st ∧ q'.st.queue = q.st.queue) ∨
    ∃ x', tryRegs P b q regs x = .ok (.best x') ∧ BestOk P q0 q b x' ∧ (regs ≠ [] ∨ x.split ≠ none → x'.split ≠ none) := by
  obtain ⟨b1, b2, b3, b4, b5, b6⟩ := h.busy_lt
  intro regs
  induction regs with
  | nil => intro x _ hx; exact .inr ⟨x, rfl, hx, fun h => h.resolve_left (fun h => h rfl)⟩
  | cons p ps ih =>
    intro x hregs hx
    obtain ⟨hp1, hp2⟩ := hregs p (by simp)
    have hps : ∀ p ∈ ps, Eligible P.env q0.st (q.st.bundles b).spillset p ∧
      ∀ u ∈ usesOf q.st b, u.op.constraint.Admits P.env (Place.ofPReg P.env p) := fun r hr => hregs r (by simp [hr])
    have hne : rangesOf q.st b ≠ [] := by unfold rangesOf; simpa using b3
    have hov : ∀ (k : RKey) (r : RKey × Nat), r ∈ rangesOf q.st b → k.fr < r.1.to → ∃ e ∈ (q.st.bundles b).ranges, k.fr < e.range.to := by
      intro k r hr hk
      obtain ⟨e, he, rfl⟩ := List.mem_map.mp hr
      exact ⟨e, he, hk⟩
    unfold tryRegs
    rcases PregMap.tryAlloc_spec (se := scanEnv P q.st x.limit) (h.core.sorted p)
      (rangesOf_sorted (h.core.shape.tidy b b1 b4)) hne with ⟨m, h1, h2, h3, h4⟩ | ⟨cs, a, h1, h2, h3, h4, h5, h6, h7, h8⟩ | ⟨r, h1, h2⟩
    · rw [h1]
      refine .inl ⟨_, rfl, h.take hp1 hp2 h3 h4 hany, ?_, rfl⟩
      unfold PSt.take PSt.setMap St.modB St.modS
      refine ⟨rfl, rfl, rfl, ?_, rfl, ?_⟩
      · intro c
        dsimp only
        by_cases hcb : c = b
        · subst hcb; rw [upd_same]
        · rw [upd_ne _ _ hcb]
      · intro t
        dsimp only
        rw [upd_same]
        dsimp only
        by_cases ht : t = (q.st.bundles b).spillset
        · subst ht; rw [upd_same]; exact ⟨rfl, rfl⟩
        · rw [upd_ne _ _ ht]; exact ⟨rfl, rfl⟩
    · rw [h1]
      dsimp only
      have hx' : BestOk P q0 q b ⟨lower x.evict (maxWeightIn P q.st cs) cs, lower x.split (maxWeightIn P q.st cs + moveCost P a) (a, p)⟩ := by
        refine ⟨?_, ?_, fun _ => lower_some _ _ _⟩
        · intro c bs hc
          dsimp only at hc
          rcases lower_cases x.evict (maxWeightIn P q.st cs) cs with hl | ⟨hl, -⟩
          · rw [hl] at hc
            cases hc
            refine ⟨h3, rfl, ?_⟩
            intro d hd
            obtain ⟨e, i, hi, rfl, -⟩ := (h4 d).mp hd
            exact h.mapped hi
          · rw [hl] at hc; exact hx.evict c bs hc
        · intro c a' p' hc
          dsimp only at hc
          rcases lower_cases x.split (maxWeightIn P q.st cs + moveCost P a) (a, p) with hl | ⟨hl, -⟩
          · rw [hl] at hc
            cases hc
            refine ⟨?_, hp1⟩
            obtain ⟨y, -, r, hr, ⟨ho1, ho2⟩, rfl⟩ := h8
            obtain ⟨e, he, rfl⟩ := List.mem_map.mp hr
            have := h.core.shape.neat b e ⟨b1, he⟩
            have hn := this.nonempty
            exact ⟨e, he, by dsimp only at ho1 ⊢; omega⟩
          · rw [hl] at hc; exact hx.split c a' p' hc
      rcases ih _ hps hx' with h9 | ⟨x', h9, h10, h11⟩
      · exact .inl h9
      · exact .inr ⟨x', h9, h10, fun _ => h11 (.inr (lower_some _ _ _))⟩
    · cases r with
      | Allocated m => exact absurd h2 (by simp [PregMap.RetOk])
      | Conflict cs a => exact absurd h2 (by simp [PregMap.RetOk])
      | ConflictWithFixed w a =>
        rw [h1]
        dsimp only
        obtain ⟨e, r, -, hr, ho, rfl, -⟩ := h2
        have hx' : BestOk P q0 q b { x with split := lower x.split (w + moveCost P e.fr) (e.fr, p) } := by
          refine ⟨hx.evict, ?_, fun _ => lower_some _ _ _⟩
          intro c a' p' hc
          dsimp only at hc
          rcases lower_cases x.split (w + moveCost P e.fr) (e.fr, p) with hl | ⟨hl, -⟩
          · rw [hl] at hc
            cases hc
            obtain ⟨r', hr', rfl⟩ := List.mem_map.mp hr
            exact ⟨hov e r' hr' ho.1, hp1⟩
          · rw [hl] at hc; exact hx.split c a' p' hc
        rcases ih _ hps hx' with h9 | ⟨x', h9, h10, h11⟩
        · exact .inl h9
        · exact .inr ⟨x', h9, h10, fun _ => h11 (.inr (lower_some _ _ _))⟩
      | ConflictHighCost =>
        rw [h1]
        dsimp only
        have hsome : x.split ≠ none := by
          obtain ⟨c, hc, -⟩ := h2
          unfold scanEnv Best.limit at hc
          dsimp only at hc
          intro hn
          rw [hn] at hc
          split at hc
          · rename_i heq; cases heq
          · cases hc
        rcases ih x hps hx with h9 | ⟨x', h9, h10, h11⟩
        · exact .inl h9
        · exact .inr ⟨x', h9, h10, fun _ => h11 (.inr hsome)⟩

/-! ### Where to split -/

theorem hoist_le {st0 : St} (hP : Setting P st0) {start a : Nat} (h : start ≤ a) (ha : a < 2 * P.numInsts) :
    start ≤ hoist P start a ∧ hoist P start a ≤ a := by
  unfold hoist
  dsimp only
  split
  · split
    · rename_i k hk
      have h1 := List.mem_of_find?_eq_some hk
      rw [List.mem_filter, List.mem_range] at h1
      simp only [decide_eq_true_eq] at h1
      unfold instOf at h1
      have := hP.blocks (start / 2) (a / 2) k (by omega) (by omega) h1.2 (by omega)
      omega
    · exact ⟨h, Nat.le_refl _⟩
  · exact ⟨h, Nat.le_refl _⟩

theorem tidy_first {es : List Entry} (ht : Tidy es) {first e : Entry} (hf : es.head? = some first) (he : e ∈ es) :
    first.range.fr ≤ e.range.fr := by
  obtain ⟨xs, rfl⟩ := List.head?_eq_some_iff.mp hf
  obtain ⟨c1, -, c3⟩ := tidy_cons.mp ht
  rcases List.mem_cons.mp he with rfl | he
  · exact Nat.le_refl _
  · have := c3 e he; omega

theorem tidy_last {es : List Entry} (ht : Tidy es) {last e : Entry} (hl : es.getLast? = some last) (he : e ∈ es) :
    e.range.to ≤ last.range.to := by
  obtain ⟨xs, rfl⟩ := List.getLast?_eq_some_iff.mp hl
  rcases List.mem_append.mp he with he | he
  · have h1 := (List.pairwise_append.mp ht.2).2.2 e he last (by simp)
    have h2 := ht.1 last (by simp)
    omega
  · rw [List.mem_singleton] at he; rw [he]; exact Nat.le_refl _

/-- Every range ends within the program. -/
theorem Shape.inside {st0 st : St} (h : Shape st0 st) (hP : Setting P st0) {c : Nat} {e : Entry} (hl : Live st c e) :
    e.range.to ≤ 2 * P.numInsts := by
  obtain ⟨b0, e0, h0, ho⟩ := h.origin c e hl
  exact Nat.le_trans ho.stop (hP.inside b0 e0 h0)

/-! ### One attempt -/

/-- What an attempt may do. -/
def AttemptOk (P : Params) (q0 q : PSt) (b : Nat) (last supply : Prop) : Except PErr (Bool × PSt) → Prop
  | .ok (true, q') => Inv P q0 q' [] ∧ Moved P q b q'
  | .ok (false, q') => ¬ last ∧ Inv P q0 q' [b] ∧ Quiet q.st q'.st ∧
      ∃ bs : List Nat, q'.st.queue.map (·.1) = q.st.queue.map (·.1) ++ bs ∧
        ∀ d ∈ bs, d < q.st.nBundles ∧ Ion.weight P q.st d < Ion.weight P q.st b
  | .error e => e ≠ .fuel ∧ (supply → e ≠ .panic)

theorem evictAll_facts (bs : List Nat) : ∀ {q : PSt}, bs.Nodup → (∀ d ∈ bs, (q.st.bundles d).alloc ≠ none) →
    Quiet q.st (bs.foldl evictBundle q).st ∧ (bs.foldl evictBundle q).st.queue.map (·.1) = q.st.queue.map (·.1) ++ bs := by
  induction bs with
  | nil => intro q _ _; exact ⟨Quiet.refl _, by simp⟩
  | cons d bs ih =>
    intro q hnd hall
    rw [List.foldl_cons]
    rw [List.nodup_cons] at hnd
    obtain ⟨p, hp⟩ := Option.ne_none_iff_exists'.mp (hall d (by simp))
    obtain ⟨e1, e2, e3, e4, e5, e6, e7, e8⟩ := evictBundle_facts hp
    obtain ⟨h1, h2⟩ := ih (q := evictBundle q d) hnd.2 (by
      intro c hc
      rw [e1, if_neg (show ¬ c = d from fun hx => hnd.1 (hx ▸ hc))]
      exact hall c (by simp [hc]))
    refine ⟨Quiet.trans ⟨e2, e3, e4, ?_, ?_, fun t => by rw [e6]; exact ⟨rfl, rfl⟩⟩ h1, ?_⟩
    · intro c
      rw [e1]
      split
      · subst_vars; rfl
      · rfl
    · unfold evictBundle; rw [hp]; rfl
    · rw [h2, e8]; simp

theorem stuck_errors (P : Params) (q : PSt) (cls : RegClass) (req : Requirement) (hne : (q.st.bundles b).ranges ≠ []) :
    stuck P q b cls req ≠ .fuel ∧ stuck P q b cls req ≠ .panic := by
  obtain ⟨e, es, he⟩ := List.exists_cons_of_ne_nil hne
  unfold stuck
  dsimp only
  rw [he]
  dsimp only
  cases req <;> dsimp only <;> (repeat' split) <;> exact ⟨(by intro hc; cases hc), (by intro hc; cases hc)⟩

theorem resolve_spec (hP : Setting P q0.st) (h : Inv P q0 q [b]) (cls : RegClass) (req : Requirement) (attempts : Nat) {x : Best}
    (hx : BestOk P q0 q b x) (supply : Prop) (hsup : supply → x.split ≠ none) :
    AttemptOk P q0 q b (2 ≤ attempts) supply (resolve P b cls req attempts q x) := by
  obtain ⟨b1, b2, b3, b4, b5, b6⟩ := h.busy_lt
  have hcut : AttemptOk P q0 q b (2 ≤ attempts) supply (if (q.st.bundles b).minimal then .error (stuck P q b cls req)
      else
        match (q.st.bundles b).ranges with
        | [] => .error .panic
        | e :: _ =>
          match splitAndRequeue q.st b (hoist P e.range.fr (max (match x.split with
            | some (_, p, _) => p
            | none => 0) e.range.fr)) (x.split.map (fun s => s.2.2)) true with
          | none => .error .panic
          | some st => .ok (true, { q with st := st })) := by
    split
    · exact ⟨(stuck_errors P q cls req b3).1, fun _ => (stuck_errors P q cls req b3).2⟩
    · rename_i hmin
      obtain ⟨e, es, he⟩ := List.exists_cons_of_ne_nil b3
      have hf : (q.st.bundles b).ranges.head? = some e := by rw [he]; rfl
      obtain ⟨last, hl⟩ : ∃ last, (q.st.bundles b).ranges.getLast? = some last := ⟨_, List.getLast?_eq_some_getLast b3⟩
      have ht := h.core.shape.tidy b b1 b4
      have hem : e ∈ (q.st.bundles b).ranges := by rw [he]; simp
      have hne := (h.core.shape.neat b e ⟨b1, hem⟩).nonempty
      have hlast := h.core.shape.inside hP (c := b) (e := last) ⟨b1, List.mem_of_getLast? hl⟩
      have helast := tidy_last ht hl hem
      have hat : ∀ a0, (∃ e' ∈ (q.st.bundles b).ranges, a0 < e'.range.to) ∨ a0 = 0 →
          e.range.fr ≤ hoist P e.range.fr (max a0 e.range.fr) ∧ hoist P e.range.fr (max a0 e.range.fr) < last.range.to := by
        intro a0 ha0
        have hlt : max a0 e.range.fr < last.range.to := by
          rcases ha0 with ⟨e', he', hlt⟩ | rfl
          · have := tidy_last ht hl he'; omega
          · omega
        obtain ⟨h1, h2⟩ := hoist_le hP (start := e.range.fr) (a := max a0 e.range.fr) (by omega) (by omega)
        omega
      rw [he]
      dsimp only
      cases hs : x.split with
      | none =>
        dsimp only
        obtain ⟨st', h1, h2, h3, h4⟩ := h.split (hint := none) (trim := true) (by simpa using hmin) hf hl (hat 0 (.inr rfl)) (by simp)
        simp only [Option.map_none]
        rw [h1]
        exact ⟨h4, .cut q (Quiet.refl _) none h2 h3 (by simpa using hmin)⟩
      | some s =>
        obtain ⟨c, a, p⟩ := s
        dsimp only
        obtain ⟨k1, k2⟩ := hx.split c a p hs
        obtain ⟨st', h1, h2, h3, h4⟩ := h.split (hint := some p) (trim := true) (by simpa using hmin) hf hl (hat a (.inl k1))
          (fun r hr => by cases hr; exact k2)
        simp only [Option.map_some]
        rw [h1]
        exact ⟨h4, .cut q (Quiet.refl _) (some p) h2 h3 (by simpa using hmin)⟩
  unfold resolve
  dsimp only
  split
  · rename_i hn
    refine ⟨by simp, fun hs => ?_⟩
    have := hsup hs
    exact absurd (by simpa using hn.1) this
  · cases he : x.evict with
    | none =>
      dsimp only
      rw [if_pos (Or.inr rfl)]
      exact hcut
    | some s =>
      obtain ⟨c, bs⟩ := s
      dsimp only
      split
      · exact hcut
      · rename_i hcond
        rw [not_or] at hcond
        obtain ⟨k1, k2, k3⟩ := hx.evict c bs he
        have hw : c < Ion.weight P q.st b := by
          have := hcond.2; simpa using this
        obtain ⟨f1, f2⟩ := evictAll_facts bs k1 (fun d hd => (k3 d hd).2)
        refine ⟨by omega, h.evictAll bs k1 k3, f1, bs, f2, ?_⟩
        intro d hd
        have := maxWeightIn_le P q.st bs d hd
        exact ⟨(k3 d hd).1, by omega⟩

theorem numInsts_pos (hP : Setting P q0.st) (h : Inv P q0 q [b]) : 1 ≤ P.numInsts := by
  obtain ⟨b1, b2, b3, b4, b5, b6⟩ := h.busy_lt
  obtain ⟨e, es, he⟩ := List.exists_cons_of_ne_nil b3
  have hl : Live q.st b e := ⟨b1, by rw [he]; simp⟩
  have h1 := h.core.shape.inside hP hl
  have h2 := (h.core.shape.neat b e hl).nonempty
  omega

theorem attempt_spec (hP : Setting P q0.st) (h : Inv P q0 q [b]) (cls : RegClass) (req : Requirement) (fixed hint : Option PReg)
    (attempts : Nat) (ha : attempts ≤ 2) (supply : Prop) (hany : ∃ u ∈ usesOf q.st b, u.op.constraint ≠ .Any)
    (hregs : ∀ off, ∀ p ∈ (RegTraversalIter.new P.env cls fixed hint off (q.st.bundles b).limit).all,
      Eligible P.env q0.st (q.st.bundles b).spillset p ∧ ∀ u ∈ usesOf q.st b, u.op.constraint.Admits P.env (Place.ofPReg P.env p))
    (hsup : supply → ∀ off, (RegTraversalIter.new P.env cls fixed hint off (q.st.bundles b).limit).all ≠ []) :
    AttemptOk P q0 q b (2 ≤ attempts) supply (attempt P b cls req fixed hint attempts q) := by
  have hn := numInsts_pos hP h
  obtain ⟨b1, b2, b3, b4, b5, b6⟩ := h.busy_lt
  obtain ⟨e, es, he⟩ := List.exists_cons_of_ne_nil b3
  unfold attempt
  rw [if_neg (by omega), he]
  dsimp only
  have hs := hsup
  generalize hoff : instOf (q.st.ranges e.index).range.fr + b = off at *
  rcases tryRegs_spec h hany _ ⟨none, none⟩ (hregs off) ⟨by simp, by simp, by simp⟩ with ⟨q', h1, h2, h3, h4⟩ | ⟨x', h1, h2, h3⟩
  · rw [h1]
    dsimp only
    exact ⟨h2, .kept h3 [] (by rw [h4]; simp) (by simp)⟩
  · rw [h1]
    dsimp only
    exact resolve_spec hP h cls req attempts h2 supply (fun hs => h3 (.inl (hsup hs off)))

/-- What processing a bundle may do. -/
def TurnOk (P : Params) (q0 q : PSt) (b : Nat) (supply : Prop) : Except PErr PSt → Prop
  | .ok q' => Inv P q0 q' [] ∧ (LocalTotal P → Moved P q b q' ∨ Spilt q b q')
  | .error e => e ≠ .fuel ∧ (supply → e ≠ .panic)

/-- Two attempts suffice. -/
theorem attemptLoop_spec (hP : Setting P q0.st) (h : Inv P q0 q [b]) (cls : RegClass) (req : Requirement) (fixed hint : Option PReg)
    (supply : Prop) (hany : ∃ u ∈ usesOf q.st b, u.op.constraint ≠ .Any)
    (hregs : ∀ off, ∀ p ∈ (RegTraversalIter.new P.env cls fixed hint off (q.st.bundles b).limit).all,
      Eligible P.env q0.st (q.st.bundles b).spillset p ∧ ∀ u ∈ usesOf q.st b, u.op.constraint.Admits P.env (Place.ofPReg P.env p))
    (hsup : supply → ∀ off, (RegTraversalIter.new P.env cls fixed hint off (q.st.bundles b).limit).all ≠ []) :
    TurnOk P q0 q b supply (attemptLoop P b cls req fixed hint 2 1 q) := by
  have h1 := attempt_spec hP h cls req fixed hint 1 (by omega) supply hany hregs hsup
  unfold attemptLoop
  cases hr : attempt P b cls req fixed hint 1 q with
  | error e => rw [hr] at h1; exact h1
  | ok r =>
    rw [hr] at h1
    obtain ⟨t, q1⟩ := r
    cases t with
    | true => exact ⟨h1.1, fun _ => .inl h1.2⟩
    | false =>
      obtain ⟨-, i1, qt, bs, k1, k3⟩ := h1
      dsimp only
      have hf := qt.fields b
      have hu : usesOf q1.st b = usesOf q.st b := usesOf_congr hf.1 (fun _ _ => by rw [qt.ranges])
      have h2 := attempt_spec hP i1 cls req fixed hint 2 (by omega) supply (by rw [hu]; exact hany)
        (by rw [hf.2.2.2.1, hf.2.2.2.2.2, hu]; exact hregs) (by rw [hf.2.2.2.1]; exact hsup)
      unfold attemptLoop
      cases hr2 : attempt P b cls req fixed hint (1 + 1) q1 with
      | error e => rw [hr2] at h2; exact h2
      | ok r =>
        rw [hr2] at h2
        obtain ⟨t, q2⟩ := r
        cases t with
        | false => exact absurd (by omega) h2.1
        | true =>
          refine ⟨h2.1, fun hT => .inl ?_⟩
          rcases h2.2 with ⟨q3, same, hint, r, rq, hm⟩ | ⟨same, bs', e1, e3⟩
          · exact .cut q3 (qt.trans same) hint r rq (by rw [← hf.2.1]; exact hm)
          · refine .kept (qt.trans same) (bs ++ bs') (by rw [e1, k1, List.append_assoc]) ?_
            intro d hd
            rcases List.mem_append.mp hd with hd | hd
            · exact k3 d hd
            · have := e3 d hd
              rw [qt.weight hT, qt.weight hT, qt.nBundles] at this
              exact this

/-! ### A turn -/

/-- A use of a bundle was there from the start. -/
theorem Shape.use_origin {st0 st : St} (h : Shape st0 st) {c : Nat} (hc : c < st.nBundles) {u : Use} (hu : u ∈ usesOf st c) :
    ∃ b0 e0, Live st0 b0 e0 ∧ (st0.bundles b0).spillset = (st.bundles c).spillset ∧ u ∈ (st0.ranges e0.index).uses := by
  obtain ⟨e, he, hu⟩ := (mem_usesOf _ _ _).mp hu
  obtain ⟨b0, e0, h0, ho⟩ := h.origin c e ⟨hc, he⟩
  exact ⟨b0, e0, h0, ho.set.symm, ho.uses u hu⟩

/-- The registers tried for a bundle that asks for a fixed place. -/
theorem fixed_regs (h : Inv P q0 q [b]) {p : PReg} {r : Requirement} (hc : compute P.env (q.st.reqUses b) = .ok r)
    (hu : ∃ u ∈ usesOf q.st b, u.op.constraint = .FixedReg p) (ha : r.Admits (Place.ofPReg P.env p)) (cls : RegClass) (hint : Option PReg) :
    ∀ off, (∀ p' ∈ (RegTraversalIter.new P.env cls (some p) hint off (q.st.bundles b).limit).all,
      Eligible P.env q0.st (q.st.bundles b).spillset p' ∧ ∀ u ∈ usesOf q.st b, u.op.constraint.Admits P.env (Place.ofPReg P.env p')) ∧
      (RegTraversalIter.new P.env cls (some p) hint off (q.st.bundles b).limit).all ≠ [] := by
  intro off
  rw [RegTraversalIter.C18_fixed]
  refine ⟨?_, by simp⟩
  intro p' hp'
  rw [List.mem_singleton] at hp'
  subst hp'
  obtain ⟨u, hu, hp⟩ := hu
  obtain ⟨b0, e0, h1, h2, h3⟩ := h.core.shape.use_origin h.busy_lt.1 hu
  exact ⟨.inr (.inr ⟨b0, e0, h1, h2, u, h3, hp⟩), compute_admits hc ha⟩

/-- The registers tried for a bundle that asks for any register, or one below a limit. -/
theorem free_regs (hP : Setting P q0.st) (h : Inv P q0 q [b]) {r : Requirement} (hc : compute P.env (q.st.reqUses b) = .ok r)
    (hr : r = .Register ∨ ∃ n, r = .Limit n) {hint0 : Option PReg}
    (hh : ∀ p, hint0 = some p → Eligible P.env q0.st (q.st.bundles b).spillset p) :
    ∀ off, (∀ p' ∈ (RegTraversalIter.new P.env (q.st.spillsets (q.st.bundles b).spillset).cls none (chooseHint P q.st b hint0) off
        (q.st.bundles b).limit).all,
      Eligible P.env q0.st (q.st.bundles b).spillset p' ∧ ∀ u ∈ usesOf q.st b, u.op.constraint.Admits P.env (Place.ofPReg P.env p')) ∧
      (Supply P q0.st → (RegTraversalIter.new P.env (q.st.spillsets (q.st.bundles b).spillset).cls none (chooseHint P q.st b hint0) off
        (q.st.bundles b).limit).all ≠ []) := by
  obtain ⟨b1, b2, b3, b4, b5, b6⟩ := h.busy_lt
  have hlim : (q.st.bundles b).limit = limOf r := by
    rw [(h.props b b1 b4 b3).1]
    refine (compute_free hc ?_).2
    rcases hr with rfl | ⟨n, rfl⟩ <;> trivial
  have hcls := (h.core.sets (q.st.bundles b).spillset).1
  have hchoose : ∀ p, chooseHint P q.st b hint0 = some p → Eligible P.env q0.st (q.st.bundles b).spillset p ∧ p ∉ P.env.fixedStackSlots := by
    intro p hp
    unfold chooseHint at hp
    cases hint0 with
    | some p0 =>
      dsimp only at hp
      split at hp
      · cases hp
      · cases hp; exact ⟨hh _ rfl, by assumption⟩
    | none =>
      dsimp only at hp
      cases hs : (q.st.spillsets (q.st.bundles b).spillset).hint with
      | none => rw [hs] at hp; cases hp
      | some p0 =>
        rw [hs] at hp
        dsimp only at hp
        split at hp
        · cases hp
        · cases hp; exact ⟨h.core.hints _ _ hs, by assumption⟩
  intro off
  constructor
  · intro p hp
    obtain ⟨hl, hp⟩ := (RegTraversalIter.C18_yields _ _ _ _ _ _).mp hp
    have hel : Eligible P.env q0.st (q.st.bundles b).spillset p ∧ p ∉ P.env.fixedStackSlots := by
      rcases hp with hp | hp
      · exact hchoose p hp
      · refine ⟨?_, hP.allocatable _ _ hp⟩
        rw [hcls] at hp
        rcases hp with hp | hp
        · exact .inl hp
        · exact .inr (.inl hp)
    refine ⟨hel.1, compute_admits hc ?_⟩
    unfold Place.ofPReg
    rw [if_neg hel.2]
    rcases hr with rfl | ⟨n, rfl⟩
    · exact ⟨p, rfl⟩
    · exact ⟨p, rfl, hl n (by rw [hlim]; rfl)⟩
  · intro hs
    have hex : ∃ p, p ∈ (RegTraversalIter.new P.env (q.st.spillsets (q.st.bundles b).spillset).cls none (chooseHint P q.st b hint0) off
        (q.st.bundles b).limit).all := by
      simp only [RegTraversalIter.C18_yields, hlim, hcls]
      rcases hr with rfl | ⟨n, rfl⟩
      · obtain ⟨u, hu, hk⟩ := compute_register hc
        obtain ⟨b0, e0, h1, h2, h3⟩ := h.core.shape.use_origin b1 hu
        obtain ⟨p, hp⟩ := hs.reg b0 e0 h1 u h3 hk
        rw [h2] at hp
        exact ⟨p, (fun n hn => by cases hn), .inr hp⟩
      · obtain ⟨u, hu, hk⟩ := compute_limit hc
        obtain ⟨b0, e0, h1, h2, h3⟩ := h.core.shape.use_origin b1 hu
        obtain ⟨p, hp, hlt⟩ := hs.limit b0 e0 h1 u h3 n hk
        rw [h2] at hp
        exact ⟨p, (fun m hm => by cases hm; exact hlt), .inr hp⟩
    intro hn
    obtain ⟨p, hp⟩ := hex
    rw [hn] at hp
    cases hp

theorem processBundle_spec (hP : Setting P q0.st) (h : Inv P q0 q [b]) (hint0 : Option PReg)
    (hh : ∀ p, hint0 = some p → Eligible P.env q0.st (q.st.bundles b).spillset p) :
    TurnOk P q0 q b (Supply P q0.st) (processBundle P q b hint0) := by
  obtain ⟨b1, b2, b3, b4, b5, b6⟩ := h.busy_lt
  have hn := numInsts_pos hP h
  unfold processBundle
  dsimp only
  cases hc : compute P.env (q.st.reqUses b) with
  | error c =>
    dsimp only
    obtain ⟨k1, u, k2, k3⟩ := compute_conflict hc
    split
    · rename_i hm
      have := few_of_small h hm
      omega
    · rename_i hm
      obtain ⟨e, he, hu⟩ := (mem_usesOf _ _ _).mp k2
      obtain ⟨first, hf⟩ : ∃ first, (q.st.bundles b).ranges.head? = some first := ⟨_, List.head?_eq_some_head b3⟩
      obtain ⟨last, hl⟩ : ∃ last, (q.st.bundles b).ranges.getLast? = some last := ⟨_, List.getLast?_eq_some_getLast b3⟩
      have ht := h.core.shape.tidy b b1 b4
      have h1 := tidy_first ht hf he
      have h2 := tidy_last ht hl he
      have h3 : e.range.fr ≤ u.pos ∧ u.pos < e.range.to := (h.core.shape.neat b e ⟨b1, he⟩).inside u hu
      have hel : ∀ p, chooseHint P q.st b hint0 = some p → Eligible P.env q0.st (q.st.bundles b).spillset p := by
        intro p hp
        unfold chooseHint at hp
        cases hint0 with
        | some p0 =>
          dsimp only at hp
          split at hp
          · cases hp
          · cases hp; exact hh _ rfl
        | none =>
          dsimp only at hp
          cases hs : (q.st.spillsets (q.st.bundles b).spillset).hint with
          | none => rw [hs] at hp; cases hp
          | some p0 =>
            rw [hs] at hp
            dsimp only at hp
            split at hp
            · cases hp
            · cases hp; exact h.core.hints _ _ hs
      obtain ⟨st', h4, h5, h6, h7⟩ := h.split (hint := chooseHint P q.st b hint0) (trim := c.shouldTrim) (by simpa using hm) hf hl
        (at_ := c.splitPoint) (by rw [k3]; omega) hel
      rw [h4]
      exact ⟨h7, fun _ => .inl (.cut q (Quiet.refl _) _ h5 h6 (by simpa using hm))⟩
  | ok r =>
    cases r with
    | Any =>
      dsimp only
      have hany := compute_any hc
      cases hs : (q.st.spillsets (q.st.bundles b).spillset).spillBundle with
      | some s =>
        dsimp only
        obtain ⟨rq, hi⟩ := h.moveToSpill hs hany
        have r := moveToSpill_recut h.core.shape b1 b4 hs
          (fun e he u hu => hany u ((mem_usesOf _ _ _).mpr ⟨e, he, hu⟩)) none
        have hsb : s ≠ b := by rintro rfl; exact b4 hs
        obtain ⟨f1, f2, f3, f4, f5, f6, f7, f8, f9, f10, f11⟩ := moveToSpill_facts (st := q.st) hsb
        exact ⟨hi, fun _ => .inr ⟨⟨none, r, rq⟩, f6, f10, by rw [f2]⟩⟩
      | none =>
        dsimp only
        rw [if_neg (by omega)]
        exact ⟨h.toSpilled hany, fun _ => .inl (.kept ⟨rfl, rfl, rfl, fun _ => rfl, rfl, fun _ => ⟨rfl, rfl⟩⟩ [] (by simp) (by simp))⟩
    | Stack =>
      dsimp only
      rw [if_neg (by omega)]
      refine ⟨h.require (compute_stack hc), fun _ => .inl (.kept ⟨rfl, rfl, rfl, fun _ => rfl, rfl, ?_⟩ [] (by simp [St.modS]) (by simp))⟩
      intro t
      simp only [St.modS, upd]
      split
      · subst_vars; exact ⟨rfl, rfl⟩
      · exact ⟨rfl, rfl⟩
    | FixedReg p =>
      obtain ⟨k1, k2⟩ := compute_fixedReg hc
      have := fixed_regs h hc k2 (by unfold Place.ofPReg; rw [if_neg k1]; rfl)
        (q.st.spillsets (q.st.bundles b).spillset).cls (chooseHint P q.st b hint0)
      exact attemptLoop_spec hP h _ _ _ _ _ (k2.imp fun u hu => ⟨hu.1, by rw [hu.2]; simp⟩) (fun off => (this off).1) (fun _ off => (this off).2)
    | FixedStack p =>
      obtain ⟨k1, k2⟩ := compute_fixedStack hc
      have := fixed_regs h hc k2 (by unfold Place.ofPReg; rw [if_pos k1]; rfl)
        (q.st.spillsets (q.st.bundles b).spillset).cls (chooseHint P q.st b hint0)
      exact attemptLoop_spec hP h _ _ _ _ _ (k2.imp fun u hu => ⟨hu.1, by rw [hu.2]; simp⟩) (fun off => (this off).1) (fun _ off => (this off).2)
    | Register =>
      have := free_regs hP h hc (.inl rfl) hh
      exact attemptLoop_spec hP h _ _ _ _ _ ((compute_register hc).imp fun u hu => ⟨hu.1, by rcases hu.2 with h | ⟨k, h⟩ <;> rw [h] <;> simp⟩) (fun off => (this off).1) (fun hs off => (this off).2 hs)
    | Limit n =>
      have := free_regs hP h hc (.inr ⟨n, rfl⟩) hh
      exact attemptLoop_spec hP h _ _ _ _ _ ((compute_limit hc).imp fun u hu => ⟨hu.1, by rw [hu.2]; simp⟩) (fun off => (this off).1) (fun hs off => (this off).2 hs)

/-- The loop: it keeps everything in order, and stops only with an empty queue. -/
theorem processBundles_spec (hP : Setting P q0.st) (fuel : Nat) : ∀ {q : PSt}, Inv P q0 q [] →
    match processBundles P fuel q with
    | .ok q' => Inv P q0 q' [] ∧ q'.st.queue = []
    | .error e => Supply P q0.st → e ≠ .panic := by
  induction fuel with
  | zero =>
    intro q h
    unfold processBundles
    cases hp : popMax q.st.queue with
    | none =>
      refine ⟨h, ?_⟩
      cases hq : q.st.queue with
      | nil => rfl
      | cons x xs => rw [hq] at hp; cases hp
    | some r => intro _; simp
  | succ fuel ih =>
    intro q h
    unfold processBundles
    cases hp : popMax q.st.queue with
    | none =>
      refine ⟨h, ?_⟩
      cases hq : q.st.queue with
      | nil => rfl
      | cons x xs => rw [hq] at hp; cases hp
    | some r =>
      obtain ⟨⟨b, prio, hint⟩, rest⟩ := r
      dsimp only
      obtain ⟨h1, h2⟩ := h.pop hp
      have h3 := processBundle_spec hP h1 hint h2
      cases hr : processBundle P { q with st := { q.st with queue := rest } } b hint with
      | error e => rw [hr] at h3; exact h3.2
      | ok q' => rw [hr] at h3; exact ih h3.1

end
end Regalloc.Ion
