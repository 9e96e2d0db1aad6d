import Verif.Spec.RedundantMoves

namespace Regalloc
namespace RedundantMoves

open Moves (Store)

variable {V : Type}

/-- Recorded copies hold equal values and are registered for invalidation. -/
structure Inv (s : RedundantMoves) (σ : Store V) : Prop where
  eq : ∀ t a v, s.allocs t = .Copy a v → σ t = σ a
  rev : ∀ t a v, s.allocs t = .Copy a v → t ∈ s.reverse a

theorem inv_empty (σ : Store V) : Inv empty σ := ⟨by simp [empty], by simp [empty]⟩

theorem fold_none (l : List Allocation) : ∀ (m : Allocation → RedundantMoveState) (x : Allocation),
    (l.foldl (fun m t => set m t .None) m) x = if x ∈ l then .None else m x := by
  induction l with
  | nil => intro m x; simp
  | cons a l ih =>
    intro m x
    rw [List.foldl_cons, ih]
    by_cases h1 : x ∈ l <;> by_cases h2 : x = a <;> simp [h1, h2, set]

theorem clear_allocs (s : RedundantMoves) (a x : Allocation) :
    (s.clearAlloc a).allocs x = if x = a ∨ x ∈ s.reverse a then .None else s.allocs x := by
  unfold clearAlloc
  simp only [set, fold_none]
  by_cases h1 : x = a <;> by_cases h2 : x ∈ s.reverse a <;> simp [h1, h2]

theorem clear_reverse (s : RedundantMoves) (a x : Allocation) :
    (s.clearAlloc a).reverse x = if x = a then [] else s.reverse x := rfl

/-- After `clear_alloc a` nothing recorded mentions `a`, so `a` may change. -/
theorem inv_clear {s : RedundantMoves} {σ τ : Store V} {a : Allocation} (I : Inv s σ)
    (h : ∀ l, l ≠ a → τ l = σ l) : Inv (s.clearAlloc a) τ ∧
    (∀ v, (s.clearAlloc a).allocs a ≠ .Copy a v) ∧
    (∀ t b v, (s.clearAlloc a).allocs t = .Copy b v → t ≠ a ∧ b ≠ a) := by
  have key : ∀ t b v, (s.clearAlloc a).allocs t = .Copy b v → t ≠ a ∧ b ≠ a ∧ s.allocs t = .Copy b v := by
    intro t b v ht
    rw [clear_allocs] at ht
    split at ht
    · simp at ht
    · rename_i hn
      have := I.rev t b v ht
      refine ⟨fun e => hn (.inl e), ?_, ht⟩
      rintro rfl
      exact hn (.inr this)
  refine ⟨⟨?_, ?_⟩, ?_, ?_⟩
  · intro t b v ht
    obtain ⟨h1, h2, h3⟩ := key t b v ht
    rw [h t h1, h b h2]
    exact I.eq t b v h3
  · intro t b v ht
    obtain ⟨h1, h2, h3⟩ := key t b v ht
    rw [clear_reverse, if_neg h2]
    exact I.rev t b v h3
  · intro v ht; exact (key _ _ _ ht).1 rfl
  · intro t b v ht; exact ⟨(key t b v ht).1, (key t b v ht).2.1⟩

theorem process_ok {s : RedundantMoves} {σ : Store V} (I : Inv s σ) (src dst : Allocation) (v : Option VReg) :
    ((s.processMove src dst v).1 = true → σ dst = σ src) ∧ Inv (s.processMove src dst v).2 (copy σ src dst) := by
  unfold processMove
  split
  · rename_i heq
    have heq : src = dst := by simpa using heq
    subst heq
    have hc : copy σ src src = σ := by funext l; unfold copy; split <;> simp_all
    rw [hc]
    refine ⟨fun _ => rfl, ?_⟩
    obtain ⟨I1, -, hm⟩ := inv_clear (τ := σ) (a := src) I (fun _ _ => rfl)
    constructor
    · intro t a w ht
      simp only [set] at ht
      split at ht
      · simp at ht
      · exact I1.eq t a w ht
    · intro t a w ht
      simp only [set] at ht
      split at ht
      · simp at ht
      · exact I1.rev t a w ht
  · -- the general case
    generalize hel : elides (s.allocs src) (s.allocs dst) src dst = elide
    have hval : elide = true → σ dst = σ src := by
      intro he
      rw [← hel] at he
      unfold elides at he
      rw [Bool.or_eq_true] at he
      rcases he with he | he
      · split at he
        · rename_i o w ho
          rw [I.eq _ _ _ ho]; rw [of_decide_eq_true he]
        · simp at he
      · split at he
        · rename_i o w ho
          rw [I.eq _ _ _ ho]; rw [of_decide_eq_true he]
        · simp at he
    -- the tracker after the optional invalidation is valid in the new state
    have hI : Inv (if elide = true then s else s.clearAlloc dst) (copy σ src dst) := by
      cases elide with
      | true =>
        have hc : copy σ src dst = σ := by
          funext l; unfold copy; split
          · rename_i h; rw [h]; exact (hval rfl).symm
          · rfl
        simpa [hc] using I
      | false =>
        simp only [Bool.false_eq_true, if_false]
        exact (inv_clear I (fun l hl => by unfold copy; rw [if_neg hl])).1
    simp only [hel]
    split
    · refine ⟨hval, ?_⟩
      constructor
      · intro t a w ht
        simp only [set] at ht
        split at ht
        · rename_i e
          simp only [RedundantMoveState.Copy.injEq] at ht
          obtain ⟨rfl, -⟩ := ht
          subst e
          unfold copy
          simp
        · exact hI.eq t a w ht
      · intro t a w ht
        simp only [set] at ht ⊢
        split at ht
        · rename_i e
          simp only [RedundantMoveState.Copy.injEq] at ht
          obtain ⟨rfl, -⟩ := ht
          simp [e]
        · have := hI.rev t a w ht
          split
          · rename_i e; subst e; simp [this]
          · exact this
    · exact ⟨hval, hI⟩

/-- Skipping an elided move leaves the state it would have produced. -/
theorem process_state {s : RedundantMoves} {σ : Store V} (I : Inv s σ) (src dst : Allocation) (v : Option VReg) :
    (if (s.processMove src dst v).1 then σ else copy σ src dst) = copy σ src dst := by
  split
  · rename_i h
    funext l
    unfold copy
    split
    · rename_i e; rw [e]; exact (process_ok I src dst v).1 h
    · rfl
  · rfl

/-! ### the driver -/

theorem clears_ok (l : List Allocation) : ∀ {s : RedundantMoves} {σ τ : Store V}, Inv s σ →
    (∀ x, x ∉ l → τ x = σ x) → Inv (l.foldl clearAlloc s) τ := by
  induction l with
  | nil =>
    intro s σ τ I h
    have : τ = σ := funext (fun x => h x (by simp))
    rw [this]; exact I
  | cons a l ih =>
    intro s σ τ I h
    rw [List.foldl_cons]
    -- first let `a` take its new value, then the others
    have I1 := (inv_clear (τ := fun x => if x = a then τ a else σ x) (a := a) I (fun x hx => by simp [hx])).1
    apply ih I1
    intro x hx
    by_cases e : x = a
    · simp [e]
    · simp only [if_neg e]
      exact h x (by simp [e, hx])

/-- Execution of the instructions between points, without moves. -/
theorem runPoints_none (eff : Nat → Store V → Store V) (ms ms' : List PMove) : ∀ (n q : Nat) (σ : Store V),
    (∀ m ∈ ms, m.pos < q ∨ q + n ≤ m.pos) → (∀ m ∈ ms', m.pos < q ∨ q + n ≤ m.pos) →
    runPoints eff ms q n σ = runPoints eff ms' q n σ := by
  intro n
  induction n with
  | zero => intros; rfl
  | succ n ih =>
    intro q σ h h'
    have e : ∀ ms : List PMove, (∀ m ∈ ms, m.pos < q ∨ q + (n + 1) ≤ m.pos) → movesAt ms q σ = σ := by
      intro ms h
      unfold movesAt
      rw [List.filter_eq_nil_iff.mpr]
      · rfl
      · intro m hm
        have := h m hm
        simp; omega
    simp only [runPoints, e ms h, e ms' h']
    apply ih
    · intro m hm; have := h m hm; omega
    · intro m hm; have := h' m hm; omega

/-- Advance over `k` points at which `ms` has no moves. -/
theorem runPoints_skip (eff : Nat → Store V → Store V) (ms : List PMove) (k : Nat) : ∀ (n q : Nat) (σ : Store V),
    (∀ m ∈ ms, q + k ≤ m.pos) → k ≤ n →
    runPoints eff ms q n σ = runPoints eff ms (q + k) (n - k) (runPoints eff [] q k σ) := by
  induction k with
  | zero => intro n q σ _ _; rfl
  | succ k ih =>
    intro n q σ h hk
    cases n with
    | zero => omega
    | succ n =>
      have e : movesAt ms q σ = σ := by
        unfold movesAt
        rw [List.filter_eq_nil_iff.mpr]
        · rfl
        · intro m hm
          have := h m hm
          simp; omega
      have e' : movesAt ([] : List PMove) q σ = σ := rfl
      simp only [runPoints, e, e']
      rw [ih n (q + 1) _ (by intro m hm; have := h m hm; omega) (by omega)]
      have a1 : q + 1 + k = q + (k + 1) := by omega
      have a2 : n + 1 - (k + 1) = n - k := by omega
      rw [a1, a2]

theorem runPoints_drop (eff : Nat → Store V → Store V) (m : PMove) (ms : List PMove) : ∀ (n q : Nat) (σ : Store V),
    m.pos < q → runPoints eff (m :: ms) q n σ = runPoints eff ms q n σ := by
  intro n
  induction n with
  | zero => intros; rfl
  | succ n ih =>
    intro q σ h
    have : movesAt (m :: ms) q σ = movesAt ms q σ := by
      unfold movesAt
      rw [List.filter_cons_of_neg (by simp; omega)]
    simp only [runPoints, this]
    exact ih _ _ (by omega)

theorem runPoints_head (eff : Nat → Store V → Store V) (m : PMove) (ms : List PMove) (n : Nat) (σ : Store V)
    (hn : 0 < n) : runPoints eff (m :: ms) m.pos n σ = runPoints eff ms m.pos n (copy σ m.src m.dst) := by
  cases n with
  | zero => omega
  | succ n =>
    have : movesAt (m :: ms) m.pos σ = movesAt ms m.pos (copy σ m.src m.dst) := by
      unfold movesAt
      rw [List.filter_cons_of_pos (by simp)]
      rfl
    simp only [runPoints, this]
    exact runPoints_drop _ _ _ _ _ _ (by omega)

/-- Without moves, running `k` points executes the instructions in between. -/
theorem runPoints_nil (eff : Nat → Store V → Store V) (k : Nat) : ∀ (q : Nat) (σ : Store V),
    runPoints eff [] q k σ = (List.range' (if q % 2 = 0 then q / 2 else q / 2 + 1)
      ((if (q + k) % 2 = 0 then (q + k) / 2 else (q + k) / 2 + 1) - (if q % 2 = 0 then q / 2 else q / 2 + 1))).foldl
        (fun σ i => eff i σ) σ := by
  induction k with
  | zero => intro q σ; simp [runPoints]
  | succ k ih =>
    intro q σ
    have e' : movesAt ([] : List PMove) q σ = σ := rfl
    simp only [runPoints, e']
    rw [ih]
    by_cases hq : q % 2 = 0
    · rw [if_pos hq, if_pos hq]
      have a1 : (if (q + 1) % 2 = 0 then (q + 1) / 2 else (q + 1) / 2 + 1) = q / 2 + 1 := by
        rw [if_neg (by omega)]; omega
      have a2 : (if (q + 1 + k) % 2 = 0 then (q + 1 + k) / 2 else (q + 1 + k) / 2 + 1) =
          (if (q + (k + 1)) % 2 = 0 then (q + (k + 1)) / 2 else (q + (k + 1)) / 2 + 1) := by
        rw [show q + 1 + k = q + (k + 1) by omega]
      rw [a1, a2]
      generalize hE : (if (q + (k + 1)) % 2 = 0 then (q + (k + 1)) / 2 else (q + (k + 1)) / 2 + 1) = E
      have hE2 : q / 2 < E := by rw [← hE]; split <;> omega
      rw [show E - q / 2 = (E - (q / 2 + 1)) + 1 by omega, List.range'_succ, List.foldl_cons]
    · rw [if_neg hq, if_neg hq]
      have a1 : (if (q + 1) % 2 = 0 then (q + 1) / 2 else (q + 1) / 2 + 1) = q / 2 + 1 := by
        rw [if_pos (by omega)]; omega
      rw [a1, show q + 1 + k = q + (k + 1) by omega]

/-- The tracker is told of everything an instruction may change. -/
theorem effOk_clears {e : RMEnv} {eff : Nat → Store V → Store V} (he : EffOk e eff) (i : Nat) (σ : Store V)
    (l : Allocation) (h : l ∉ instClears e i) : eff i σ l = σ l := by
  unfold instClears at h
  simp only [List.mem_append, not_or, List.mem_map, List.mem_filter, decide_eq_true_eq] at h
  obtain ⟨⟨h1, h2⟩, h3⟩ := h
  refine he i σ l ?_ (fun p hp e' => h2 ⟨p, hp, e'.symm⟩) (fun p hp e' => h3 ⟨p, hp, e'.symm⟩)
  intro k o ho hk e'
  apply h1
  refine ⟨(o, k), ⟨?_, hk⟩, e'.symm⟩
  rw [List.mem_zipIdx_iff_getElem?]
  exact ho

theorem insts_ok (e : RMEnv) (eff : Nat → Store V → Store V) (he : EffOk e eff) (l : List Nat) :
    ∀ {s : RedundantMoves} {σ : Store V}, Inv s σ →
      Inv (l.foldl (fun s i => (instClears e i).foldl clearAlloc s) s) (l.foldl (fun σ i => eff i σ) σ) := by
  induction l with
  | nil => intro s σ I; exact I
  | cons i l ih =>
    intro s σ I
    rw [List.foldl_cons, List.foldl_cons]
    exact ih (clears_ok _ I (fun x hx => effOk_clears he i σ x hx))

/-- Moving within a block keeps the tracker valid. -/
theorem side_ok (e : RMEnv) (eff : Nat → Store V → Store V) (he : EffOk e eff) {s : RedundantMoves} {σ : Store V}
    (q p : Nat) (hqp : q ≤ p) (I : Inv s σ) : Inv (sideEffects e s q p) (runPoints eff [] q (p - q) σ) := by
  unfold sideEffects
  split
  · exact inv_empty _
  · rw [runPoints_nil]
    rw [show q + (p - q) = p by omega]
    exact insts_ok e eff he _ I

theorem drive_pos (e : RMEnv) (ms : List PMove) : ∀ (s : RedundantMoves) (last k : Nat), (∀ m ∈ ms, k ≤ m.pos) →
    ∀ m ∈ drive e s last ms, k ≤ m.pos := by
  induction ms with
  | nil => intro s last k _ m hm; simp [drive] at hm
  | cons a ms ih =>
    intro s last k h m hm
    simp only [drive] at hm
    split at hm
    · exact ih _ _ _ (fun m hm => h m (by simp [hm])) m hm
    · rcases List.mem_cons.mp hm with rfl | hm
      · exact h _ (by simp)
      · exact ih _ _ _ (fun m hm => h m (by simp [hm])) m hm

theorem drive_main (e : RMEnv) (eff : Nat → Store V → Store V) (he : EffOk e eff) (ms : List PMove) :
    ∀ (s : RedundantMoves) (q n : Nat) (σ : Store V), Inv s σ → ms.Pairwise (fun a b => a.pos ≤ b.pos) →
      (∀ m ∈ ms, q ≤ m.pos) →
      runPoints eff (drive e s q ms) q n σ = runPoints eff ms q n σ := by
  induction ms with
  | nil => intros; rfl
  | cons m ms ih =>
    intro s q n σ I hs hq
    have hsm := List.pairwise_cons.mp hs
    have hge : ∀ a ∈ m :: ms, m.pos ≤ a.pos := by
      intro a ha
      rcases List.mem_cons.mp ha with rfl | ha
      · omega
      · exact hsm.1 a ha
    by_cases hout : q + n ≤ m.pos
    · apply runPoints_none
      · intro a ha
        right
        have := drive_pos e (m :: ms) s q m.pos hge a ha
        omega
      · intro a ha; right; have := hge a ha; omega
    · have hqm := hq m (by simp)
      rw [runPoints_skip eff (drive e s q (m :: ms)) (m.pos - q) n q σ (by
          intro a ha; have := drive_pos e (m :: ms) s q m.pos hge a ha; omega) (by omega),
        runPoints_skip eff (m :: ms) (m.pos - q) n q σ (by
          intro a ha; have := hge a ha; omega) (by omega)]
      rw [show q + (m.pos - q) = m.pos by omega]
      have I1 := side_ok e eff he q m.pos hqm I
      generalize runPoints eff [] q (m.pos - q) σ = σ1 at I1 ⊢
      rw [runPoints_head eff m ms _ σ1 (by omega)]
      have I2 := (process_ok I1 m.src m.dst m.vreg).2
      have hst := process_state I1 m.src m.dst m.vreg
      simp only [drive]
      split
      · rename_i hel
        rw [if_pos hel] at hst
        rw [← hst] at I2
        have hih := ih (processMove (sideEffects e s q m.pos) m.src m.dst m.vreg).2 m.pos (n - (m.pos - q)) σ1 I2 hsm.2 hsm.1
        rw [hih, ← hst]
      · rw [runPoints_head eff m _ _ σ1 (by omega)]
        exact ih _ m.pos (n - (m.pos - q)) _ I2 hsm.2 hsm.1

/-- Before the block is reached nothing has to be known. -/
theorem drive_before (e : RMEnv) (eff : Nat → Store V → Store V) (he : EffOk e eff) (b lo hi : Nat)
    (hblk : ∀ i, e.insnBlock i = b → lo ≤ i) (hin : ∀ i, lo ≤ i → i < hi → e.insnBlock i = b) (n : Nat) (hn : 2 * lo + n ≤ 2 * hi)
    (ms : List PMove) :
    ∀ (s : RedundantMoves) (last : Nat) (σ : Store V), last < 2 * lo → ms.Pairwise (fun a b => a.pos ≤ b.pos) →
      runPoints eff (drive e s last ms) (2 * lo) n σ =
        runPoints eff ms (2 * lo) n σ := by
  induction ms with
  | nil => intros; rfl
  | cons m ms ih =>
    intro s last σ hl hs
    have hsm := List.pairwise_cons.mp hs
    have hge : ∀ a ∈ m :: ms, m.pos ≤ a.pos := by
      intro a ha
      rcases List.mem_cons.mp ha with rfl | ha
      · omega
      · exact hsm.1 a ha
    by_cases h1 : m.pos < 2 * lo
    · rw [runPoints_drop _ m ms _ _ _ h1]
      simp only [drive]
      split
      · exact ih _ _ _ h1 hsm.2
      · rw [runPoints_drop _ m _ _ _ _ h1]
        exact ih _ _ _ h1 hsm.2
    · by_cases h2 : m.pos < 2 * lo + n
      · have hne : e.insnBlock (last / 2) ≠ e.insnBlock (m.pos / 2) := by
          rw [hin (m.pos / 2) (by omega) (by omega)]
          intro h
          have := hblk _ h
          omega
        -- the tracker is reset here, so what is kept equals what is kept from the block start
        have hsd : drive e s last (m :: ms) =
            (if (processMove empty m.src m.dst m.vreg).1 then
              drive e (processMove empty m.src m.dst m.vreg).2 m.pos ms
             else m :: drive e (processMove empty m.src m.dst m.vreg).2 m.pos ms) := by
          simp only [drive, sideEffects, if_pos hne]
        rw [hsd]
        have I0 : ∀ σ : Store V, Inv empty σ := inv_empty
        have hpos : ∀ a ∈ ms, m.pos ≤ a.pos := hsm.1
        have hd2 := drive_pos e ms (processMove empty m.src m.dst m.vreg).2 m.pos m.pos hpos
        rw [runPoints_skip eff (m :: ms) (m.pos - 2 * lo) _ (2 * lo) σ (by
          intro a ha; have := hge a ha; omega) (by omega)]
        rw [runPoints_skip eff _ (m.pos - 2 * lo) _ (2 * lo) σ (by
          intro a ha
          split at ha
          · have := hd2 a ha; omega
          · rcases List.mem_cons.mp ha with rfl | ha
            · omega
            · have := hd2 a ha; omega) (by omega)]
        rw [show 2 * lo + (m.pos - 2 * lo) = m.pos by omega]
        generalize runPoints eff [] (2 * lo) (m.pos - 2 * lo) σ = σ1
        rw [runPoints_head eff m ms _ σ1 (by omega)]
        have I2 := (process_ok (I0 σ1) m.src m.dst m.vreg).2
        have hst := process_state (I0 σ1) m.src m.dst m.vreg
        split
        · rename_i hel
          rw [if_pos hel] at hst
          rw [← hst] at I2
          rw [drive_main e eff he ms _ m.pos _ σ1 I2 hsm.2 hpos, ← hst]
        · rw [runPoints_head eff m _ _ σ1 (by omega)]
          exact drive_main e eff he ms _ m.pos _ _ I2 hsm.2 hpos
      · apply runPoints_none
        · intro a ha
          right
          have := drive_pos e (m :: ms) s last m.pos hge a ha
          omega
        · intro a ha; right; have := hge a ha; omega

end RedundantMoves
end Regalloc
