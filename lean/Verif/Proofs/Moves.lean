import Verif.Spec.Moves
import Verif.Proofs.Encodings

namespace Regalloc.Moves

variable {T : Type} {V : Type u}

/-! ### Parallel semantics on lists of (source, destination) pairs -/

/-- Effect of a set of parallel moves. -/
def par (P : List (Allocation × Allocation)) (σ : Store V) : Store V :=
  fun l => match P.find? (fun p => decide (p.2 = l)) with
    | some p => σ p.1
    | none => σ l

/-- `R` executed in sequence acts as `P` in parallel, away from `sc`. -/
def Sem (V : Type u) (sc : Allocation) (R : List (Move T)) (P : List (Allocation × Allocation)) : Prop :=
  ∀ (σ : Store V) (l : Allocation), l ≠ sc → exec σ R l = par P σ l

theorem exec_nil (σ : Store V) : exec σ ([] : List (Move T)) = σ := rfl

theorem exec_cons (σ : Store V) (m : Move T) (R : List (Move T)) :
    exec σ (m :: R) = exec (step σ m) R := rfl

theorem exec_append (σ : Store V) (R S : List (Move T)) :
    exec σ (R ++ S) = exec (exec σ R) S := by
  simp [exec, List.foldl_append]

theorem exec_unwritten (σ : Store V) (R : List (Move T)) (l : Allocation)
    (h : ∀ m ∈ R, m.dst ≠ l) : exec σ R l = σ l := by
  induction R generalizing σ with
  | nil => rfl
  | cons m R ih =>
    rw [exec_cons, ih _ (fun m' h' => h m' (List.mem_cons_of_mem _ h'))]
    simp only [step]
    rw [if_neg]
    exact fun e => h m List.mem_cons_self e.symm

theorem Sem.nil (sc : Allocation) : Sem V sc ([] : List (Move T)) [] := by
  intro σ l _; rfl

theorem par_none {P : List (Allocation × Allocation)} {σ : Store V} {l : Allocation}
    (h : ∀ p ∈ P, p.2 ≠ l) : par P σ l = σ l := by
  unfold par
  have : P.find? (fun p => decide (p.2 = l)) = none := by
    rw [List.find?_eq_none]; intro p hp; simpa using h p hp
  rw [this]

theorem par_some {P : List (Allocation × Allocation)} {σ : Store V} {p : Allocation × Allocation}
    (hu : ∀ p ∈ P, ∀ q ∈ P, p.2 = q.2 → p = q) (hp : p ∈ P) : par P σ p.2 = σ p.1 := by
  unfold par
  cases h : P.find? (fun q => decide (q.2 = p.2)) with
  | none =>
    rw [List.find?_eq_none] at h
    have := h p hp
    simp at this
  | some q =>
    have h1 := List.mem_of_find?_eq_some h
    have h2 := List.find?_some h
    simp only [decide_eq_true_eq] at h2
    rw [hu q h1 p hp h2]

/-- Prepending a move whose destination is neither read nor written by `P`. -/
theorem Sem.push {sc : Allocation} {R : List (Move T)} {P : List (Allocation × Allocation)}
    (h : Sem V sc R P) (m : Move T) (hs : ∀ p ∈ P, p.1 ≠ m.dst) (hd : ∀ p ∈ P, p.2 ≠ m.dst) :
    Sem V sc (m :: R) ((m.src, m.dst) :: P) := by
  intro σ l hl
  rw [exec_cons, h _ l hl]
  unfold par
  rw [List.find?_cons]
  by_cases e : m.dst = l
  · have : P.find? (fun p => decide (p.2 = l)) = none := by
      rw [List.find?_eq_none]; intro p hp; simpa [← e] using hd p hp
    simp [this, e, step]
  · simp only [e, decide_false]
    cases hf : P.find? (fun p => decide (p.2 = l)) with
    | none =>
      have : ¬ l = m.dst := fun x => e x.symm
      simp [step, this]
    | some p =>
      have h1 := List.mem_of_find?_eq_some hf
      simp [step, hs p h1]

/-- Prepending the save of a source into the scratch location. -/
theorem Sem.save {sc : Allocation} {R : List (Move T)} {P Q : List (Allocation × Allocation)}
    {s d : Allocation} {t : T}
    (h : Sem V sc R (P ++ (sc, d) :: Q)) (hP : ∀ p ∈ P, p.1 ≠ sc) (hQ : ∀ p ∈ Q, p.1 ≠ sc) :
    Sem V sc (⟨s, sc, t⟩ :: R) (P ++ (s, d) :: Q) := by
  intro σ l hl
  rw [exec_cons, h _ l hl]
  unfold par
  simp only [List.find?_append, List.find?_cons]
  cases hf : P.find? (fun p => decide (p.2 = l)) with
  | some p =>
    have h1 := List.mem_of_find?_eq_some hf
    simp [step, hP p h1]
  | none =>
    simp only [Option.none_or]
    by_cases e : d = l
    · simp [e, step]
    · simp only [e, decide_false]
      cases hq : Q.find? (fun p => decide (p.2 = l)) with
      | some p =>
        have h1 := List.mem_of_find?_eq_some hq
        simp [step, hQ p h1]
      | none => simp [step, hl]

/-! ### The depth-first search -/

section dfs

variable (ms : List (Move T))

/-- Setting of the search: distinct destinations, no self-moves. -/
structure Setting : Prop where
  inj : ∀ (i j : Nat) (m m' : Move T), ms[i]? = some m → ms[j]? = some m' → m.dst = m'.dst → i = j
  noself : ∀ m ∈ ms, m.src ≠ m.dst
  real : RealLocs ms

theorem findDst_some {ms : List (Move T)} {a : Allocation} {j : Nat} (h : findDst ms a = some j) :
    ∃ m, ms[j]? = some m ∧ m.dst = a := by
  unfold findDst at h
  rw [List.findIdx?_eq_some_iff_getElem] at h
  obtain ⟨hlt, h1, _⟩ := h
  refine ⟨ms[j], by simp [hlt], by simpa using h1⟩

theorem findDst_none {ms : List (Move T)} {a : Allocation} (h : findDst ms a = none) :
    ∀ m ∈ ms, m.dst ≠ a := by
  unfold findDst at h
  rw [List.findIdx?_eq_none_iff] at h
  intro m hm
  simpa using h m hm

/-- `next` relation of the search, read through the moves. -/
def Nx (i j : Nat) : Prop := ∃ m m', ms[i]? = some m ∧ ms[j]? = some m' ∧ m'.dst = m.src

theorem mcb_get (i : Nat) : (mustComeBefore ms)[i]? = (ms[i]?).map (fun m => findDst ms m.src) := by
  simp [mustComeBefore]

variable {ms}

theorem Nx.of_findDst {i j : Nat} {m : Move T} (hm : ms[i]? = some m)
    (h : findDst ms m.src = some j) : Nx ms i j := by
  obtain ⟨m', h1, h2⟩ := findDst_some h
  exact ⟨m, m', hm, h1, h2⟩

theorem Nx.unique (S : Setting ms) {i j k : Nat} (h : Nx ms i j) (h' : Nx ms i k) : j = k := by
  obtain ⟨m, m', a, b, c⟩ := h
  obtain ⟨n, n', a', b', c'⟩ := h'
  rw [a] at a'; cases a'
  exact S.inj _ _ _ _ b b' (c.trans c'.symm)

theorem Nx.not_of_none {i j : Nat} {m : Move T} (hm : ms[i]? = some m)
    (h : findDst ms m.src = none) : ¬ Nx ms i j := by
  rintro ⟨n, n', a, b, c⟩
  rw [hm] at a; cases a
  exact findDst_none h n' (List.mem_of_getElem? b) c

/-- `chain p l`: `l = [l₀, l₁, …]` with `l₀ → p`, `l₁ → l₀`, … in the `next` relation. -/
def chain (ms : List (Move T)) : Nat → List Nat → Prop
  | _, [] => True
  | p, a :: l => Nx ms a p ∧ chain ms a l

/-- pair of a move index, for indices in range. -/
def pairs (ms : List (Move T)) (D : List Nat) : List (Allocation × Allocation) :=
  D.filterMap (fun i => (ms[i]?).map (fun m => (m.src, m.dst)))

theorem mem_pairs {D : List Nat} {p : Allocation × Allocation} :
    p ∈ pairs ms D ↔ ∃ i ∈ D, ∃ m, ms[i]? = some m ∧ p = (m.src, m.dst) := by
  simp only [pairs, List.mem_filterMap, Option.map_eq_some_iff]
  constructor
  · rintro ⟨i, hi, m, hm, rfl⟩; exact ⟨i, hi, m, hm, rfl⟩
  · rintro ⟨i, hi, m, hm, rfl⟩; exact ⟨i, hi, m, hm, rfl⟩

theorem pairs_cons {i : Nat} {D : List Nat} {m : Move T} (h : ms[i]? = some m) :
    pairs ms (i :: D) = (m.src, m.dst) :: pairs ms D := by
  simp [pairs, h]

theorem pairs_append (D E : List Nat) : pairs ms (D ++ E) = pairs ms D ++ pairs ms E := by
  simp [pairs]

/-- moves of a list of indices. -/
def movesOf (ms : List (Move T)) (D : List Nat) : List (Move T) := D.filterMap (fun i => ms[i]?)

theorem movesOf_cons {i : Nat} {D : List Nat} {m : Move T} (h : ms[i]? = some m) :
    movesOf ms (i :: D) = m :: movesOf ms D := by
  simp [movesOf, h]

theorem fill_real {sc : Allocation} {m : Move T} (S : RealLocs ms) (h : m ∈ ms) :
    fillScratch sc m = m := by
  obtain ⟨h1, h2⟩ := S m h
  simp [fillScratch, h1, h2]

/-- Popping the whole stack. -/
theorem popAll_eq (rest : List Nat) (st : List St) (ret : List (Move T))
    (hb : ∀ i ∈ rest, i < ms.length) :
    popAll ms rest st ret =
      some (rest.foldl (fun s i => s.set i .Done) st, movesOf ms rest.reverse ++ ret) := by
  induction rest generalizing st ret with
  | nil => simp [popAll, movesOf]
  | cons i rest ih =>
    have hi := hb i List.mem_cons_self
    have hm : ms[i]? = some ms[i] := by simp [hi]
    simp only [popAll, hm]
    rw [ih _ _ (fun j hj => hb j (List.mem_cons_of_mem _ hj))]
    simp [movesOf, List.filterMap_append, hm]

/-- Popping until `next`, which is on the stack. -/
theorem popUntil_eq (pre post : List Nat) (next : Nat) (st : List St) (ret : List (Move T))
    (hb : ∀ i ∈ pre ++ [next], i < ms.length) (hn : next ∉ pre) :
    popUntil ms next (pre ++ next :: post) st ret =
      some (post, (pre ++ [next]).foldl (fun s i => s.set i .Done) st,
        movesOf ms (pre ++ [next]).reverse ++ ret) := by
  induction pre generalizing st ret with
  | nil =>
    have hi := hb next (by simp)
    have hm : ms[next]? = some ms[next] := by simp [hi]
    simp [popUntil, hm, movesOf]
  | cons i pre ih =>
    have hi := hb i (by simp)
    have hm : ms[i]? = some ms[i] := by simp [hi]
    have hne : i ≠ next := by rintro rfl; simp at hn
    simp only [List.cons_append, popUntil, hm, if_neg hne]
    rw [ih _ _ (fun j hj => hb j (by simp at hj ⊢; grind)) (fun h => hn (by simp [h]))]
    rw [List.reverse_cons]
    simp only [movesOf, List.filterMap_append]
    simp [hm]

theorem foldl_set_length (l : List Nat) (st : List St) :
    (l.foldl (fun s i => s.set i St.Done) st).length = st.length := by
  induction l generalizing st with
  | nil => rfl
  | cons a l ih => rw [List.foldl_cons, ih, List.length_set]

theorem foldl_set_get (l : List Nat) (st : List St) (hb : ∀ i ∈ l, i < st.length) (j : Nat) :
    (l.foldl (fun s i => s.set i St.Done) st)[j]? = if j ∈ l then some .Done else st[j]? := by
  induction l generalizing st with
  | nil => simp
  | cons a l ih =>
    rw [List.foldl_cons, ih _ (by intro i hi; rw [List.length_set]; exact hb i (by simp [hi]))]
    have ha := hb a List.mem_cons_self
    by_cases h : j ∈ l
    · simp [h]
    · by_cases e : j = a
      · subst e; simp [ha]
      · have : a ≠ j := fun x => e x.symm
        simp [h, e, List.getElem?_set_ne this]

/-- Emitting a chain of moves in front of `R`. -/
theorem Sem.chain {sc : Allocation} (S : Setting ms) (rest : List Nat) (prev : Nat)
    (R : List (Move T)) (P : List (Allocation × Allocation))
    (hc : chain ms prev rest) (hnd : (prev :: rest).Nodup)
    (hP : ∀ i ∈ rest, ∀ m, ms[i]? = some m → ∀ p ∈ P, p.1 ≠ m.dst ∧ p.2 ≠ m.dst)
    (hR : Sem V sc R P) :
    Sem V sc (movesOf ms rest.reverse ++ R) (pairs ms rest.reverse ++ P) := by
  induction rest generalizing prev R P with
  | nil => simpa [movesOf, pairs] using hR
  | cons a rest ih =>
    obtain ⟨hnx, hc⟩ := hc
    obtain ⟨m, mp, hm, hmp, hdst⟩ := hnx
    have h1 := hR.push m (fun p hp => (hP a List.mem_cons_self m hm p hp).1)
      (fun p hp => (hP a List.mem_cons_self m hm p hp).2)
    have hnd' : (a :: rest).Nodup := (List.nodup_cons.mp hnd).2
    have := ih a (m :: R) ((m.src, m.dst) :: P) hc hnd' (by
      intro i hi m' hm' p hp
      rcases List.mem_cons.mp hp with rfl | hp
      · constructor
        · simp only
          rw [← hdst]
          intro e
          have := S.inj _ _ _ _ hmp hm' e
          subst this
          exact (List.nodup_cons.mp hnd).1 (List.mem_cons_of_mem _ hi)
        · simp only
          intro e
          have := S.inj _ _ _ _ hm hm' e
          subst this
          exact (List.nodup_cons.mp hnd').1 hi
      · exact hP i (List.mem_cons_of_mem _ hi) m' hm' p hp) h1
    simpa [movesOf, pairs, List.filterMap_append, hm] using this

theorem nodup_rev {l : List Nat} (h : l.Nodup) : l.reverse.Nodup := by
  unfold List.Nodup at *
  rw [List.pairwise_reverse]
  exact h.imp (fun h e => h e.symm)

theorem mem_split_first {a : Nat} {l : List Nat} (h : a ∈ l) :
    ∃ pre post, l = pre ++ a :: post ∧ a ∉ pre := by
  induction l with
  | nil => simp at h
  | cons b l ih =>
    by_cases e : a = b
    · exact ⟨[], l, by simp [e], by simp⟩
    · rcases List.mem_cons.mp h with h | h
      · exact absurd h e
      · obtain ⟨pre, post, h1, h2⟩ := ih h
        exact ⟨b :: pre, post, by simp [h1], by simp [e, h2]⟩

/-- The invariant of the search. `D` lists the moves emitted so far. -/
structure Inv (V : Type u) (ms : List (Move T)) (sc : Allocation) (st : List St) (stack : List Nat)
    (ret : List (Move T)) (used : Bool) (D : List Nat) : Prop where
  len : st.length = ms.length
  pend : ∀ i, st[i]? = some .Pending ↔ i ∈ stack
  nodup : stack.Nodup
  done : ∀ i, st[i]? = some .Done ↔ i ∈ D
  dnodup : D.Nodup
  chn : ∀ a l, stack = a :: l → chain ms a l
  closed : ∀ i ∈ D, ∀ j, Nx ms i j → j ∈ D
  sem : Sem V sc (ret.map (fillScratch sc)) (pairs ms D)
  exact_ : used = false → ret = movesOf ms D
  acyc : used = false → ∀ i ∈ D, ¬ Relation.TransGen (Nx ms) i i
  cyc : used = true → ∃ i, Relation.TransGen (Nx ms) i i
  locs : ∀ m ∈ ret, (m.src = Allocation.none ∨ ∃ m' ∈ ms, m'.src = m.src) ∧
    (m.dst = Allocation.none ∨ ∃ m' ∈ ms, m'.dst = m.dst) ∧
    (¬ (m.src = Allocation.none ∧ m.dst = Allocation.none)) ∧
    (used = false → m ∈ ms)

theorem chain_mem_lt {a : Nat} {l : List Nat} (h : chain ms a l) : ∀ i ∈ l, i < ms.length := by
  induction l generalizing a with
  | nil => simp
  | cons b l ih =>
    obtain ⟨⟨m, _, hm, _⟩, h2⟩ := h
    intro i hi
    rcases List.mem_cons.mp hi with rfl | hi
    · exact (List.getElem?_eq_some_iff.mp hm).1
    · exact ih h2 i hi

/-- elements of a chain reach its head in the `next` relation. -/
theorem chain_reach {a : Nat} {l : List Nat} (h : chain ms a l) :
    ∀ i ∈ l, Relation.TransGen (Nx ms) i a := by
  induction l generalizing a with
  | nil => simp
  | cons b l ih =>
    obtain ⟨h1, h2⟩ := h
    intro i hi
    rcases List.mem_cons.mp hi with rfl | hi
    · exact .single h1
    · exact (ih h2 i hi).tail h1

theorem chain_append {a : Nat} {l k : List Nat} (h : chain ms a (l ++ k)) : chain ms a l := by
  induction l generalizing a with
  | nil => trivial
  | cons b l ih => exact ⟨h.1, ih h.2⟩

theorem chain_right {a b : Nat} {l k : List Nat} (h : chain ms a (l ++ b :: k)) : chain ms b k := by
  induction l generalizing a with
  | nil => exact h.2
  | cons c l ih => exact ih h.2

/-- closedness transfers along reachability. -/
theorem closed_reach {D : List Nat} (hc : ∀ i ∈ D, ∀ j, Nx ms i j → j ∈ D) {i j : Nat}
    (h : Relation.TransGen (Nx ms) i j) (hi : i ∈ D) : j ∈ D := by
  induction h with
  | single h => exact hc _ hi _ h
  | tail _ h ih => exact hc _ ih _ h

theorem chain_closed (S : Setting ms) {a : Nat} {l D : List Nat} (h : chain ms a l)
    (hc : ∀ i ∈ D, ∀ j, Nx ms i j → j ∈ D) (ha : a ∈ D) :
    ∀ i ∈ l.reverse ++ D, ∀ j, Nx ms i j → j ∈ l.reverse ++ D := by
  induction l generalizing a D with
  | nil => simpa using hc
  | cons b l ih =>
    obtain ⟨h1, h2⟩ := h
    have := ih (D := b :: D) h2 (by
      intro i hi j hj
      rcases List.mem_cons.mp hi with rfl | hi
      · have := Nx.unique S hj h1
        subst this; exact List.mem_cons_of_mem _ ha
      · exact List.mem_cons_of_mem _ (hc i hi j hj)) List.mem_cons_self
    simpa using this

/-- a head of a transitive path. -/
theorem transGen_head {α : Type} {r : α → α → Prop} {a c : α} (h : Relation.TransGen r a c) :
    ∃ b, r a b ∧ (b = c ∨ Relation.TransGen r b c) := by
  induction h with
  | single h => exact ⟨_, h, Or.inl rfl⟩
  | tail _ h ih =>
    obtain ⟨b, h1, h2⟩ := ih
    refine ⟨b, h1, Or.inr ?_⟩
    rcases h2 with rfl | h2
    · exact .single h
    · exact h2.tail h

theorem chain_acyc {a : Nat} {l D : List Nat} (S : Setting ms) (h : chain ms a l)
    (hc : ∀ i ∈ D, ∀ j, Nx ms i j → j ∈ D) (ha : a ∈ D)
    (hnd : (l.reverse ++ D).Nodup) (hac : ∀ i ∈ D, ¬ Relation.TransGen (Nx ms) i i) :
    ∀ i ∈ l.reverse ++ D, ¬ Relation.TransGen (Nx ms) i i := by
  induction l generalizing a D with
  | nil => simpa using hac
  | cons b l ih =>
    obtain ⟨h1, h2⟩ := h
    have hnd' : (l.reverse ++ (b :: D)).Nodup := by simpa using hnd
    have hb : b ∉ D := by
      have := (List.nodup_append.mp hnd').2.1
      exact (List.nodup_cons.mp this).1
    have := ih (D := b :: D) h2 (by
      intro i hi j hj
      rcases List.mem_cons.mp hi with rfl | hi
      · have := Nx.unique S hj h1
        subst this; exact List.mem_cons_of_mem _ ha
      · exact List.mem_cons_of_mem _ (hc i hi j hj)) List.mem_cons_self hnd' (by
      intro i hi
      rcases List.mem_cons.mp hi with rfl | hi
      · intro hcyc
        obtain ⟨k, hk, hk2⟩ := transGen_head hcyc
        have := Nx.unique S hk h1
        subst this
        rcases hk2 with rfl | hk2
        · exact hb ha
        · exact hb (closed_reach hc hk2 ha)
      · exact hac i hi)
    simpa using this

theorem movesOf_mem {D : List Nat} {m : Move T} (h : m ∈ movesOf ms D) : m ∈ ms := by
  simp only [movesOf, List.mem_filterMap] at h
  obtain ⟨i, _, hi⟩ := h
  exact List.mem_of_getElem? hi

theorem movesOf_append (D E : List Nat) : movesOf ms (D ++ E) = movesOf ms D ++ movesOf ms E := by
  simp [movesOf]

theorem map_fill_movesOf (S : RealLocs ms) (sc : Allocation) (D : List Nat) :
    (movesOf ms D).map (fillScratch sc) = movesOf ms D := by
  conv => rhs; rw [← List.map_id (movesOf ms D)]
  apply List.map_congr_left
  intro m hm
  exact fill_real S (movesOf_mem hm)

theorem none_isNone : Allocation.none.isNone = true := by decide

/-- The emit-everything case of the inner loop. -/
theorem Inv.emit {sc : Allocation} {st : List St} {top : Nat} {rest : List Nat}
    {ret : List (Move T)} {used : Bool} {D : List Nat} {m : Move T} (S : Setting ms)
    (I : Inv V ms sc st (top :: rest) ret used D) (hm : ms[top]? = some m)
    (hnext : ∀ j, Nx ms top j → j ∈ D) :
    ∃ st' ret', popAll ms rest (st.set top .Done) (m :: ret) = some (st', ret') ∧
      Inv V ms sc st' [] ret' used (rest.reverse ++ top :: D) ∧
      (∀ i : Nat, st'[i]? = some St.ToDo ↔ st[i]? = some St.ToDo) := by
  have hch := I.chn top rest rfl
  have htop : top < ms.length := (List.getElem?_eq_some_iff.mp hm).1
  have hrest := chain_mem_lt hch
  have hnd := I.nodup
  have htD : top ∉ D := by
    intro h
    have h1 := (I.done top).mpr h
    have h2 := (I.pend top).mpr List.mem_cons_self
    rw [h1] at h2; simp at h2
  have hrD : ∀ i ∈ rest, i ∉ D := by
    intro i hi h
    have h1 := (I.done i).mpr h
    have h2 := (I.pend i).mpr (List.mem_cons_of_mem _ hi)
    rw [h1] at h2; simp at h2
  have hclosed1 : ∀ i ∈ top :: D, ∀ j, Nx ms i j → j ∈ top :: D := by
    intro i hi j hj
    rcases List.mem_cons.mp hi with rfl | hi
    · exact List.mem_cons_of_mem _ (hnext j hj)
    · exact List.mem_cons_of_mem _ (I.closed i hi j hj)
  have hndAll : (rest.reverse ++ top :: D).Nodup := by
    rw [List.nodup_append]
    refine ⟨nodup_rev (List.nodup_cons.mp hnd).2, List.nodup_cons.mpr ⟨htD, I.dnodup⟩, ?_⟩
    intro i hi j hj
    rw [List.mem_reverse] at hi
    rcases List.mem_cons.mp hj with rfl | hj
    · rintro rfl; exact (List.nodup_cons.mp hnd).1 hi
    · rintro rfl; exact hrD i hi hj
  have hst1 : ∀ i ∈ rest, i < (st.set top St.Done).length := by
    intro i hi; rw [List.length_set, I.len]; exact hrest i hi
  have hget : ∀ j, (rest.foldl (fun s i => s.set i St.Done) (st.set top St.Done))[j]? =
      if j ∈ top :: rest then some .Done else st[j]? := by
    intro j
    rw [foldl_set_get _ _ hst1]
    by_cases h : j ∈ rest
    · simp [h]
    · by_cases e : j = top
      · subst e
        have : j < st.length := by rw [I.len]; exact htop
        simp [this]
      · have : top ≠ j := fun x => e x.symm
        simp [h, e, List.getElem?_set_ne this]
  refine ⟨_, _, popAll_eq rest _ _ hrest, ?_, ?_⟩
  · refine ⟨?_, ?_, List.nodup_nil, ?_, hndAll, ?_, ?_, ?_, ?_, ?_, I.cyc, ?_⟩
    · rw [foldl_set_length, List.length_set, I.len]
    · intro i
      rw [hget]
      by_cases h : i ∈ top :: rest
      · simp [h]
      · rw [if_neg h, I.pend]; simp [h]
    · intro i
      rw [hget]
      by_cases h : i ∈ top :: rest
      · simp only [h, if_true, true_iff]
        rcases List.mem_cons.mp h with rfl | h
        · simp
        · simp [h]
      · rw [if_neg h, I.done]
        have h1 : i ≠ top := fun e => h (by simp [e])
        have h2 : i ∉ rest := fun e => h (by simp [e])
        simp [h1, h2]
    · intro a l h; simp at h
    · exact chain_closed S hch hclosed1 List.mem_cons_self
    · have h1 : Sem V sc (m :: ret.map (fillScratch sc)) ((m.src, m.dst) :: pairs ms D) := by
        apply I.sem.push
        · intro p hp e
          obtain ⟨i, hi, mi, hmi, rfl⟩ := mem_pairs.mp hp
          exact htD (I.closed i hi top ⟨mi, m, hmi, hm, e.symm⟩)
        · intro p hp e
          obtain ⟨i, hi, mi, hmi, rfl⟩ := mem_pairs.mp hp
          have := S.inj _ _ _ _ hmi hm e
          subst this; exact htD hi
      rw [← pairs_cons hm] at h1
      have h2 := Sem.chain S rest top _ _ hch hnd (by
        intro i hi mi hmi p hp
        obtain ⟨k, hk, mk, hmk, rfl⟩ := mem_pairs.mp hp
        have hi' : i ∉ top :: D := by
          intro h
          rcases List.mem_cons.mp h with rfl | h
          · exact (List.nodup_cons.mp hnd).1 hi
          · exact hrD i hi h
        constructor
        · intro e
          exact hi' (hclosed1 k hk i ⟨mk, mi, hmk, hmi, e.symm⟩)
        · intro e
          have := S.inj _ _ _ _ hmk hmi e
          subst this; exact hi' hk) h1
      rw [pairs_append]
      rw [List.map_append, List.map_cons, map_fill_movesOf S.real,
        fill_real S.real (List.mem_of_getElem? hm)]
      exact h2
    · intro hu
      rw [movesOf_append, movesOf_cons hm, I.exact_ hu]
    · intro hu
      apply chain_acyc S hch hclosed1 List.mem_cons_self hndAll
      intro i hi
      rcases List.mem_cons.mp hi with rfl | hi
      · intro hcyc
        obtain ⟨k, hk, hk2⟩ := transGen_head hcyc
        have hkD := hnext k hk
        rcases hk2 with rfl | hk2
        · exact htD hkD
        · exact htD (closed_reach I.closed hk2 hkD)
      · exact I.acyc hu i hi
    · intro x hx
      rw [List.mem_append] at hx
      have hin : ∀ x : Move T, x ∈ ms → (x.src = Allocation.none ∨ ∃ m' ∈ ms, m'.src = x.src) ∧
          (x.dst = Allocation.none ∨ ∃ m' ∈ ms, m'.dst = x.dst) ∧
          (¬ (x.src = Allocation.none ∧ x.dst = Allocation.none)) ∧ (used = false → x ∈ ms) := by
        intro x hx
        refine ⟨Or.inr ⟨x, hx, rfl⟩, Or.inr ⟨x, hx, rfl⟩, ?_, fun _ => hx⟩
        rintro ⟨e, _⟩
        have := (S.real x hx).1
        rw [e, none_isNone] at this; simp at this
      rcases hx with hx | hx
      · exact hin x (movesOf_mem hx)
      · rcases List.mem_cons.mp hx with rfl | hx
        · exact hin x (List.mem_of_getElem? hm)
        · exact I.locs x hx
  · intro i
    rw [hget]
    by_cases h : i ∈ top :: rest
    · rw [if_pos h]
      have := (I.pend i).mpr h
      rw [this]; simp
    · rw [if_neg h]

/-- The push case of the inner loop. -/
theorem Inv.pushNext {sc : Allocation} {st : List St} {top next : Nat} {rest : List Nat}
    {ret : List (Move T)} {used : Bool} {D : List Nat}
    (I : Inv V ms sc st (top :: rest) ret used D) (hnx : Nx ms top next)
    (htodo : st[next]? = some .ToDo) :
    Inv V ms sc (st.set next .Pending) (next :: top :: rest) ret used D := by
  have hlt : next < st.length := (List.getElem?_eq_some_iff.mp htodo).1
  have hns : next ∉ top :: rest := by
    intro h
    have := (I.pend next).mpr h
    rw [htodo] at this; simp at this
  have hnd : next ∉ D := by
    intro h
    have := (I.done next).mpr h
    rw [htodo] at this; simp at this
  have hget : ∀ j, (st.set next St.Pending)[j]? = if j = next then some .Pending else st[j]? := by
    intro j
    by_cases e : j = next
    · subst e; simp [hlt]
    · have : next ≠ j := fun x => e x.symm
      simp [e, List.getElem?_set_ne this]
  refine ⟨by rw [List.length_set, I.len], ?_, List.nodup_cons.mpr ⟨hns, I.nodup⟩, ?_, I.dnodup, ?_,
    I.closed, I.sem, I.exact_, I.acyc, I.cyc, I.locs⟩
  · intro i
    rw [hget]
    by_cases e : i = next
    · simp [e]
    · rw [if_neg e, I.pend]; simp [e]
  · intro i
    rw [hget]
    by_cases e : i = next
    · subst e; simp [hnd]
    · rw [if_neg e, I.done]
  · intro a l h
    cases h
    exact ⟨hnx, I.chn top rest rfl⟩

/-- The cycle case of the inner loop. -/
theorem Inv.cycle [Inhabited T] {sc : Allocation} {st : List St} {top next : Nat} {rest : List Nat}
    {ret : List (Move T)} {used : Bool} {D : List Nat} {m : Move T} (S : Setting ms)
    (hsc : ¬ Mentions ms sc)
    (I : Inv V ms sc st (top :: rest) ret used D) (hm : ms[top]? = some m) (hnx : Nx ms top next)
    (hpend : st[next]? = some .Pending) :
    ∃ stack' st' ret' D',
      popUntil ms next rest (st.set top .Done) (⟨Allocation.none, m.dst, m.t⟩ :: ret)
        = some (stack', st', ret') ∧
      Inv V ms sc st' stack' (⟨m.src, Allocation.none, default⟩ :: ret') true D' ∧
      stack'.length ≤ rest.length ∧
      (∀ i : Nat, st'[i]? = some St.ToDo ↔ st[i]? = some St.ToDo) ∧ (∀ i ∈ D, i ∈ D') := by
  have hch := I.chn top rest rfl
  have htop : top < ms.length := (List.getElem?_eq_some_iff.mp hm).1
  have hnd := I.nodup
  -- `next` is on the stack below `top`
  have hne : next ≠ top := by
    rintro rfl
    obtain ⟨a, b, ha, hb, hab⟩ := hnx
    rw [ha] at hb; cases hb
    exact S.noself a (List.mem_of_getElem? ha) hab.symm
  have hmem : next ∈ rest := by
    rcases List.mem_cons.mp ((I.pend next).mp hpend) with h | h
    · exact absurd h hne
    · exact h
  obtain ⟨pre, post, hrest, hnpre⟩ := mem_split_first hmem
  subst hrest
  have hchain := hch
  have hlt := chain_mem_lt hch
  have hcpre : chain ms top (pre ++ [next]) := by
    have : pre ++ next :: post = (pre ++ [next]) ++ post := by simp
    rw [this] at hch
    exact chain_append hch
  have hltp : ∀ i ∈ pre ++ [next], i < ms.length := by
    intro i hi; apply hlt; simp at hi ⊢; grind
  have hCsub : ∀ i ∈ pre ++ [next], i ∈ pre ++ next :: post := by
    intro i hi; simp at hi ⊢; grind
  have htD : top ∉ D := by
    intro h
    have h1 := (I.done top).mpr h
    have h2 := (I.pend top).mpr List.mem_cons_self
    rw [h1] at h2; simp at h2
  have hrD : ∀ i ∈ pre ++ next :: post, i ∉ D := by
    intro i hi h
    have h1 := (I.done i).mpr h
    have h2 := (I.pend i).mpr (List.mem_cons_of_mem _ hi)
    rw [h1] at h2; simp at h2
  have htr : top ∉ pre ++ next :: post := (List.nodup_cons.mp hnd).1
  have hndr : (pre ++ next :: post).Nodup := (List.nodup_cons.mp hnd).2
  have hndp : (pre ++ [next]).Nodup := by
    have : pre ++ next :: post = (pre ++ [next]) ++ post := by simp
    rw [this] at hndr
    exact (List.nodup_append.mp hndr).1
  have hndAll : ((pre ++ [next]).reverse ++ top :: D).Nodup := by
    rw [List.nodup_append]
    refine ⟨nodup_rev hndp, List.nodup_cons.mpr ⟨htD, I.dnodup⟩, ?_⟩
    intro i hi j hj
    rw [List.mem_reverse] at hi
    rcases List.mem_cons.mp hj with rfl | hj
    · rintro rfl; exact htr (hCsub i hi)
    · rintro rfl; exact hrD i (hCsub i hi) hj
  have hst1 : ∀ i ∈ pre ++ [next], i < (st.set top St.Done).length := by
    intro i hi; rw [List.length_set, I.len]; exact hltp i hi
  have hget : ∀ j, ((pre ++ [next]).foldl (fun s i => s.set i St.Done) (st.set top St.Done))[j]? =
      if j ∈ top :: (pre ++ [next]) then some .Done else st[j]? := by
    intro j
    rw [foldl_set_get _ _ hst1]
    by_cases h : j ∈ pre ++ [next]
    · rw [if_pos h, if_pos (List.mem_cons_of_mem _ h)]
    · rw [if_neg h]
      by_cases e : j = top
      · subst e
        have : j < st.length := by rw [I.len]; exact htop
        simp [this]
      · have h1 : top ≠ j := fun x => e x.symm
        have h2 : j ∉ top :: (pre ++ [next]) := by
          intro h3
          rcases List.mem_cons.mp h3 with h3 | h3
          · exact e h3
          · exact h h3
        rw [if_neg h2, List.getElem?_set_ne h1]
  have hcycle : Relation.TransGen (Nx ms) top top :=
    Relation.TransGen.trans (.single hnx) (chain_reach hcpre next (by simp))
  have hmsc : ∀ m' ∈ ms, m'.src ≠ sc ∧ m'.dst ≠ sc := by
    intro m' hm'
    exact ⟨fun e => hsc ⟨m', hm', Or.inl e⟩, fun e => hsc ⟨m', hm', Or.inr e⟩⟩
  have hmmem := List.mem_of_getElem? hm
  refine ⟨post, _, _, (pre ++ [next]).reverse ++ top :: D, popUntil_eq pre post next _ _ hltp hnpre, ?_,
    by simp; omega, ?_, by intro i hi; simp [hi]⟩
  · refine ⟨?_, ?_, ?_, ?_, hndAll, ?_, ?_, ?_, by simp, by simp, fun _ => ⟨top, hcycle⟩, ?_⟩
    · rw [foldl_set_length, List.length_set, I.len]
    · intro i
      rw [hget]
      by_cases h : i ∈ top :: (pre ++ [next])
      · simp only [h, if_true]
        constructor
        · intro h; simp at h
        · intro hp
          exfalso
          rcases List.mem_cons.mp h with rfl | h
          · exact htr (by simp [hp])
          · have : pre ++ next :: post = (pre ++ [next]) ++ post := by simp
            rw [this] at hndr
            exact (List.nodup_append.mp hndr).2.2 i h i hp rfl
      · rw [if_neg h, I.pend]
        simp at h ⊢
        constructor
        · rintro (h1 | h1 | h1 | h1)
          · exact absurd h1 h.1
          · exact absurd h1 h.2.1
          · exact absurd h1 h.2.2
          · exact h1
        · intro h1; exact Or.inr (Or.inr (Or.inr h1))
    · have : pre ++ next :: post = (pre ++ [next]) ++ post := by simp
      rw [this] at hndr
      exact (List.nodup_append.mp hndr).2.1
    · intro i
      rw [hget]
      by_cases h : i ∈ top :: (pre ++ [next])
      · simp only [h, if_true, true_iff]
        rw [List.mem_append, List.mem_reverse]
        rcases List.mem_cons.mp h with rfl | h
        · exact Or.inr List.mem_cons_self
        · exact Or.inl h
      · rw [if_neg h, I.done, List.mem_append, List.mem_reverse]
        constructor
        · intro h1; exact Or.inr (List.mem_cons_of_mem _ h1)
        · rintro (h1 | h1)
          · exact absurd (List.mem_cons_of_mem _ h1) h
          · rcases List.mem_cons.mp h1 with rfl | h1
            · exact absurd List.mem_cons_self h
            · exact h1
    · intro a l h
      subst h
      have : pre ++ next :: a :: l = (pre ++ [next]) ++ a :: l := by simp
      rw [this] at hchain
      exact chain_right hchain
    · -- closedness: top → next, and the chain leads back to top
      intro i hi j hj
      rw [List.mem_append, List.mem_reverse] at hi
      have hchainmem : ∀ (p : Nat) (l : List Nat), chain ms p l → ∀ i ∈ l, ∀ j, Nx ms i j → j ∈ p :: l := by
        intro p l
        induction l generalizing p with
        | nil => simp
        | cons b l ih =>
          rintro ⟨h1, h2⟩ i hi j hj
          rcases List.mem_cons.mp hi with rfl | hi
          · have := Nx.unique S hj h1
            subst this; exact List.mem_cons_self
          · exact List.mem_cons_of_mem _ (ih b h2 i hi j hj)
      rw [List.mem_append, List.mem_reverse]
      rcases hi with hi | hi
      · rcases List.mem_cons.mp (hchainmem top _ hcpre i hi j hj) with rfl | h
        · exact Or.inr List.mem_cons_self
        · exact Or.inl h
      · rcases List.mem_cons.mp hi with rfl | hi
        · have := Nx.unique S hj hnx
          subst this; exact Or.inl (by simp)
        · exact Or.inr (List.mem_cons_of_mem _ (I.closed i hi j hj))
    · -- semantics
      have h1 : Sem V sc ((⟨sc, m.dst, m.t⟩ : Move T) :: ret.map (fillScratch sc))
          ((sc, m.dst) :: pairs ms D) := by
        apply I.sem.push (⟨sc, m.dst, m.t⟩ : Move T)
        · intro p hp e
          obtain ⟨i, hi, mi, hmi, rfl⟩ := mem_pairs.mp hp
          exact htD (I.closed i hi top ⟨mi, m, hmi, hm, e.symm⟩)
        · intro p hp e
          obtain ⟨i, hi, mi, hmi, rfl⟩ := mem_pairs.mp hp
          have := S.inj _ _ _ _ hmi hm e
          subst this; exact htD hi
      have hndc : (top :: (pre ++ [next])).Nodup :=
        List.nodup_cons.mpr ⟨fun h => htr (hCsub _ h), hndp⟩
      have h2 := Sem.chain S (pre ++ [next]) top _ _ hcpre hndc (by
        intro i hi mi hmi p hp
        have hi' := hrD i (hCsub i hi)
        have hit : i ≠ top := by rintro rfl; exact htr (hCsub i hi)
        rcases List.mem_cons.mp hp with rfl | hp
        · constructor
          · simp only
            exact fun e => (hmsc mi (List.mem_of_getElem? hmi)).2 e.symm
          · simp only
            intro e
            exact hit (S.inj _ _ _ _ hmi hm e.symm)
        · obtain ⟨k, hk, mk, hmk, rfl⟩ := mem_pairs.mp hp
          constructor
          · intro e
            exact hi' (I.closed k hk i ⟨mk, mi, hmk, hmi, e.symm⟩)
          · intro e
            have := S.inj _ _ _ _ hmk hmi e
            subst this; exact hi' hk) h1
      have hsrc : ∀ E : List Nat, ∀ p ∈ pairs ms E, p.1 ≠ sc := by
        intro E p hp
        obtain ⟨k, hk, mk, hmk, rfl⟩ := mem_pairs.mp hp
        exact (hmsc mk (List.mem_of_getElem? hmk)).1
      have h3 := Sem.save (s := m.src) (t := (default : T)) h2 (hsrc _) (hsrc _)
      rw [pairs_append, pairs_cons hm]
      have hf1 : fillScratch sc (⟨m.src, Allocation.none, default⟩ : Move T) = ⟨m.src, sc, default⟩ := by
        simp [fillScratch, none_isNone, (S.real m hmmem).1]
      have hf2 : fillScratch sc (⟨Allocation.none, m.dst, m.t⟩ : Move T) = ⟨sc, m.dst, m.t⟩ := by
        simp [fillScratch, none_isNone, (S.real m hmmem).2]
      rw [List.map_cons, hf1, List.map_append, map_fill_movesOf S.real, List.map_cons, hf2]
      exact h3
    · intro x hx
      have hreal : ∀ y ∈ ms, y.src ≠ Allocation.none ∧ y.dst ≠ Allocation.none := by
        intro y hy
        obtain ⟨a, b⟩ := S.real y hy
        constructor
        · intro e; rw [e, none_isNone] at a; simp at a
        · intro e; rw [e, none_isNone] at b; simp at b
      rcases List.mem_cons.mp hx with rfl | hx
      · refine ⟨Or.inr ⟨m, hmmem, rfl⟩, Or.inl rfl, ?_, by simp⟩
        rintro ⟨e, _⟩; exact (hreal m hmmem).1 e
      · rw [List.mem_append] at hx
        rcases hx with hx | hx
        · have hx' := movesOf_mem hx
          refine ⟨Or.inr ⟨x, hx', rfl⟩, Or.inr ⟨x, hx', rfl⟩, ?_, by simp⟩
          rintro ⟨e, _⟩; exact (hreal x hx').1 e
        · rcases List.mem_cons.mp hx with rfl | hx
          · refine ⟨Or.inl rfl, Or.inr ⟨m, hmmem, rfl⟩, ?_, by simp⟩
            rintro ⟨_, e⟩; exact (hreal m hmmem).2 e
          · obtain ⟨a, b, c, _⟩ := I.locs x hx
            exact ⟨a, b, c, by simp⟩
  · intro i
    rw [hget]
    by_cases h : i ∈ top :: (pre ++ [next])
    · rw [if_pos h]
      have : i ∈ top :: (pre ++ next :: post) := by
        rcases List.mem_cons.mp h with rfl | h
        · exact List.mem_cons_self
        · exact List.mem_cons_of_mem _ (hCsub i h)
      rw [(I.pend i).mpr this]; simp
    · rw [if_neg h]

end dfs

end Regalloc.Moves
