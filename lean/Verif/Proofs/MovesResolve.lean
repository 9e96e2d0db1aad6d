import Verif.Proofs.Moves

namespace Regalloc.Moves

variable {T : Type} {V : Type u}

/-- number of moves not yet visited. -/
def todo (st : List St) : Nat := st.countP (fun s => decide (s = .ToDo))

theorem todo_congr {st st' : List St}
    (h : ∀ i : Nat, st'[i]? = some St.ToDo ↔ st[i]? = some St.ToDo)
    (hl : st'.length = st.length) : todo st' = todo st := by
  have : st'.map (fun s => decide (s = .ToDo)) = st.map (fun s => decide (s = .ToDo)) := by
    apply List.ext_getElem?
    intro i
    have hi := h i
    simp only [List.getElem?_map]
    by_cases hlt : i < st.length
    · have h1 : st[i]? = some st[i] := by simp [hlt]
      have h2 : st'[i]? = some (st'[i]'(by omega)) := by simp [hl, hlt]
      rw [h1, h2] at hi ⊢
      simp only [Option.some.injEq] at hi
      simp [hi]
    · rw [List.getElem?_eq_none (by omega), List.getElem?_eq_none (by omega)]
  have e : ∀ l : List St, l.countP (fun s => decide (s = .ToDo)) =
      (l.map (fun s => decide (s = .ToDo))).countP id := by
    intro l; rw [List.countP_map]; rfl
  unfold todo
  rw [e, e, this]

theorem todo_set {st : List St} {i : Nat} (h : st[i]? = some .ToDo) :
    todo (st.set i .Pending) + 1 = todo st := by
  obtain ⟨hlt, hi⟩ := List.getElem?_eq_some_iff.mp h
  unfold todo
  rw [List.countP_set hlt, hi]
  have : 0 < st.countP (fun s => decide (s = .ToDo)) := by
    rw [List.countP_pos_iff]
    exact ⟨st[i], List.getElem_mem hlt, by simp [hi]⟩
  simp
  omega

section
variable {ms : List (Move T)} [Inhabited T]

theorem inner_spec (S : Setting ms) {sc : Allocation} (hsc : ¬ Mentions ms sc) (fuel : Nat) :
    ∀ (st : List St) (stack : List Nat) (ret : List (Move T)) (used : Bool) (D : List Nat),
      Inv V ms sc st stack ret used D → 2 * todo st + stack.length < fuel →
      ∃ st' ret' used' D', inner ms (mustComeBefore ms) fuel st stack ret used = some (st', ret', used') ∧
        Inv V ms sc st' [] ret' used' D' ∧ todo st' ≤ todo st := by
  induction fuel with
  | zero => intro st stack ret used D _ h; omega
  | succ fuel ih =>
    intro st stack ret used D I hf
    cases stack with
    | nil => exact ⟨st, ret, used, D, rfl, I, Nat.le_refl _⟩
    | cons top rest =>
      have htopst := (I.pend top).mpr List.mem_cons_self
      have htop : top < ms.length := by
        rw [← I.len]; exact (List.getElem?_eq_some_iff.mp htopst).1
      have hm : ms[top]? = some ms[top] := by simp [htop]
      have hmcb : (mustComeBefore ms)[top]? = some (findDst ms ms[top].src) := by
        rw [mcb_get, hm]; rfl
      have hemit : (∀ j, Nx ms top j → j ∈ D) →
          ∃ st' ret' used' D',
            (match popAll ms rest (st.set top .Done) (ms[top] :: ret) with
              | none => none
              | some (st', ret') => inner ms (mustComeBefore ms) fuel st' [] ret' used)
              = some (st', ret', used') ∧
            Inv V ms sc st' [] ret' used' D' ∧ todo st' ≤ todo st := by
        intro hnext
        obtain ⟨st1, ret1, h1, h2, h3⟩ := I.emit S hm hnext
        have ht := todo_congr h3 (by rw [h2.len, I.len])
        rw [h1]
        obtain ⟨st', ret', used', D', h4, h5, h6⟩ := ih st1 [] ret1 used _ h2 (by simp at hf ⊢; omega)
        exact ⟨st', ret', used', D', h4, h5, by omega⟩
      simp only [inner, hm, hmcb]
      cases hfd : findDst ms ms[top].src with
      | none =>
        simp only
        exact hemit (fun j hj => absurd hj (Nx.not_of_none hm hfd))
      | some next =>
        have hnx := Nx.of_findDst hm hfd
        have hnlt : next < st.length := by
          obtain ⟨m', hm', _⟩ := findDst_some hfd
          rw [I.len]; exact (List.getElem?_eq_some_iff.mp hm').1
        have hst : st[next]? = some st[next] := by simp [hnlt]
        simp only [hst]
        cases hs : st[next] with
        | Done =>
          simp only
          refine hemit (fun j hj => ?_)
          have := Nx.unique S hj hnx
          subst this
          exact (I.done j).mp (by rw [hst, hs])
        | ToDo =>
          simp only
          rw [hs] at hst
          have I' := I.pushNext hnx hst
          have ht := todo_set hst
          obtain ⟨st', ret', used', D', h4, h5, h6⟩ := ih _ _ _ _ _ I' (by simp at hf ⊢; omega)
          exact ⟨st', ret', used', D', h4, h5, by omega⟩
        | Pending =>
          simp only
          rw [hs] at hst
          obtain ⟨stack1, st1, ret1, D1, h1, h2, h3, h4, _⟩ := I.cycle S hsc hm hnx hst
          have ht := todo_congr h4 (by rw [h2.len, I.len])
          rw [h1]
          simp only
          obtain ⟨st', ret', used', D', h5, h6, h7⟩ := ih _ _ _ _ _ h2 (by simp at hf ⊢; omega)
          exact ⟨st', ret', used', D', h5, h6, by omega⟩

omit [Inhabited T] in
theorem Inv.start {sc : Allocation} {st : List St} {ret : List (Move T)} {used : Bool} {D : List Nat}
    {next : Nat} (I : Inv V ms sc st [] ret used D) (h : st[next]? = some .ToDo) :
    Inv V ms sc (st.set next .Pending) [next] ret used D := by
  have hlt : next < st.length := (List.getElem?_eq_some_iff.mp h).1
  have hnd : next ∉ D := by
    intro h'
    have := (I.done next).mpr h'
    rw [h] at this; simp at this
  have hget : ∀ j, (st.set next St.Pending)[j]? = if j = next then some .Pending else st[j]? := by
    intro j
    by_cases e : j = next
    · subst e; simp [hlt]
    · have : next ≠ j := fun x => e x.symm
      simp [e, List.getElem?_set_ne this]
  refine ⟨by rw [List.length_set, I.len], ?_, by simp, ?_, I.dnodup, ?_,
    I.closed, I.sem, I.exact_, I.acyc, I.cyc, I.locs⟩
  · intro i
    rw [hget]
    by_cases e : i = next
    · simp [e]
    · rw [if_neg e, I.pend]; simp [e]
  · intro i
    rw [hget]
    by_cases e : i = next
    · subst e; simp [hnd]
    · rw [if_neg e, I.done]
  · intro a l h
    cases h
    trivial

theorem outer_spec (S : Setting ms) {sc : Allocation} (hsc : ¬ Mentions ms sc) (fuel : Nat) :
    ∀ (st : List St) (ret : List (Move T)) (used : Bool) (D : List Nat),
      Inv V ms sc st [] ret used D → todo st < fuel →
      ∃ st' ret' used' D', outer ms (mustComeBefore ms) fuel st ret used = some (ret', used') ∧
        Inv V ms sc st' [] ret' used' D' ∧ (∀ i, i < ms.length → i ∈ D') := by
  induction fuel with
  | zero => intro st ret used D _ h; omega
  | succ fuel ih =>
    intro st ret used D I hf
    simp only [outer]
    cases hfi : st.findIdx? (fun s => decide (s = .ToDo)) with
    | none =>
      refine ⟨st, ret, used, D, rfl, I, ?_⟩
      intro i hi
      rw [List.findIdx?_eq_none_iff] at hfi
      have hlt : i < st.length := by rw [I.len]; exact hi
      have hst : st[i]? = some st[i] := by simp [hlt]
      rw [← I.done, hst]
      have h1 : st[i] ≠ .ToDo := by simpa using hfi _ (List.getElem_mem hlt)
      have h2 : st[i] ≠ .Pending := by
        intro e
        have := (I.pend i).mp (by rw [hst, e])
        simp at this
      cases h : st[i] <;> simp_all
    | some next =>
      have hst : st[next]? = some .ToDo := by
        rw [List.findIdx?_eq_some_iff_getElem] at hfi
        obtain ⟨h1, h2, _⟩ := hfi
        simp only [decide_eq_true_eq] at h2
        simp [h1, h2]
      have ht := todo_set hst
      have htl : todo st ≤ ms.length := by rw [← I.len]; exact List.countP_le_length
      obtain ⟨st1, ret1, used1, D1, h1, h2, h3⟩ :=
        inner_spec S hsc (2 * ms.length + 2) _ _ _ _ _ (I.start hst) (by simp; omega)
      simp only [h1]
      exact ih st1 ret1 used1 D1 h2 (by omega)

omit [Inhabited T] in
theorem Inv.init (ms : List (Move T)) (sc : Allocation) :
    Inv V ms sc (List.replicate ms.length .ToDo) [] [] false [] := by
  refine ⟨by simp, ?_, List.nodup_nil, ?_, List.nodup_nil, by simp, by simp, ?_, by simp [movesOf],
    by simp, by simp, by simp⟩
  · intro i; simp [List.getElem?_replicate]
  · intro i; simp [List.getElem?_replicate]
  · simpa [pairs] using Sem.nil sc

end

/-! ### Preparation: sort, dedup, drop self-moves -/

theorem mem_dedup [DecidableEq T] (l : List (Move T)) (m : Move T) : m ∈ dedup l ↔ m ∈ l := by
  fun_induction dedup l with
  | case1 => simp
  | case2 a => simp
  | case3 b l ih => rw [ih]; simp
  | case4 a b l h ih => simp [ih]

theorem dedup_sublist [DecidableEq T] (l : List (Move T)) : (dedup l).Sublist l := by
  fun_induction dedup l with
  | case1 => simp
  | case2 a => simp
  | case3 b l ih => exact List.Sublist.cons _ ih
  | case4 a b l h ih => exact List.Sublist.cons_cons _ ih

theorem mem_sortMoves (l : List (Move T)) (m : Move T) : m ∈ sortMoves l ↔ m ∈ l := mem_isort

theorem sorted_sortMoves (l : List (Move T)) :
    (sortMoves l).Pairwise (fun a b => (key a).toNat ≤ (key b).toNat) := by
  have := pairwise_isort (le := fun a b : Move T => decide (key a ≤ key b))
    (by intro a b c h1 h2; simp only [decide_eq_true_eq] at *; exact UInt64.le_trans h1 h2)
    (by intro a b; simp only [decide_eq_true_eq]; exact UInt64.le_total _ _) l
  unfold sortMoves
  refine this.imp ?_
  intro a b h
  simpa [UInt64.le_iff_toNat_le] using h

theorem key_eq {a b : Move T} (h : (key a).toNat = (key b).toNat) : a.dst = b.dst ∧ a.src = b.src := by
  unfold key at h
  rw [u64Key_toNat, u64Key_toNat] at h
  have h1 := a.dst.bits.toNat_lt
  have h2 := b.dst.bits.toNat_lt
  have h3 := a.src.bits.toNat_lt
  have h4 := b.src.bits.toNat_lt
  exact ⟨Allocation.ext_toNat (by omega), Allocation.ext_toNat (by omega)⟩

/-- In a key-sorted list with unique writers, deduplication leaves distinct
destinations. -/
theorem dedup_distinct [DecidableEq T] (l : List (Move T))
    (hs : l.Pairwise (fun a b => (key a).toNat ≤ (key b).toNat)) (hu : UniqueWriters l) :
    (dedup l).Pairwise (fun a b => a.dst ≠ b.dst) := by
  fun_induction dedup l with
  | case1 => exact List.Pairwise.nil
  | case2 a => simp
  | case3 b l ih =>
    exact ih (List.pairwise_cons.mp hs).2
      (fun m hm m' hm' => hu m (List.mem_cons_of_mem _ hm) m' (List.mem_cons_of_mem _ hm'))
  | case4 a b l hab ih =>
    have hs' := List.pairwise_cons.mp hs
    have hu' : UniqueWriters (b :: l) :=
      fun m hm m' hm' => hu m (List.mem_cons_of_mem _ hm) m' (List.mem_cons_of_mem _ hm')
    refine List.pairwise_cons.mpr ⟨?_, ih hs'.2 hu'⟩
    intro c hc e
    have hc' : c ∈ b :: l := (mem_dedup _ _).mp hc
    have hac : a = c := hu a (by simp) c (List.mem_cons_of_mem _ hc') e
    subst hac
    -- key a ≤ key b ≤ key a, so b has the same destination
    rcases List.mem_cons.mp hc' with h | h
    · exact hab h
    · have h1 := hs'.1 b (by simp)
      have h2 := (List.pairwise_cons.mp hs'.2).1 a h
      have h3 := key_eq (a := a) (b := b) (by omega)
      exact hab (hu a (by simp) b (by simp) h3.1)

theorem pairwise_dst_inj {l : List (Move T)} (h : l.Pairwise (fun a b => a.dst ≠ b.dst)) :
    ∀ (i j : Nat) (m m' : Move T), l[i]? = some m → l[j]? = some m' → m.dst = m'.dst → i = j := by
  intro i j m m' hi hj e
  obtain ⟨hi1, hi2⟩ := List.getElem?_eq_some_iff.mp hi
  obtain ⟨hj1, hj2⟩ := List.getElem?_eq_some_iff.mp hj
  rw [List.pairwise_iff_getElem] at h
  rcases Nat.lt_trichotomy i j with hlt | heq | hgt
  · have := h i j hi1 hj1 hlt
    rw [hi2, hj2] at this; exact absurd e this
  · exact heq
  · have := h j i hj1 hi1 hgt
    rw [hi2, hj2] at this; exact absurd e.symm this

/-- The prepared list of moves. -/
def prepared [DecidableEq T] (ms : List (Move T)) : List (Move T) :=
  (dedup (sortMoves ms)).filter (fun m => decide (m.src ≠ m.dst))

theorem mem_prepared [DecidableEq T] {ms : List (Move T)} {m : Move T} :
    m ∈ prepared ms ↔ m ∈ ms ∧ m.src ≠ m.dst := by
  simp [prepared, mem_dedup, mem_sortMoves]

theorem prepared_setting [DecidableEq T] {ms : List (Move T)} (hu : UniqueWriters ms)
    (hr : RealLocs ms) : Setting (prepared ms) := by
  refine ⟨?_, fun m hm => (mem_prepared.mp hm).2, fun m hm => hr m (mem_prepared.mp hm).1⟩
  apply pairwise_dst_inj
  apply List.Pairwise.filter
  apply dedup_distinct _ (sorted_sortMoves ms)
  intro m hm m' hm'
  exact hu m ((mem_sortMoves _ _).mp hm) m' ((mem_sortMoves _ _).mp hm')

theorem transGen_first {α : Type u} {r : α → α → Prop} {a b : α} (h : Relation.TransGen r a b) :
    ∃ c, r a c := by
  induction h with
  | single h => exact ⟨_, h⟩
  | tail _ _ ih => exact ih

theorem transGen_last {α : Type u} {r : α → α → Prop} {a b : α} (h : Relation.TransGen r a b) :
    ∃ c, r c b := by
  cases h with
  | single h => exact ⟨_, h⟩
  | tail _ h => exact ⟨_, h⟩

theorem feeds_of_nx {ms : List (Move T)} (S : Setting ms) {i j : Nat} {m m' : Move T} (h : Nx ms i j)
    (hm : ms[i]? = some m) (hm' : ms[j]? = some m') : Feeds ms m.dst m'.dst := by
  obtain ⟨a, b, ha, hb, e⟩ := h
  rw [hm] at ha; rw [hm'] at hb; cases ha; cases hb
  have hmem := List.mem_of_getElem? hm
  exact ⟨m, hmem, e.symm, rfl, by rw [e]; exact S.noself m hmem⟩

/-- cycles in the `next` relation are cycles of locations. -/
theorem nx_cycle_iff {ms : List (Move T)} (S : Setting ms) :
    (∃ i, Relation.TransGen (Nx ms) i i) ↔ HasCycle ms := by
  constructor
  · rintro ⟨i, h⟩
    have key : ∀ i j, Relation.TransGen (Nx ms) i j → ∀ m m' : Move T, ms[i]? = some m →
        ms[j]? = some m' → Relation.TransGen (Feeds ms) m.dst m'.dst := by
      intro i j h
      induction h with
      | single h =>
        intro m m' hm hm'
        exact .single (feeds_of_nx S h hm hm')
      | tail h1 h2 ih =>
        intro m m' hm hm'
        have h2' := h2
        obtain ⟨a, b, ha, hb, e⟩ := h2
        exact (ih m a hm ha).tail (feeds_of_nx S h2' ha hm')
    obtain ⟨k, m, _, hm, _⟩ := transGen_first h
    exact ⟨m.dst, key i i h m m hm hm⟩
  · rintro ⟨a, h⟩
    have key : ∀ a b, Relation.TransGen (Feeds ms) a b → ∀ (i j : Nat) (m m' : Move T),
        ms[i]? = some m → m.dst = a → ms[j]? = some m' → m'.dst = b →
        Relation.TransGen (Nx ms) i j := by
      intro a b h
      induction h with
      | single h =>
        intro i j m m' hi ei hj ej
        obtain ⟨x, hx, hs, hd, _⟩ := h
        obtain ⟨k, hk⟩ := List.getElem?_of_mem hx
        have := S.inj k i x m hk hi (by rw [hd, ei])
        subst this
        rw [hi] at hk; cases hk
        exact .single ⟨_, _, hi, hj, by rw [ej, hs]⟩
      | tail h1 h2 ih =>
        intro i j m m' hi ei hj ej
        obtain ⟨x, hx, hs, hd, _⟩ := h2
        obtain ⟨k, hk⟩ := List.getElem?_of_mem hx
        exact (ih i k m x hi ei hk hd).tail ⟨_, _, hk, hj, by rw [ej, hs]⟩
    obtain ⟨b, m, hm, _, hd, _⟩ := transGen_first h
    obtain ⟨j, hj⟩ := List.getElem?_of_mem hm
    exact ⟨j, key a a h j j m m hj hd hj hd⟩

theorem hasCycle_prepared [DecidableEq T] (ms : List (Move T)) : HasCycle (prepared ms) ↔ HasCycle ms := by
  have : Feeds (prepared ms) = Feeds ms := by
    funext b a
    apply propext
    constructor
    · rintro ⟨m, hm, h⟩
      exact ⟨m, (mem_prepared.mp hm).1, h⟩
    · rintro ⟨m, hm, h1, h2, h3⟩
      exact ⟨m, mem_prepared.mpr ⟨hm, by rw [h1, h2]; exact h3⟩, h1, h2, h3⟩
  unfold HasCycle
  rw [this]

theorem short_no_cycle {ms : List (Move T)} (h : ms.length ≤ 1) : ¬ HasCycle ms := by
  rintro ⟨a, h'⟩
  obtain ⟨b, m, hm, _, hd, hne⟩ := transGen_first h'
  obtain ⟨c, m', hm', hs', _, _⟩ := transGen_last h'
  match ms, h with
  | [], _ => simp at hm
  | [x], _ =>
    simp only [List.mem_singleton] at hm hm'
    subst hm; subst hm'
    simp_all

theorem no_overlap_no_cycle {ms : List (Move T)} (h : sourcesOverlapDests ms = false) : ¬ HasCycle ms := by
  rintro ⟨a, h'⟩
  obtain ⟨b, m, hm, _, hd, hne⟩ := transGen_first h'
  obtain ⟨c, m', hm', hs', _, _⟩ := transGen_last h'
  simp only [sourcesOverlapDests, List.any_eq_false] at h
  have := h m' hm'
  simp only [Option.isSome_iff_ne_none, ne_eq, Decidable.not_not] at this
  exact findDst_none this m hm (by rw [hd, hs'])

theorem no_overlap {ms : List (Move T)} (h : sourcesOverlapDests ms = false) :
    ∀ m ∈ ms, ∀ m' ∈ ms, m.dst ≠ m'.src := by
  intro m hm m' hm'
  simp only [sourcesOverlapDests, List.any_eq_false] at h
  have := h m' hm'
  simp only [Option.isSome_iff_ne_none, ne_eq, Decidable.not_not] at this
  exact findDst_none this m hm

theorem exec_no_overlap (L : List (Move T)) (σ : Store V)
    (h1 : ∀ m ∈ L, ∀ m' ∈ L, m.dst ≠ m'.src) (h2 : L.Pairwise (fun a b => a.dst ≠ b.dst)) :
    ∀ m ∈ L, exec σ L m.dst = σ m.src := by
  induction L generalizing σ with
  | nil => simp
  | cons a L ih =>
    intro m hm
    rw [exec_cons]
    have hp := List.pairwise_cons.mp h2
    rcases List.mem_cons.mp hm with rfl | hm
    · rw [exec_unwritten]
      · simp [step]
      · intro m' hm'; exact fun e => hp.1 m' hm' e.symm
    · rw [ih (step σ a) (fun x hx y hy => h1 x (List.mem_cons_of_mem _ hx) y (List.mem_cons_of_mem _ hy))
        hp.2 m hm]
      have : m.src ≠ a.dst := fun e => h1 a (by simp) m (List.mem_cons_of_mem _ hm) e.symm
      simp [step, this]

theorem distinct_prepared [DecidableEq T] {ms : List (Move T)} (hu : UniqueWriters ms) :
    (prepared ms).Pairwise (fun a b => a.dst ≠ b.dst) := by
  apply List.Pairwise.filter
  apply dedup_distinct _ (sorted_sortMoves ms)
  intro m hm m' hm'
  exact hu m ((mem_sortMoves _ _).mp hm) m' ((mem_sortMoves _ _).mp hm')

/-- What `resolve?` returns. -/
structure Resolved (V : Type u) (ms : List (Move T)) (sc : Allocation) (r : MoveVecWithScratch T) : Prop where
  moved : ∀ (σ : Store V), ∀ m ∈ ms, exec σ (withScratch sc r) m.dst = σ m.src
  kept : ∀ (σ : Store V) (l : Allocation), (∀ m ∈ ms, m.dst ≠ l) →
    (l ≠ sc ∨ needsScratch r = false) → exec σ (withScratch sc r) l = σ l
  cyc : needsScratch r = true ↔ HasCycle ms
  locs : ∀ m ∈ withScratch sc r, (m.src = sc ∨ ∃ m' ∈ ms, m'.src = m.src) ∧
    (m.dst = sc ∨ ∃ m' ∈ ms, m'.dst = m.dst)
  exact_ : needsScratch r = false → (withScratch sc r).Sublist ms ∧ ms.length ≤ 1 ∨
    (withScratch sc r).Nodup ∧ ∀ m, m ∈ withScratch sc r ↔ m ∈ ms ∧ m.src ≠ m.dst
  full : ms.length ≤ 1 → r = .NoScratch ms
  real : ∀ m ∈ withScratch sc r, sc.isNone = false → m.src.isNone = false ∧ m.dst.isNone = false

theorem pairwise_nodup {L : List (Move T)} (h : L.Pairwise (fun a b => a.dst ≠ b.dst)) : L.Nodup :=
  h.imp (fun hab e => hab (by rw [e]))

theorem movesOf_nodup {ms : List (Move T)} (S : Setting ms) {D : List Nat} (h : D.Nodup) :
    (movesOf ms D).Nodup := by
  induction D with
  | nil => simp [movesOf]
  | cons i D ih =>
    rw [List.nodup_cons] at h
    unfold movesOf at *
    rw [List.filterMap_cons]
    cases hi : ms[i]? with
    | none => exact ih h.2
    | some m =>
      refine List.nodup_cons.mpr ⟨?_, ih h.2⟩
      intro hm
      rw [List.mem_filterMap] at hm
      obtain ⟨j, hj, hjm⟩ := hm
      have := S.inj i j m m hi hjm rfl
      subst this
      exact h.1 hj

theorem resolve_spec [Inhabited T] [DecidableEq T] {ms : List (Move T)} (hu : UniqueWriters ms)
    (hr : RealLocs ms) {sc : Allocation} (hsc : ¬ Mentions ms sc) :
    ∃ r, resolve? ms = some r ∧ Resolved V ms sc r := by
  unfold resolve?
  by_cases hl : ms.length ≤ 1
  · rw [if_pos hl]
    refine ⟨_, rfl, ?_, ?_, ?_, ?_, ?_, fun _ => rfl, ?_⟩
    · intro σ m hm
      match ms, hl with
      | [], _ => simp at hm
      | [x], _ =>
        simp only [List.mem_singleton] at hm
        subst hm
        simp [withScratch, exec, step]
    · intro σ l h _
      exact exec_unwritten σ ms l (fun m hm => h m hm)
    · simp [needsScratch, short_no_cycle hl]
    · intro m hm
      exact ⟨.inr ⟨m, hm, rfl⟩, .inr ⟨m, hm, rfl⟩⟩
    · intro _
      exact .inl ⟨List.Sublist.refl _, hl⟩
    · intro m hm _
      exact hr m hm
  · rw [if_neg hl]
    have S := prepared_setting hu hr
    have hd := distinct_prepared hu
    have hP : (dedup (sortMoves ms)).filter (fun m => decide (m.src ≠ m.dst)) = prepared ms := rfl
    simp only [hP]
    by_cases ho : sourcesOverlapDests (prepared ms) = true
    · simp only [ho, Bool.not_true, Bool.false_eq_true, if_false]
      have hsc' : ¬ Mentions (prepared ms) sc := by
        rintro ⟨m, hm, h⟩
        exact hsc ⟨m, (mem_prepared.mp hm).1, h⟩
      obtain ⟨st', ret, used, D, h1, I, hall⟩ :=
        outer_spec (V := V) S hsc' ((prepared ms).length + 1) _ _ _ _ (Inv.init (prepared ms) sc)
          (Nat.lt_succ_of_le (by
            have := List.countP_le_length (p := fun s => decide (s = St.ToDo))
              (l := List.replicate (prepared ms).length St.ToDo)
            simpa [todo] using this))
      rw [h1]
      have hcyc : used = true ↔ HasCycle ms := by
        rw [← hasCycle_prepared, ← nx_cycle_iff S]
        constructor
        · exact I.cyc
        · rintro ⟨i, hi⟩
          cases hused : used with
          | true => rfl
          | false =>
            obtain ⟨k, m, _, hm, _⟩ := transGen_first hi
            have : i < (prepared ms).length := (List.getElem?_eq_some_iff.mp hm).1
            exact absurd hi (I.acyc hused i (hall i this))
      have hws : withScratch sc (if used then MoveVecWithScratch.Scratch ret else .NoScratch ret)
          = ret.map (fillScratch sc) := by
        cases hused : used with
        | true => rfl
        | false =>
          simp only [Bool.false_eq_true, if_false, withScratch]
          conv => lhs; rw [← List.map_id ret]
          apply List.map_congr_left
          intro m hm
          exact (fill_real (hr) (mem_prepared.mp ((I.locs m hm).2.2.2 hused)).1).symm
      have hns : needsScratch (if used then MoveVecWithScratch.Scratch ret else .NoScratch ret) = used := by
        cases used <;> rfl
      refine ⟨_, rfl, ?_⟩
      constructor
      · intro σ m hm
        rw [hws]
        have hne : m.dst ≠ sc := fun e => hsc ⟨m, hm, .inr e⟩
        rw [I.sem σ m.dst hne]
        by_cases hself : m.src = m.dst
        · rw [par_none]
          · rw [hself]
          · intro p hp e
            obtain ⟨i, _, m', hm', rfl⟩ := mem_pairs.mp hp
            have hmem := mem_prepared.mp (List.mem_of_getElem? hm')
            have := hu m' hmem.1 m hm e
            subst this
            exact hmem.2 hself
        · have hmp := mem_prepared.mpr ⟨hm, hself⟩
          obtain ⟨i, hi⟩ := List.getElem?_of_mem hmp
          have hiD := hall i (List.getElem?_eq_some_iff.mp hi).1
          refine par_some (p := (m.src, m.dst)) ?_ (mem_pairs.mpr ⟨i, hiD, m, hi, rfl⟩)
          intro p hp q hq e
          obtain ⟨_, _, m1, hm1, rfl⟩ := mem_pairs.mp hp
          obtain ⟨_, _, m2, hm2, rfl⟩ := mem_pairs.mp hq
          have h1 := mem_prepared.mp (List.mem_of_getElem? hm1)
          have h2 := mem_prepared.mp (List.mem_of_getElem? hm2)
          rw [hu m1 h1.1 m2 h2.1 e]
      · intro σ l h hor
        rw [hns] at hor
        rw [hws]
        by_cases hlsc : l = sc
        · have hused : used = false := by
            rcases hor with h' | h'
            · exact absurd hlsc h'
            · exact h'
          apply exec_unwritten
          intro m hm
          obtain ⟨m0, hm0, rfl⟩ := List.mem_map.mp hm
          have hmem := (mem_prepared.mp ((I.locs m0 hm0).2.2.2 hused)).1
          rw [fill_real hr hmem]
          exact h m0 hmem
        · rw [I.sem σ l hlsc, par_none]
          intro p hp e
          obtain ⟨i, _, m', hm', rfl⟩ := mem_pairs.mp hp
          exact h m' (mem_prepared.mp (List.mem_of_getElem? hm')).1 e
      · rw [hns]; exact hcyc
      · intro m hm
        rw [hws] at hm
        obtain ⟨m0, hm0, rfl⟩ := List.mem_map.mp hm
        obtain ⟨hs, hdd, _, _⟩ := I.locs m0 hm0
        constructor
        · rcases hs with h | ⟨m', hm', h⟩
          · left; simp [fillScratch, h, none_isNone]
          · have := (hr m' (mem_prepared.mp hm').1).1
            right; refine ⟨m', (mem_prepared.mp hm').1, ?_⟩
            rw [h] at this
            simp [fillScratch, this, h]
        · rcases hdd with h | ⟨m', hm', h⟩
          · left; simp [fillScratch, h, none_isNone]
          · have := (hr m' (mem_prepared.mp hm').1).2
            right; refine ⟨m', (mem_prepared.mp hm').1, ?_⟩
            rw [h] at this
            simp [fillScratch, this, h]
      · intro hused
        rw [hns] at hused
        right
        have hret := I.exact_ hused
        subst hused
        simp only [Bool.false_eq_true, if_false, withScratch]
        rw [hret]
        refine ⟨movesOf_nodup S I.dnodup, ?_⟩
        intro m
        rw [← mem_prepared]
        constructor
        · exact movesOf_mem
        · intro hm
          obtain ⟨i, hi⟩ := List.getElem?_of_mem hm
          exact List.mem_filterMap.mpr ⟨i, hall i (List.getElem?_eq_some_iff.mp hi).1, hi⟩
      · intro h; exact absurd h hl
      · intro m hm hscr
        rw [hws] at hm
        obtain ⟨m0, hm0, rfl⟩ := List.mem_map.mp hm
        constructor
        · by_cases h : m0.src.isNone = true <;> simp_all [fillScratch]
        · by_cases h : m0.dst.isNone = true <;> simp_all [fillScratch]
    · have ho' : sourcesOverlapDests (prepared ms) = false := by simpa using ho
      simp only [ho', Bool.not_false, if_true]
      have hno := no_overlap ho'
      refine ⟨_, rfl, ?_, ?_, ?_, ?_, ?_, ?_, ?_⟩
      · intro σ m hm
        simp only [withScratch]
        by_cases hself : m.src = m.dst
        · rw [exec_unwritten]
          · rw [hself]
          · intro m' hm' e
            have hmem := mem_prepared.mp hm'
            have := hu m' hmem.1 m hm e
            subst this
            exact hmem.2 hself
        · exact exec_no_overlap _ σ hno hd m (mem_prepared.mpr ⟨hm, hself⟩)
      · intro σ l h _
        exact exec_unwritten σ _ l (fun m hm => h m (mem_prepared.mp hm).1)
      · have := no_overlap_no_cycle ho'
        rw [hasCycle_prepared] at this
        simp [needsScratch, this]
      · intro m hm
        have := (mem_prepared.mp hm).1
        exact ⟨.inr ⟨m, this, rfl⟩, .inr ⟨m, this, rfl⟩⟩
      · intro _
        right
        exact ⟨pairwise_nodup hd, fun m => mem_prepared⟩
      · intro h; exact absurd h hl
      · intro m hm _
        exact hr m (mem_prepared.mp hm).1

end Regalloc.Moves
