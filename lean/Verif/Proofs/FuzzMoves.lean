import Verif.Model.FuzzMoves
import Verif.Proofs.FuzzGraph
import Verif.Props.Moves

/-
Helper lemmas for C53: the fuzz target for parallel moves.
-/
namespace Regalloc.FuzzMoves

open FuzzGen (G Sat)
open Moves

/-! ### The resolver when registers it is offered count as stack slots -/

/-- Like `ScratchEnv.Ok`, but registers offered may count as stack slots. -/
structure Loose (e : ScratchEnv) (ms : List (Move Unit)) : Prop where
  reg_free : ∀ i < 2, ∀ r, e.findReg i = some r → r.isNone = false ∧ ¬ Mentions ms r
  reg_distinct : ∀ r, ¬ (e.findReg 0 = some r ∧ e.findReg 1 = some r)
  slot_free : ∀ i < 2, e.isStack (e.getSlot i) = true ∧ (e.getSlot i).isNone = false ∧ ¬ Mentions ms (e.getSlot i)
  slot_distinct : e.getSlot 0 ≠ e.getSlot 1
  apart : ∀ i < 2, ∀ j < 2, ∀ r, e.findReg i = some r → r ≠ e.getSlot j
  borrowed_reg : e.isStack (Allocation.reg e.borrowed) = false

theorem stage2_loose {V : Type} (e : ScratchEnv) (ms : List (Move Unit)) (he : Loose e ms)
    {sc : Allocation} {r : MoveVecWithScratch Unit} (hR : Resolved V ms sc r) (fc sl : Nat) (hfc : fc < 2) (hsl : sl < 2)
    (hsc1 : ∀ x, e.findReg fc = some x → x ≠ sc) (hsc2 : e.getSlot sl ≠ sc) :
    ∃ out, (if !((withScratch sc r).any e.isS2S) then some (withScratch sc r)
        else
          match e.findReg fc with
          | some x => expand e x none (withScratch sc r) false true
          | none => expand e (Allocation.reg e.borrowed) (some (e.getSlot sl)) (withScratch sc r)
              false true) = some out ∧
      (∀ (σ : Store V) l, ¬ e.Offered l → exec σ out l = exec σ (withScratch sc r) l) := by
  by_cases hany : (withScratch sc r).any e.isS2S = true
  · simp only [hany, Bool.not_true, Bool.false_eq_true, if_false]
    cases hf : e.findReg fc with
    | some x =>
      have hx := he.reg_free fc hfc x hf
      obtain ⟨out, h1, h2, -⟩ := expand_free (V := V) e x (withScratch sc r) false true
        (mentions_withScratch hR (hsc1 x hf) hx.2)
      refine ⟨out, h1, ?_⟩
      intro σ l hl
      exact h2 σ σ (fun _ _ => rfl) l (fun h => hl ⟨fc, hfc, .inl (by rw [h]; exact hf)⟩)
    | none =>
      have hs := he.slot_free sl hsl
      obtain ⟨out, h1, h2, -⟩ := expand_borrowed (V := V) e he.borrowed_reg hs.1 (withScratch sc r) false true
        (mentions_withScratch hR hsc2 hs.2.2) (by simp)
      refine ⟨out, h1, ?_⟩
      intro σ l hl
      refine h2 σ σ ⟨fun _ _ _ => rfl, by simp, fun _ => rfl, by simp⟩ l ?_
      intro h
      exact hl ⟨sl, hsl, .inr h.symm⟩
  · have hany' : (withScratch sc r).any e.isS2S = false := by simpa using hany
    simp only [hany', Bool.not_false, if_true]
    exact ⟨_, rfl, fun _ _ _ => rfl⟩

theorem resolver_loose {V : Type} (ms : List (Move Unit)) (e : ScratchEnv)
    (hu : UniqueWriters ms) (hr : RealLocs ms) (he : Loose e ms) :
    ∃ r out, resolve? ms = some r ∧ compute? e r = some out ∧
      ∀ (σ : Store V), (∀ m ∈ ms, exec σ out m.dst = σ m.src) ∧
        (∀ l, (∀ m ∈ ms, m.dst ≠ l) → ¬ e.Offered l → exec σ out l = σ l) := by
  have hoff : ∀ m ∈ ms, ¬ e.Offered m.dst := by
    rintro m hm ⟨i, hi, h | h⟩
    · exact (he.reg_free i hi _ h).2 ⟨m, hm, .inr rfl⟩
    · exact (he.slot_free i hi).2.2 ⟨m, hm, .inr h.symm⟩
  have hnone : ¬ Mentions ms Allocation.none := by
    rintro ⟨m, hm, h⟩
    have := hr m hm
    rcases h with h | h
    · rw [h, none_isNone] at this; simp at this
    · rw [h, none_isNone] at this; simp at this
  obtain ⟨r, h1, hRn⟩ := resolve_spec (V := V) hu hr hnone
  by_cases hns : needsScratch r = true
  · cases hf : e.findReg 0 with
    | some x =>
      have hx := he.reg_free 0 (by omega) x hf
      obtain ⟨r', h1', hR⟩ := resolve_spec (V := V) hu hr hx.2
      rw [h1] at h1'; cases h1'
      obtain ⟨out, a1, a3⟩ := stage2_loose e ms he hR 1 0 (by omega) (by omega)
        (fun y hy hyx => by
          subst hyx; exact he.reg_distinct _ ⟨hf, hy⟩)
        (fun h => he.apart 0 (by omega) 0 (by omega) x hf h.symm)
      refine ⟨r, out, h1, ?_, ?_⟩
      · simp only [compute?, hns, if_true, hf]; exact a1
      · intro σ
        refine ⟨fun m hm => ?_, fun l hl ho => ?_⟩
        · rw [a3 σ _ (hoff m hm)]; exact hR.moved σ m hm
        · rw [a3 σ _ ho]
          exact hR.kept σ l hl (.inl (fun h => ho ⟨0, by omega, .inl (by rw [h]; exact hf)⟩))
    | none =>
      have hs := he.slot_free 0 (by omega)
      obtain ⟨r', h1', hR⟩ := resolve_spec (V := V) hu hr hs.2.2
      rw [h1] at h1'; cases h1'
      obtain ⟨out, a1, a3⟩ := stage2_loose e ms he hR 1 1 (by omega) (by omega)
        (fun y hy hyx => he.apart 1 (by omega) 0 (by omega) y hy hyx)
        (fun h => he.slot_distinct h.symm)
      refine ⟨r, out, h1, ?_, ?_⟩
      · simp only [compute?, hns, if_true, hf]; exact a1
      · intro σ
        refine ⟨fun m hm => ?_, fun l hl ho => ?_⟩
        · rw [a3 σ _ (hoff m hm)]; exact hR.moved σ m hm
        · rw [a3 σ _ ho]
          exact hR.kept σ l hl (.inl (fun h => ho ⟨0, by omega, .inr h.symm⟩))
  · have hns' : needsScratch r = false := by simpa using hns
    obtain ⟨out, a1, a3⟩ := stage2_loose e ms he hRn 0 0 (by omega) (by omega)
      (fun y hy hyx => by
        have := (he.reg_free 0 (by omega) y hy).1
        rw [hyx, none_isNone] at this; simp at this)
      (fun h => by
        have := (he.slot_free 0 (by omega)).2.1
        rw [h, none_isNone] at this; simp at this)
    refine ⟨r, out, h1, ?_, ?_⟩
    · simp only [compute?, hns', Bool.false_eq_true, if_false]; exact a1
    · intro σ
      refine ⟨fun m hm => ?_, fun l hl ho => ?_⟩
      · rw [a3 σ _ (hoff m hm)]; exact hRn.moved σ m hm
      · rw [a3 σ _ ho]
        exact hRn.kept σ l hl (.inr hns')

/-! ### Maps -/

theorem Map.get_put (m : Map) (k v l : Allocation) : (m.put k v).get l = if l = k then some v else m.get l := by
  unfold Map.put Map.get
  rw [List.find?_cons]
  by_cases h : l = k
  · subst h
    simp
  · have : decide ((k, v).1 = l) = false := by simp [Ne.symm h]
    rw [this, if_neg h]
    dsimp only
    congr 1
    induction m with
    | nil => rfl
    | cons a t ih =>
      rw [List.filter_cons]
      by_cases ha : a.1 = k
      · rw [if_neg (by simp [ha]), List.find?_cons, ih]
        have : decide (a.1 = l) = false := by
          rw [decide_eq_false_iff_not, ha]
          exact Ne.symm h
        rw [this]
      · rw [if_pos (by simp [ha]), List.find?_cons, List.find?_cons, ih]

/-- Every entry is the one found by its key. -/
def Keyed (m : Map) : Prop := ∀ e ∈ m, m.get e.1 = some e.2

theorem Keyed.put {m : Map} (h : Keyed m) (k v : Allocation) : Keyed (m.put k v) := by
  intro e he
  rw [Map.get_put]
  unfold Map.put at he
  rcases List.mem_cons.mp he with rfl | he
  · rw [if_pos rfl]
  · have h2 := List.mem_filter.mp he
    rw [if_neg (of_decide_eq_true h2.2)]
    exact h e h2.1

theorem simulate_spec (ms : List (Move Unit)) : Keyed (simulate ms) ∧ ∀ l, ((simulate ms).get l).getD l = exec (fun a => a) ms l := by
  have : ∀ (ms : List (Move Unit)) (m : Map) (σ : Store Allocation), Keyed m → (∀ l, (m.get l).getD l = σ l) →
      Keyed (ms.foldl (fun m p => m.put p.dst ((m.get p.src).getD p.src)) m) ∧
      ∀ l, ((ms.foldl (fun m p => m.put p.dst ((m.get p.src).getD p.src)) m).get l).getD l = exec σ ms l := by
    intro ms
    induction ms with
    | nil => intro m σ hk h; exact ⟨hk, h⟩
    | cons p ps ih =>
      intro m σ hk h
      rw [List.foldl_cons]
      refine ih _ (step σ p) (hk.put _ _) ?_
      intro l
      rw [Map.get_put]
      unfold step
      by_cases e : l = p.dst
      · rw [if_pos e, if_pos e]
        exact h p.src
      · rw [if_neg e, if_neg e]
        exact h l
  exact this ms [] (fun a => a) (by intro e he; cases he) (fun _ => rfl)

theorem expected_spec (t : Case) : (∀ p ∈ t.moves, ∀ q ∈ t.moves, p.2 = q.2 → p = q) →
    ∀ l, (∀ p ∈ t.moves, p.2 = l → (expected t).get l = some p.1) ∧ ((∀ p ∈ t.moves, p.2 ≠ l) → (expected t).get l = none) := by
  intro hu l
  have keep : ∀ (ms : List (Allocation × Allocation)) (m : Map), (∀ p ∈ ms, p.2 ≠ l) → (ms.foldl (fun m p => m.put p.2 p.1) m).get l = m.get l := by
    intro ms
    induction ms with
    | nil => intro m _; rfl
    | cons p ps ih =>
      intro m h
      rw [List.foldl_cons, ih _ (fun q hq => h q (List.mem_cons_of_mem _ hq)), Map.get_put, if_neg (Ne.symm (h p List.mem_cons_self))]
  have found : ∀ (ms : List (Allocation × Allocation)) (m : Map) (s : Allocation), (∀ p ∈ ms, p.2 = l → p.1 = s) → (∃ p ∈ ms, p.2 = l) →
      (ms.foldl (fun m p => m.put p.2 p.1) m).get l = some s := by
    intro ms
    induction ms with
    | nil => rintro m s _ ⟨p, hp, _⟩; cases hp
    | cons p ps ih =>
      intro m s h hex
      rw [List.foldl_cons]
      by_cases hp : ∃ q ∈ ps, q.2 = l
      · exact ih _ s (fun q hq => h q (List.mem_cons_of_mem _ hq)) hp
      · rw [keep ps _ (fun q hq e => hp ⟨q, hq, e⟩), Map.get_put]
        obtain ⟨q, hq, e⟩ := hex
        rcases List.mem_cons.mp hq with rfl | hq
        · rw [if_pos e.symm, h _ List.mem_cons_self e]
        · exact absurd ⟨q, hq, e⟩ hp
  refine ⟨fun p hp e => ?_, fun h => ?_⟩
  · refine found t.moves [] p.1 ?_ ⟨p, hp, e⟩
    intro q hq e'
    rw [hu q hq p hp (e'.trans e.symm)]
  · exact keep t.moves [] h

/-! ### Cases -/

/-- Locations that moves are made of. -/
def Loc (a : Allocation) : Prop :=
  (∃ e, e ≤ 29 ∧ a = Allocation.reg (PReg.new e .Int)) ∨ ∃ s, s ≤ 31 ∧ a = Allocation.stack (SpillSlot.new s)

structure CaseOk (t : Case) : Prop where
  locs : ∀ p ∈ t.moves, Loc p.1 ∧ Loc p.2
  unique : ∀ p ∈ t.moves, ∀ q ∈ t.moves, p.2 = q.2 → p = q
  avail : ∃ k, k ≤ 2 ∧ t.avail = (List.range k).map (fun i => Allocation.reg (PReg.new (30 + i) .Int))

/-- What the loop has collected. -/
def MovesOk (ms : List (Allocation × Allocation)) : Prop :=
  (∀ p ∈ ms, Loc p.1 ∧ Loc p.2) ∧ ∀ p ∈ ms, ∀ q ∈ ms, p.2 = q.2 → p = q

theorem MovesOk.snoc {ms : List (Allocation × Allocation)} (h : MovesOk ms) {a b : Allocation} (ha : Loc a) (hb : Loc b) (hn : b ∉ ms.map Prod.snd) :
    MovesOk (ms ++ [(a, b)]) := by
  refine ⟨?_, ?_⟩
  · intro p hp
    rcases List.mem_append.mp hp with hp | hp
    · exact h.1 p hp
    · rw [List.mem_singleton] at hp
      subst hp
      exact ⟨ha, hb⟩
  · intro p hp q hq e
    rcases List.mem_append.mp hp with hp | hp <;> rcases List.mem_append.mp hq with hq | hq
    · exact h.2 p hp q hq e
    · rw [List.mem_singleton] at hq
      subst hq
      exact absurd (List.mem_map.mpr ⟨p, hp, e⟩) hn
    · rw [List.mem_singleton] at hp
      subst hp
      exact absurd (List.mem_map.mpr ⟨q, hq, e.symm⟩) hn
    · rw [List.mem_singleton] at hp hq
      rw [hp, hq]

theorem flip_cons {s : List Nat} {b : Bool} {s' : List Nat} (h : FuzzGen.flip s = .ok (b, s')) : s' = s.tail ∧ (b = true → s ≠ []) := by
  unfold FuzzGen.flip at h
  cases h
  refine ⟨rfl, ?_⟩
  intro h e
  subst e
  cases h

theorem intIn_ok {lo hi : Nat} (h : lo ≤ hi) (s : List Nat) : ∃ a s', FuzzGen.intIn lo hi s = .ok (a, s') ∧ lo ≤ a ∧ a ≤ hi ∧ s'.length ≤ s.length := by
  unfold FuzzGen.intIn
  rw [if_neg (by omega)]
  refine ⟨_, _, rfl, Nat.le_add_right _ _, ?_, by rw [List.length_tail]; omega⟩
  have := Nat.mod_lt (s.headD 0) (show 0 < hi - lo + 1 by omega)
  omega

theorem anyLoc_ok (s : List Nat) : ∃ a s', anyLoc s = .ok (a, s') ∧ Loc a ∧ s'.length ≤ s.length := by
  unfold anyLoc
  dsimp only [bind, G.andThen]
  cases hf : FuzzGen.flip s with
  | error e => cases hf
  | ok r =>
    obtain ⟨b, s1⟩ := r
    obtain ⟨e1, -⟩ := flip_cons hf
    have hl : s1.length ≤ s.length := by rw [e1, List.length_tail]; omega
    dsimp only
    cases b with
    | true =>
      obtain ⟨a, s2, h1, -, h2, h3⟩ := intIn_ok (lo := 0) (hi := 29) (by decide) s1
      rw [if_pos rfl]
      dsimp only [G.andThen]
      rw [h1]
      exact ⟨_, _, rfl, .inl ⟨a, h2, rfl⟩, by omega⟩
    | false =>
      obtain ⟨a, s2, h1, -, h2, h3⟩ := intIn_ok (lo := 0) (hi := 31) (by decide) s1
      rw [if_neg (by decide)]
      dsimp only [G.andThen]
      rw [h1]
      exact ⟨_, _, rfl, .inr ⟨a, h2, rfl⟩, by omega⟩

theorem genMoves_ok : ∀ (fuel : Nat) (ms : List (Allocation × Allocation)) (s : List Nat), s.length < fuel → MovesOk ms →
    ∃ r s', genMoves fuel ms s = .ok (r, s') ∧ MovesOk r
  | 0, _, _, h, _ => absurd h (Nat.not_lt_zero _)
  | fuel + 1, ms, s, hlt, hm => by
    unfold genMoves
    dsimp only [bind, G.andThen, pure, G.ret]
    cases hf : FuzzGen.flip s with
    | error e => cases hf
    | ok r =>
      obtain ⟨b, s1⟩ := r
      obtain ⟨e1, e2⟩ := flip_cons hf
      dsimp only
      cases b with
      | false => exact ⟨ms, s1, rfl, hm⟩
      | true =>
        have hne := e2 rfl
        have h1 : s1.length < fuel := by
          rw [e1, List.length_tail]
          have := List.length_pos_iff.mpr hne
          omega
        rw [if_pos rfl]
        obtain ⟨a, s2, ha, hla, h2⟩ := anyLoc_ok s1
        obtain ⟨c, s3, hc, hlc, h3⟩ := anyLoc_ok s2
        dsimp only [G.andThen]
        rw [ha]
        dsimp only
        rw [hc]
        dsimp only
        by_cases hd : c ∈ ms.map Prod.snd
        · rw [if_pos hd]
          exact ⟨ms, s3, rfl, hm⟩
        · rw [if_neg hd]
          exact genMoves_ok fuel _ s3 (by omega) (hm.snoc hla hlc hd)

theorem genCase_ok (s : List Nat) : ∃ t s', genCase s = .ok (t, s') ∧ CaseOk t := by
  obtain ⟨r, s1, h1, hm⟩ := genMoves_ok (s.length + 1) [] s (by omega) ⟨fun p hp => (by cases hp), fun p hp => (by cases hp)⟩
  unfold genCase
  dsimp only [bind, G.andThen, pure, G.ret]
  rw [h1]
  dsimp only [FuzzGen.intIn]
  rw [if_neg (by decide)]
  dsimp only
  exact ⟨_, _, rfl, hm.1, hm.2, _, by have : s1.headD 0 % (2 - 0 + 1) < 3 := Nat.mod_lt _ (by decide)
                                      omega, rfl⟩

/-- Facts about the finitely many locations. -/
theorem reg_facts : ∀ e < 32, (Allocation.reg (PReg.new e .Int)).isNone = false ∧ (Allocation.reg (PReg.new e .Int)).isStack = false ∧
    (∀ d < 32, Allocation.reg (PReg.new e .Int) = Allocation.reg (PReg.new d .Int) → e = d) ∧
    ∀ s < 34, Allocation.reg (PReg.new e .Int) ≠ Allocation.stack (SpillSlot.new s) := by decide +kernel

theorem slot_facts : ∀ s < 34, (Allocation.stack (SpillSlot.new s)).isNone = false ∧ isStackAlloc (Allocation.stack (SpillSlot.new s)) = true ∧
    (Allocation.stack (SpillSlot.new s)).isStack = true ∧ ((Allocation.stack (SpillSlot.new s)).asStack.map SpillSlot.index) = some s ∧
    (∀ d < 34, Allocation.stack (SpillSlot.new s) = Allocation.stack (SpillSlot.new d) → s = d) := by decide +kernel

theorem borrowed_real : isStackAlloc (Allocation.reg (PReg.new 0 .Int)) = false := by decide

theorem check_ok {t : Case} (h : CaseOk t) : check t = .ok () := by
  let ms : List (Move Unit) := t.moves.map (fun p => ⟨p.1, p.2, ()⟩)
  have hmem : ∀ m ∈ ms, ∃ p ∈ t.moves, m = ⟨p.1, p.2, ()⟩ := by
    intro m hm
    obtain ⟨p, hp, rfl⟩ := List.mem_map.mp hm
    exact ⟨p, hp, rfl⟩
  have hreal : ∀ {a : Allocation}, Loc a → a.isNone = false := by
    rintro a (⟨e, he, rfl⟩ | ⟨s, hs, rfl⟩)
    · exact (reg_facts e (by omega)).1
    · exact (slot_facts s (by omega)).1
  have hu : UniqueWriters ms := by
    intro m hm m' hm' e
    obtain ⟨p, hp, rfl⟩ := hmem m hm
    obtain ⟨q, hq, rfl⟩ := hmem m' hm'
    rw [h.unique p hp q hq e]
  have hr : RealLocs ms := by
    intro m hm
    obtain ⟨p, hp, rfl⟩ := hmem m hm
    exact ⟨hreal (h.locs p hp).1, hreal (h.locs p hp).2⟩
  have hment : ∀ l, Mentions ms l → Loc l := by
    rintro l ⟨m, hm, e⟩
    obtain ⟨p, hp, rfl⟩ := hmem m hm
    rcases e with e | e
    · exact e ▸ (h.locs p hp).1
    · exact e ▸ (h.locs p hp).2
  obtain ⟨k, hk, hav⟩ := h.avail
  have hreg : ∀ i r, (scratchEnv t).findReg i = some r → ∃ j, j < 2 ∧ j + i + 1 = k ∧ r = Allocation.reg (PReg.new (30 + j) .Int) := by
    intro i r hi
    have hi : t.avail.reverse[i]? = some r := hi
    rw [hav] at hi
    have hl := List.getElem?_eq_some_iff.mp hi
    obtain ⟨hl1, hl2⟩ := hl
    rw [List.length_reverse, List.length_map, List.length_range] at hl1
    rw [List.getElem_reverse, List.getElem_map, List.getElem_range] at hl2
    rw [List.length_map, List.length_range] at hl2
    exact ⟨k - 1 - i, by omega, by omega, hl2.symm⟩
  have hregAvail : ∀ i r, (scratchEnv t).findReg i = some r → r ∈ t.avail := by
    intro i r hi
    exact List.mem_reverse.mp (List.mem_of_getElem? hi)
  have he : Loose (scratchEnv t) ms := by
    refine ⟨?_, ?_, ?_, ?_, ?_, ?_⟩
    · intro i _ r hi
      obtain ⟨j, hj, -, rfl⟩ := hreg i r hi
      refine ⟨(reg_facts _ (by omega)).1, ?_⟩
      intro hm
      rcases hment _ hm with ⟨e, he, e'⟩ | ⟨s, hs, e'⟩
      · have := (reg_facts (30 + j) (by omega)).2.2.1 e (by omega) e'
        omega
      · exact (reg_facts (30 + j) (by omega)).2.2.2 s (by omega) e'
    · rintro r ⟨h0, h1⟩
      obtain ⟨j, hj, hk1, e1⟩ := hreg 0 r h0
      obtain ⟨j', hj', hk2, e2⟩ := hreg 1 r h1
      have := (reg_facts (30 + j) (by omega)).2.2.1 (30 + j') (by omega) (e1.symm.trans e2)
      omega
    · intro i hi
      have hf := slot_facts (32 + i) (by omega)
      refine ⟨hf.2.1, hf.1, ?_⟩
      intro hm
      rcases hment _ hm with ⟨e, he, e'⟩ | ⟨s, hs, e'⟩
      · exact (reg_facts e (by omega)).2.2.2 (32 + i) (by omega) e'.symm
      · have := hf.2.2.2.2 s (by omega) e'
        omega
    · intro e
      have := (slot_facts 32 (by omega)).2.2.2.2 33 (by omega) e
      omega
    · intro i _ j hj r hi e
      obtain ⟨j', hj', -, rfl⟩ := hreg i r hi
      exact (reg_facts (30 + j') (by omega)).2.2.2 (32 + j) (by omega) e
    · unfold scratchEnv
      dsimp only
      exact borrowed_real
  obtain ⟨r, out, h1, h2, h3⟩ := resolver_loose (V := Allocation) ms (scratchEnv t) hu hr he
  unfold check
  rw [show t.moves.map (fun p => (⟨p.1, p.2, ()⟩ : Move Unit)) = ms from rfl, h1]
  dsimp only
  rw [h2]
  dsimp only
  rw [if_pos]
  unfold passes
  rw [List.all_eq_true]
  intro e hin
  obtain ⟨hkey, hsim⟩ := simulate_spec out
  have hdata : exec (fun a => a) out e.1 = e.2 := by
    rw [← hsim e.1, hkey e hin]
    rfl
  obtain ⟨x1, x2⟩ := expected_spec t h.unique e.1
  unfold assertion
  by_cases hd : ∃ p ∈ t.moves, p.2 = e.1
  · obtain ⟨p, hp, ep⟩ := hd
    rw [x1 p hp ep]
    dsimp only
    rw [decide_eq_true_iff, ← hdata, ← ep]
    exact ((h3 (fun a => a)).1 ⟨p.1, p.2, ()⟩ (List.mem_map.mpr ⟨p, hp, rfl⟩)).symm
  · have hnd : ∀ p ∈ t.moves, p.2 ≠ e.1 := fun p hp e' => hd ⟨p, hp, e'⟩
    rw [x2 hnd]
    dsimp only
    by_cases hne : e.2 ≠ e.1
    · rw [if_pos hne]
      have hoff : (scratchEnv t).Offered e.1 := by
        apply Classical.byContradiction
        intro ho
        apply hne
        rw [← hdata]
        refine (h3 (fun a => a)).2 e.1 ?_ ho
        intro m hm
        obtain ⟨p, hp, rfl⟩ := hmem m hm
        exact hnd p hp
      obtain ⟨i, hi, ho | ho⟩ := hoff
      · rw [decide_eq_true (hregAvail i _ ho), Bool.true_or]
      · have ho : Allocation.stack (SpillSlot.new (32 + i)) = e.1 := ho
        have hf := slot_facts (32 + i) (by omega)
        rw [← ho, hf.2.2.1, Bool.true_and, Bool.or_eq_true]
        right
        cases hs : (Allocation.stack (SpillSlot.new (32 + i))).asStack with
        | none => rw [hs] at hf; cases hf.2.2.2.1
        | some s =>
          rw [hs] at hf
          have : s.index = 32 + i := Option.some.inj hf.2.2.2.1
          unfold highSlot
          dsimp only
          rw [this]
          exact decide_eq_true (by omega)
    · rw [if_neg hne]

/-! ### What the assertions say -/

theorem Map.mem_keys_put (m : Map) (k v l : Allocation) : (∃ e ∈ m.put k v, e.1 = l) ↔ l = k ∨ ∃ e ∈ m, e.1 = l := by
  unfold Map.put
  constructor
  · rintro ⟨e, he, rfl⟩
    rcases List.mem_cons.mp he with rfl | he
    · exact .inl rfl
    · exact .inr ⟨e, (List.mem_filter.mp he).1, rfl⟩
  · rintro (rfl | ⟨e, he, rfl⟩)
    · exact ⟨_, List.mem_cons_self, rfl⟩
    · by_cases hk : e.1 = k
      · exact ⟨_, List.mem_cons_self, hk.symm⟩
      · exact ⟨e, List.mem_cons_of_mem _ (List.mem_filter.mpr ⟨he, decide_eq_true hk⟩), rfl⟩

theorem simulate_keys (ms : List (Move Unit)) (l : Allocation) : (∃ e ∈ simulate ms, e.1 = l) ↔ ∃ m ∈ ms, m.dst = l := by
  have : ∀ (ms : List (Move Unit)) (m : Map), (∃ e ∈ ms.foldl (fun m p => m.put p.dst ((m.get p.src).getD p.src)) m, e.1 = l) ↔
      (∃ e ∈ m, e.1 = l) ∨ ∃ p ∈ ms, p.dst = l := by
    intro ms
    induction ms with
    | nil => intro m; simp
    | cons p ps ih =>
      intro m
      rw [List.foldl_cons, ih, Map.mem_keys_put]
      simp only [List.mem_cons, exists_eq_or_imp]
      constructor
      · rintro ((h | h) | h)
        · exact .inr (.inl h.symm)
        · exact .inl h
        · exact .inr (.inr h)
      · rintro (h | h | h)
        · exact .inl (.inr h)
        · exact .inl (.inl h.symm)
        · exact .inr h
  rw [show simulate ms = ms.foldl (fun (m : Map) p => m.put p.dst ((m.get p.src).getD p.src)) [] from rfl, this]
  constructor
  · rintro (⟨e, he, -⟩ | h)
    · cases he
    · exact h
  · exact .inr

theorem assertion_iff {t : Case} (h : CaseOk t) (reg data : Allocation) : assertion t reg data = true ↔
    (∀ p ∈ t.moves, p.2 = reg → data = p.1) ∧ ((∀ p ∈ t.moves, p.2 ≠ reg) → data = reg ∨ reg ∈ t.avail ∨
      (reg.isStack = true ∧ ∃ s, reg.asStack = some s ∧ 32 ≤ s.index)) := by
  obtain ⟨x1, x2⟩ := expected_spec t h.unique reg
  unfold assertion
  by_cases hd : ∃ p ∈ t.moves, p.2 = reg
  · obtain ⟨p, hp, e⟩ := hd
    rw [x1 p hp e]
    dsimp only
    rw [decide_eq_true_iff]
    constructor
    · rintro rfl
      refine ⟨fun q hq e' => by rw [h.unique p hp q hq (e.trans e'.symm)], fun hn => absurd e (hn p hp)⟩
    · rintro ⟨h1, -⟩
      exact (h1 p hp e).symm
  · have hnd : ∀ p ∈ t.moves, p.2 ≠ reg := fun p hp e => hd ⟨p, hp, e⟩
    rw [x2 hnd]
    dsimp only
    have hs : highSlot reg.asStack = true ↔ ∃ s, reg.asStack = some s ∧ 32 ≤ s.index := by
      cases reg.asStack with
      | none => simp [highSlot]
      | some s => simp [highSlot]
    constructor
    · intro ha
      refine ⟨fun p hp e => absurd e (hnd p hp), fun _ => ?_⟩
      by_cases e : data = reg
      · exact .inl e
      · rw [if_pos e, Bool.or_eq_true, Bool.and_eq_true, decide_eq_true_iff, hs] at ha
        exact .inr ha
    · rintro ⟨-, ha⟩
      split
      · rename_i hne
        rw [Bool.or_eq_true, Bool.and_eq_true, decide_eq_true_iff, hs]
        rcases ha hnd with e | e
        · exact absurd e hne
        · exact e
      · rfl

end Regalloc.FuzzMoves
