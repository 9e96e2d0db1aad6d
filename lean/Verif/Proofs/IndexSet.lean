import Verif.Spec.IndexSet
import Verif.Proofs.PRegSet

namespace Regalloc

namespace AdaptiveMap

/-- value stored for a key, 0 if absent. -/
def look (es : List (Nat × Word)) (k : Nat) : Word :=
  ((es.find? (fun e => e.1 == k)).map (·.2)).getD 0

/-- keys are distinct and below 2^32, small mode has at most 12 entries. -/
structure Wf (m : AdaptiveMap) : Prop where
  nodup : (m.entries.map (·.1)).Nodup
  bound : ∀ e ∈ m.entries, e.1 < 2 ^ 32
  small : ∀ es, m = Small es → es.length ≤ 12

theorem find_of_mem {es : List (Nat × Word)} (h : (es.map (·.1)).Nodup) {e : Nat × Word} (he : e ∈ es) :
    es.find? (fun x => x.1 == e.1) = some e := by
  induction es with
  | nil => simp at he
  | cons a l ih =>
    simp only [List.map_cons, List.nodup_cons] at h
    rcases List.mem_cons.mp he with rfl | he
    · simp
    · have : a.1 ≠ e.1 := by
        intro e1
        exact h.1 (by rw [e1]; exact List.mem_map_of_mem he)
      rw [List.find?_cons_of_neg (by simpa using this)]
      exact ih h.2 he

theorem look_of_mem {es : List (Nat × Word)} (h : (es.map (·.1)).Nodup) {e : Nat × Word} (he : e ∈ es) :
    look es e.1 = e.2 := by
  unfold look; rw [find_of_mem h he]; rfl

theorem look_of_not_mem {es : List (Nat × Word)} {k : Nat} (h : k ∉ es.map (·.1)) : look es k = 0 := by
  unfold look
  rw [List.find?_eq_none.mpr]
  · rfl
  · intro x hx e
    exact h (by rw [← (beq_iff_eq.mp e)]; exact List.mem_map_of_mem hx)

theorem keyPos_some {es : List (Nat × Word)} {k i : Nat} (h : keyPos es k = some i) :
    ∃ w, es[i]? = some (k, w) := by
  unfold keyPos at h
  rw [List.findIdx?_eq_some_iff_getElem] at h
  obtain ⟨hlt, h1, _⟩ := h
  have : es[i].1 = k := by simpa using h1
  exact ⟨es[i].2, by simp [hlt, ← this]⟩

theorem keyPos_none {es : List (Nat × Word)} {k : Nat} (h : keyPos es k = none) : k ∉ es.map (·.1) := by
  unfold keyPos at h
  rw [List.findIdx?_eq_none_iff] at h
  intro hk
  obtain ⟨e, he, rfl⟩ := List.mem_map.mp hk
  simpa using h e he

theorem look_eq_of_getElem {es : List (Nat × Word)} (hn : (es.map (·.1)).Nodup) {i k : Nat} {w : Word}
    (h : es[i]? = some (k, w)) : look es k = w :=
  look_of_mem hn (List.mem_of_getElem? h)

/-- the entry at a valid position is updated; all other keys unaffected. -/
theorem look_modify {es : List (Nat × Word)} (hn : (es.map (·.1)).Nodup) {i k : Nat} {w : Word}
    (h : es[i]? = some (k, w)) (f : Word → Word) (j : Nat) :
    look (es.modify i (fun e => (e.1, f e.2))) j = if j = k then f w else look es j := by
  induction es generalizing i with
  | nil => simp at h
  | cons a l ih =>
    simp only [List.map_cons, List.nodup_cons] at hn
    cases i with
    | zero =>
      simp only [List.getElem?_cons_zero, Option.some.injEq] at h
      subst h
      simp only [List.modify_zero_cons, look, List.find?_cons]
      by_cases e : j = k
      · subst e; simp
      · have : (k == j) = false := by simpa using fun h => e h.symm
        simp [this, e]
    | succ i =>
      simp only [List.getElem?_cons_succ] at h
      have ih' := ih hn.2 h
      have hak : a.1 ≠ k := by
        intro e
        exact hn.1 (by rw [e]; exact List.mem_map_of_mem (f := (·.1)) (List.mem_of_getElem? h))
      simp only [List.modify_succ_cons, look, List.find?_cons] at *
      by_cases e : a.1 = j
      · have : j ≠ k := by rw [← e]; exact hak
        simp [e, this]
      · have : (a.1 == j) = false := by simpa using e
        simp only [this]
        exact ih'

theorem keys_modify (es : List (Nat × Word)) (i : Nat) (f : Word → Word) :
    (es.modify i (fun e => (e.1, f e.2))).map (·.1) = es.map (·.1) := by
  induction es generalizing i with
  | nil => simp
  | cons a l ih => cases i <;> simp [ih]

theorem modifyAt_entries (m : AdaptiveMap) (i : Nat) (f : Word → Word) :
    (m.modifyAt i f).entries = m.entries.modify i (fun e => (e.1, f e.2)) := by
  cases m <;> rfl

theorem Wf.modifyAt {m : AdaptiveMap} (h : m.Wf) (i : Nat) (f : Word → Word) : (m.modifyAt i f).Wf := by
  have hk : (m.modifyAt i f).entries.map (·.1) = m.entries.map (·.1) := by
    rw [modifyAt_entries, keys_modify]
  refine ⟨by rw [hk]; exact h.nodup, ?_, ?_⟩
  · intro e he
    have : e.1 ∈ m.entries.map (·.1) := by rw [← hk]; exact List.mem_map_of_mem he
    obtain ⟨e', he', h'⟩ := List.mem_map.mp this
    rw [← h']; exact h.bound e' he'
  · intro es hes
    cases m with
    | Small l =>
      simp only [AdaptiveMap.modifyAt, Small.injEq] at hes
      rw [← hes, List.length_modify]
      exact h.small l rfl
    | Large l => simp [AdaptiveMap.modifyAt] at hes

/-- what `get_or_insert` returns. -/
structure Got (m : AdaptiveMap) (key : Nat) (r : AdaptiveMap × Nat) : Prop where
  wf : r.1.Wf
  pos : r.1.entries[r.2]? = some (key, look m.entries key)
  keep : ∀ j, look r.1.entries j = look m.entries j

theorem nodup_append_key {es : List (Nat × Word)} {k : Nat} {w : Word} (hn : (es.map (·.1)).Nodup)
    (hk : k ∉ es.map (·.1)) : ((es ++ [(k, w)]).map (·.1)).Nodup := by
  rw [List.map_append, List.nodup_append]
  refine ⟨hn, by simp, ?_⟩
  intro a ha b hb
  simp only [List.map_cons, List.map_nil, List.mem_singleton] at hb
  subst hb
  intro e; subst e; exact hk ha

theorem look_append_zero (es : List (Nat × Word)) (k j : Nat) : look (es ++ [(k, 0)]) j = look es j := by
  unfold look
  rw [List.find?_append]
  cases h : es.find? (fun e => e.1 == j) with
  | some e => simp
  | none =>
    simp only [Option.none_or, List.find?_cons, List.find?_nil]
    split <;> simp

theorem hashEntry_got {es : List (Nat × Word)} {key : Nat} (hn : (es.map (·.1)).Nodup)
    (hb : ∀ e ∈ es, e.1 < 2 ^ 32) (hk : key < 2 ^ 32) (m : AdaptiveMap) (hm : m.entries = es) :
    Got m key (hashEntry es key) := by
  have hL : ∀ l, (Large l).entries = l := fun _ => rfl
  unfold hashEntry
  cases h : keyPos es key with
  | some i =>
    obtain ⟨w, hw⟩ := keyPos_some h
    refine ⟨⟨hn, hb, by intro es h; simp at h⟩, ?_, ?_⟩
    · simp only [hL, hm, hw, look_eq_of_getElem hn hw]
    · intro j; simp [hL, hm]
  | none =>
    have hnk := keyPos_none h
    refine ⟨⟨nodup_append_key hn hnk, ?_, by intro es h; simp at h⟩, ?_, ?_⟩
    · intro e he
      simp only [entries, List.mem_append, List.mem_singleton] at he
      rcases he with he | rfl
      · exact hb e he
      · exact hk
    · simp [hL, hm, look_of_not_mem hnk]
    · intro j; rw [hL, hm]; exact look_append_zero _ _ _

theorem keys_rekey {es : List (Nat × Word)} {i key k0 : Nat} {w : Word} (h : es[i]? = some (k0, w)) :
    ∀ x, x ∈ (es.modify i (fun e => (key, e.2))).map (·.1) → x = key ∨ x ∈ es.map (·.1) := by
  intro x hx
  obtain ⟨e, he, rfl⟩ := List.mem_map.mp hx
  obtain ⟨j, hj⟩ := List.getElem?_of_mem he
  rw [List.getElem?_modify] at hj
  by_cases hij : i = j
  · subst hij
    rw [h] at hj
    simp at hj
    left; rw [← hj]
  · simp only [hij, if_false, Option.map_id_fun', id_eq] at hj
    right
    exact List.mem_map_of_mem (List.mem_of_getElem? (by simpa [hij] using hj))

theorem nodup_rekey {es : List (Nat × Word)} (hn : (es.map (·.1)).Nodup) {i key : Nat}
    (hk : key ∉ es.map (·.1)) : ((es.modify i (fun e => (key, e.2))).map (·.1)).Nodup := by
  induction es generalizing i with
  | nil => simp
  | cons a l ih =>
    simp only [List.map_cons, List.nodup_cons, List.mem_cons, not_or] at hn hk
    cases i with
    | zero => simpa using ⟨by simpa using hk.2, by simpa using hn.2⟩
    | succ i =>
      simp only [List.modify_succ_cons, List.map_cons, List.nodup_cons]
      refine ⟨?_, ih hn.2 hk.2⟩
      intro hx
      obtain ⟨e, he, e1⟩ := List.mem_map.mp hx
      obtain ⟨j, hj⟩ := List.getElem?_of_mem he
      rw [List.getElem?_modify] at hj
      by_cases hij : i = j
      · subst hij
        cases hl : l[i]? with
        | none => rw [hl] at hj; simp at hj
        | some y =>
          rw [hl] at hj
          simp at hj
          rw [← hj] at e1
          exact hk.1 e1
      · have hj' : l[j]? = some e := by simpa [hij] using hj
        exact hn.1 (by rw [← e1]; exact List.mem_map_of_mem (List.mem_of_getElem? hj'))

theorem look_rekey {es : List (Nat × Word)} (hn : (es.map (·.1)).Nodup) {i key k0 : Nat}
    (hk : key ∉ es.map (·.1)) (h : es[i]? = some (k0, 0)) (j : Nat) :
    look (es.modify i (fun e => (key, e.2))) j = look es j := by
  have hn' := nodup_rekey (i := i) hn hk
  have hk0 : look es k0 = 0 := look_eq_of_getElem hn h
  have hnew : (es.modify i (fun e => (key, e.2)))[i]? = some (key, 0) := by
    simp [h]
  by_cases e1 : j = key
  · subst e1
    rw [look_eq_of_getElem hn' hnew, look_of_not_mem hk]
  · by_cases hj : j ∈ es.map (·.1)
    · obtain ⟨e, he, rfl⟩ := List.mem_map.mp hj
      obtain ⟨m, hm⟩ := List.getElem?_of_mem he
      by_cases him : i = m
      · subst him
        rw [h] at hm
        cases hm
        simp only at e1 ⊢
        rw [hk0]
        apply look_of_not_mem
        intro hx
        obtain ⟨e', he', e2⟩ := List.mem_map.mp hx
        obtain ⟨q, hq⟩ := List.getElem?_of_mem he'
        by_cases hiq : i = q
        · subst hiq
          rw [hnew] at hq; cases hq
          exact e1 e2.symm
        · rw [List.getElem?_modify] at hq
          have hq' : es[q]? = some e' := by simpa [hiq] using hq
          -- keys distinct: positions i and q have the same key
          have h1 : (es.map (·.1))[i]? = some k0 := by simp [h]
          have h2 : (es.map (·.1))[q]? = some k0 := by simp [hq', e2]
          have hi := (List.getElem?_eq_some_iff.mp h1)
          have hq2 := (List.getElem?_eq_some_iff.mp h2)
          rw [List.nodup_iff_pairwise_ne, List.pairwise_iff_getElem] at hn
          rcases Nat.lt_trichotomy i q with hlt | heq | hgt
          · exact hn i q hi.1 hq2.1 hlt (hi.2.trans hq2.2.symm)
          · exact hiq heq
          · exact hn q i hq2.1 hi.1 hgt (hq2.2.trans hi.2.symm)
      · have : (es.modify i (fun e => (key, e.2)))[m]? = some (e.1, e.2) := by
          rw [List.getElem?_modify]; simp [him, hm]
        rw [look_eq_of_getElem hn' this, look_of_mem hn he]
    · rw [look_of_not_mem hj]
      apply look_of_not_mem
      intro hx
      rcases keys_rekey h j hx with h' | h'
      · exact e1 h'
      · exact hj h'

theorem getOrInsert_got {m : AdaptiveMap} (h : m.Wf) {key : Nat} (hk : key < 2 ^ 32) :
    Got m key (m.getOrInsert key) := by
  cases m with
  | Large es => exact hashEntry_got h.nodup h.bound hk _ rfl
  | Small es =>
    simp only [getOrInsert]
    cases hp : keyPos es key with
    | some i =>
      obtain ⟨w, hw⟩ := keyPos_some hp
      refine ⟨h, ?_, fun _ => rfl⟩
      have : look es key = w := look_eq_of_getElem h.nodup hw
      simp only [entries, hw, this]
    | none =>
      have hnk := keyPos_none hp
      simp only
      by_cases hl : es.length ≠ SMALL_ELEMS
      · rw [if_pos hl]
        have hle := h.small es rfl
        refine ⟨⟨nodup_append_key h.nodup hnk, ?_, ?_⟩, ?_, ?_⟩
        · intro e he
          simp only [entries, List.mem_append, List.mem_singleton] at he
          rcases he with he | rfl
          · exact h.bound e he
          · exact hk
        · intro es' e; cases e; simp [SMALL_ELEMS] at hl ⊢; omega
        · simp [entries, look_of_not_mem hnk]
        · intro j; exact look_append_zero _ _ _
      · rw [if_neg hl]
        cases hz : es.findIdx? (fun e => e.2 == 0) with
        | some i =>
          rw [List.findIdx?_eq_some_iff_getElem] at hz
          obtain ⟨hlt, hz, _⟩ := hz
          have hz' : es[i].2 = 0 := by simpa using hz
          have hi : es[i]? = some (es[i].1, 0) := by simp [hlt, ← hz']
          refine ⟨⟨nodup_rekey h.nodup hnk, ?_, ?_⟩, ?_, ?_⟩
          · intro e he
            rcases keys_rekey hi e.1 (List.mem_map_of_mem he) with h' | h'
            · rw [h']; exact hk
            · obtain ⟨e', he', h''⟩ := List.mem_map.mp h'
              rw [← h'']; exact h.bound e' he'
          · intro es' e; cases e; rw [List.length_modify]; exact h.small es rfl
          · simp [entries, hi, look_of_not_mem hnk]
          · intro j; exact look_rekey h.nodup hnk hi j
        | none => exact hashEntry_got h.nodup h.bound hk _ rfl

/-- get-or-insert then update. -/
theorem look_update {m : AdaptiveMap} (h : m.Wf) {key : Nat} (hk : key < 2 ^ 32) (f : Word → Word) (j : Nat) :
    look ((m.getOrInsert key).1.modifyAt (m.getOrInsert key).2 f).entries j =
      if j = key then f (look m.entries key) else look m.entries j := by
  have g := getOrInsert_got h hk
  rw [modifyAt_entries, look_modify g.wf.nodup g.pos, g.keep]

end AdaptiveMap

open AdaptiveMap PRegSet

/-! ### `SetBitsIter` -/

theorem and_sub_one_getLsbD {w : Word} (hw : w ≠ 0) (i : Nat) :
    (w &&& (w - 1)).getLsbD i = (w.getLsbD i && !decide (i = w.ctz.toNat)) := by
  have hb1 : w.getLsbD w.ctz.toNat = true := BitVec.getLsbD_true_ctz_of_ne_zero hw
  generalize hbe : w.ctz.toNat = b at *
  have hlow : ∀ j, j < b → w.getLsbD j = false := by
    intro j hj; exact BitVec.getLsbD_false_of_lt_ctz (by omega)
  have hb : b < 64 := by
    by_cases hb : b < 64
    · exact hb
    · rw [BitVec.getLsbD_of_ge _ _ (by omega)] at hb1; simp at hb1
  -- split w as u + 2^b
  let u : Word := w &&& ~~~(1#64 <<< b)
  have hu : ∀ j, u.getLsbD j = (w.getLsbD j && !decide (j = b)) := by
    intro j
    by_cases hj : j < 64
    · simp only [u, BitVec.getLsbD_and, BitVec.getLsbD_not, one_shl_getLsbD _ _ hb, hj, decide_true, Bool.true_and]
    · rw [BitVec.getLsbD_of_ge _ _ (by omega), BitVec.getLsbD_of_ge _ _ (by omega)]; rfl
  have hw1 : w = u + (1#64 <<< b) := by
    rw [BitVec.add_eq_or_of_and_eq_zero]
    · apply BitVec.eq_of_getLsbD_eq
      intro j hj
      rw [BitVec.getLsbD_or, hu, one_shl_getLsbD _ _ hb]
      by_cases e : j = b
      · subst e; simp [hb1]
      · simp [e]
    · apply BitVec.eq_of_getLsbD_eq
      intro j hj
      rw [BitVec.getLsbD_and, hu, one_shl_getLsbD _ _ hb]
      by_cases e : j = b <;> simp [e]
  let v : Word := (1#64 <<< b) - 1
  have hv : ∀ j, v.getLsbD j = decide (j < b) := by
    intro j
    have hvn : v.toNat = 2 ^ b - 1 := by
      have h2 : (2:Nat) ^ b < 2 ^ 64 := Nat.pow_lt_pow_right (by omega) hb
      have h3 : 0 < (2:Nat) ^ b := Nat.two_pow_pos b
      have e1 : BitVec.toNat (1 : Word) = 1 := rfl
      have e2 : BitVec.toNat (1#64 <<< b) = 2 ^ b := by
        rw [BitVec.toNat_shiftLeft, Nat.shiftLeft_eq]
        simp only [BitVec.toNat_ofNat]
        rw [Nat.one_mod_two_pow_eq_one.mpr (by omega), Nat.one_mul, Nat.mod_eq_of_lt h2]
      simp only [v, BitVec.toNat_sub, e1, e2]
      omega
    rw [BitVec.getLsbD, hvn, Nat.testBit_two_pow_sub_one]
  have hsub : w - 1 = u + v := by
    rw [hw1]
    simp only [v]
    rw [BitVec.sub_eq_add_neg, BitVec.sub_eq_add_neg, BitVec.add_assoc]
  have hor : u + v = u ||| v := by
    rw [BitVec.add_eq_or_of_and_eq_zero]
    apply BitVec.eq_of_getLsbD_eq
    intro j hj
    rw [BitVec.getLsbD_and, hu, hv]
    by_cases e : j < b
    · simp [hlow j e]
    · simp [e]
  rw [hsub, hor, BitVec.getLsbD_and, BitVec.getLsbD_or, hu, hv]
  by_cases e : i < b
  · simp [hlow i e]
  · by_cases e' : i = b
    · subst e'; simp
    · simp [e, e']

/-- bits at or above `k`. -/
theorem setBits_spec (n : Nat) (w : Word) (k : Nat) (hk : ∀ i, w.getLsbD i = true → k ≤ i)
    (hn : 64 < n + k) :
    (setBits n w).Pairwise (· < ·) ∧ ∀ i, i ∈ setBits n w ↔ w.getLsbD i = true := by
  induction n generalizing w k with
  | zero =>
    refine ⟨List.Pairwise.nil, ?_⟩
    intro i
    simp only [setBits, List.not_mem_nil, false_iff]
    intro h
    have := hk i h
    rw [BitVec.getLsbD_of_ge _ _ (by omega)] at h
    simp at h
  | succ n ih =>
    unfold setBits setBitsNext
    by_cases hw : w = 0
    · subst hw; simp
    · simp only [hw, if_false]
      have hb1 : w.getLsbD w.ctz.toNat = true := BitVec.getLsbD_true_ctz_of_ne_zero hw
      have hlow : ∀ j, w.getLsbD j = true → w.ctz.toNat ≤ j := by
        intro j hj
        apply Decidable.byContradiction
        intro h
        rw [BitVec.getLsbD_false_of_lt_ctz (by omega)] at hj
        simp at hj
      have hw' := and_sub_one_getLsbD hw
      have hk' := hk _ hb1
      have hgt : ∀ i, (w &&& (w - 1)).getLsbD i = true → w.ctz.toNat + 1 ≤ i := by
        intro i hi
        rw [hw'] at hi
        simp only [Bool.and_eq_true, Bool.not_eq_true', decide_eq_false_iff_not] at hi
        have := hlow i hi.1
        omega
      obtain ⟨h1, h2⟩ := ih (w &&& (w - 1)) (w.ctz.toNat + 1) hgt (by omega)
      refine ⟨List.pairwise_cons.mpr ⟨?_, h1⟩, ?_⟩
      · intro i hi
        have := hgt i ((h2 i).mp hi)
        omega
      · intro i
        rw [List.mem_cons, h2, hw']
        by_cases e : i = w.ctz.toNat
        · subst e; simp [hb1]
        · simp [e]

/-! ### `IndexSet` -/

namespace IndexSet

theorem wordIndex_eq {i : Nat} (h : i < 2 ^ 38) : wordIndex i = i / 64 := by
  unfold wordIndex BITS_PER_WORD
  omega

theorem wordIndex_lt (i : Nat) : wordIndex i < 2 ^ 32 := by
  unfold wordIndex
  omega

theorem get_eq (s : IndexSet) (i : Nat) :
    s.get i = (look s.elems.entries (wordIndex i)).getLsbD (i % 64) := by
  have hlt : i % 64 < 64 := by omega
  have key : ∀ w : Word, ((w &&& (1#64 <<< (i % 64))) != 0) = w.getLsbD (i % 64) := by
    intro w
    have := and_one_shl_ne w (i % 64) hlt
    simpa using this
  unfold get AdaptiveMap.get look BITS_PER_WORD
  cases h : s.elems.entries.find? (fun e => e.1 == wordIndex i) with
  | none => simp
  | some e => simp only [Option.map_some, Option.getD_some]; exact key e.2

theorem set_wf {s : IndexSet} (h : s.elems.Wf) (i : Nat) (v : Bool) : (s.set i v).elems.Wf := by
  unfold set
  cases v with
  | true =>
    simp only [if_true]
    exact (getOrInsert_got h (wordIndex_lt i)).wf.modifyAt _ _
  | false =>
    simp only [Bool.false_eq_true, if_false]
    cases hg : s.elems.getMut (wordIndex i) with
    | none => exact h
    | some k => exact h.modifyAt k (fun w => w &&& ~~~(1#64 <<< (i % BITS_PER_WORD)))

theorem look_set {s : IndexSet} (h : s.elems.Wf) (i : Nat) (v : Bool) (k : Nat) :
    look (s.set i v).elems.entries k =
      if k = wordIndex i then
        (if v then look s.elems.entries k ||| (1#64 <<< (i % 64))
         else look s.elems.entries k &&& ~~~(1#64 <<< (i % 64)))
      else look s.elems.entries k := by
  unfold set
  cases v with
  | true =>
    simp only [if_true, BITS_PER_WORD]
    rw [look_update h (wordIndex_lt i)]
    by_cases e : k = wordIndex i
    · subst e; simp
    · simp [e]
  | false =>
    simp only [Bool.false_eq_true, if_false]
    unfold getMut
    cases hp : keyPos s.elems.entries (wordIndex i) with
    | none =>
      simp only
      by_cases e : k = wordIndex i
      · subst e; simp [look_of_not_mem (keyPos_none hp)]
      · simp [e]
    | some p =>
      obtain ⟨w, hw⟩ := keyPos_some hp
      simp only [modifyAt_entries, BITS_PER_WORD]
      rw [look_modify h.nodup hw (fun w => w &&& ~~~(1#64 <<< (i % 64)))]
      by_cases e : k = wordIndex i
      · subst e; simp [look_eq_of_getElem h.nodup hw]
      · simp [e]

theorem unionStep_spec {st : IndexSet × Word} (h : st.1.elems.Wf) {e : Nat × Word} (he : e.1 < 2 ^ 32) :
    (unionStep st e).1.elems.Wf ∧
    (∀ k, look (unionStep st e).1.elems.entries k =
      if k = e.1 then look st.1.elems.entries k ||| e.2 else look st.1.elems.entries k) ∧
    (unionStep st e).2 = st.2 ||| (e.2 &&& ~~~(look st.1.elems.entries e.1)) := by
  have hwi : wordIndex (e.1 * BITS_PER_WORD) = e.1 := by
    unfold wordIndex BITS_PER_WORD
    rw [Nat.mul_div_cancel _ (by omega)]
    omega
  unfold unionStep
  by_cases hz : e.2 = 0
  · rw [if_pos hz]
    refine ⟨h, ?_, ?_⟩
    · intro k; split <;> simp [hz]
    · simp [hz]
  · rw [if_neg hz]
    simp only [hwi]
    have g := getOrInsert_got h he
    refine ⟨g.wf.modifyAt _ _, ?_, ?_⟩
    · intro k
      rw [look_update h he]
      by_cases e1 : k = e.1
      · subst e1; simp
      · simp [e1]
    · rw [g.pos]; rfl

theorem union_fold (l : List (Nat × Word)) (hn : (l.map (·.1)).Nodup) (hb : ∀ e ∈ l, e.1 < 2 ^ 32)
    (st : IndexSet × Word) (h : st.1.elems.Wf) :
    (l.foldl unionStep st).1.elems.Wf ∧
    (∀ k, look (l.foldl unionStep st).1.elems.entries k = look st.1.elems.entries k ||| look l k) ∧
    ((l.foldl unionStep st).2 ≠ 0 ↔
      st.2 ≠ 0 ∨ ∃ k i, (look l k).getLsbD i = true ∧ (look st.1.elems.entries k).getLsbD i = false) := by
  induction l generalizing st with
  | nil =>
    refine ⟨h, ?_, ?_⟩
    · intro k; simp [look]
    · simp [look]
  | cons e l ih =>
    simp only [List.map_cons, List.nodup_cons] at hn
    obtain ⟨h1, h2, h3⟩ := unionStep_spec h (hb e (by simp))
    obtain ⟨i1, i2, i3⟩ := ih hn.2 (fun x hx => hb x (List.mem_cons_of_mem _ hx)) _ h1
    have hl0 : look l e.1 = 0 := look_of_not_mem hn.1
    have hc : ∀ k, look (e :: l) k = if k = e.1 then e.2 else look l k := by
      intro k
      unfold look
      rw [List.find?_cons]
      by_cases e1 : k = e.1
      · subst e1; simp
      · have : (e.1 == k) = false := by simpa using fun h => e1 h.symm
        simp [this, e1]
    simp only [List.foldl_cons]
    refine ⟨i1, ?_, ?_⟩
    · intro k
      rw [i2, h2, hc]
      by_cases e1 : k = e.1
      · subst e1; simp [hl0]
      · simp [e1]
    · rw [i3]
      have hne : ∀ w : Word, w ≠ 0 ↔ ∃ i, w.getLsbD i = true := by
        intro w
        constructor
        · intro hw
          exact ⟨_, BitVec.getLsbD_true_ctz_of_ne_zero hw⟩
        · rintro ⟨i, hi⟩ e; subst e; simp at hi
      rw [h3, hne, hne]
      constructor
      · rintro (⟨i, hi⟩ | ⟨k, i, hi, hi'⟩)
        · rw [BitVec.getLsbD_or, BitVec.getLsbD_and, BitVec.getLsbD_not, Bool.or_eq_true] at hi
          rcases hi with hi | hi
          · exact .inl ⟨i, hi⟩
          · simp only [Bool.and_eq_true, Bool.not_eq_true'] at hi
            exact .inr ⟨e.1, i, by rw [hc]; simpa using hi.1, hi.2.2⟩
        · rw [h2] at hi'
          have : k ≠ e.1 := by rintro rfl; rw [hl0] at hi; simp at hi
          rw [if_neg this] at hi'
          exact .inr ⟨k, i, by rw [hc, if_neg this]; exact hi, hi'⟩
      · rintro (⟨i, hi⟩ | ⟨k, i, hi, hi'⟩)
        · exact .inl ⟨i, by rw [BitVec.getLsbD_or, hi]; rfl⟩
        · rw [hc] at hi
          by_cases e1 : k = e.1
          · subst e1
            rw [if_pos rfl] at hi
            have hlt : i < 64 := by
              apply Decidable.byContradiction
              intro h; rw [BitVec.getLsbD_of_ge _ _ (by omega)] at hi; simp at hi
            exact .inl ⟨i, by simp only [BitVec.getLsbD_or, BitVec.getLsbD_and, BitVec.getLsbD_not, hi, hi', hlt]; simp⟩
          · rw [if_neg e1] at hi
            exact .inr ⟨k, i, hi, by rw [h2, if_neg e1]; exact hi'⟩

theorem look_perm {l l' : List (Nat × Word)} (h : l.Perm l') (hn : (l.map (·.1)).Nodup) (k : Nat) :
    look l k = look l' k := by
  have hn' : (l'.map (·.1)).Nodup := (h.map _).nodup_iff.mp hn
  by_cases hk : k ∈ l.map (·.1)
  · obtain ⟨e, he, rfl⟩ := List.mem_map.mp hk
    rw [look_of_mem hn he, look_of_mem hn' (h.mem_iff.mp he)]
  · have hk' : k ∉ l'.map (·.1) := fun h' => hk ((h.map _).mem_iff.mpr h')
    rw [look_of_not_mem hk, look_of_not_mem hk']

theorem iter_perm (ord : HashOrder) (m : AdaptiveMap) : (m.iter ord).Perm m.entries := by
  cases m with
  | Small es => exact .refl _
  | Large es => exact ord.perm es

theorem unionWith_spec (ord : HashOrder) {s t : IndexSet} (hs : s.elems.Wf) (ht : t.elems.Wf) :
    (s.unionWith ord t).1.elems.Wf ∧
    (∀ k, look (s.unionWith ord t).1.elems.entries k = look s.elems.entries k ||| look t.elems.entries k) ∧
    ((s.unionWith ord t).2 = true ↔
      ∃ k i, (look t.elems.entries k).getLsbD i = true ∧ (look s.elems.entries k).getLsbD i = false) := by
  have hp := iter_perm ord t.elems
  have hn : ((t.elems.iter ord).map (·.1)).Nodup := (hp.map _).nodup_iff.mpr ht.nodup
  obtain ⟨h1, h2, h3⟩ := union_fold (t.elems.iter ord) hn
    (fun e he => ht.bound e (hp.mem_iff.mp he)) (s, 0) hs
  have hlk := look_perm hp hn
  refine ⟨h1, ?_, ?_⟩
  · intro k
    rw [← hlk]; exact h2 k
  · unfold unionWith
    simp only [bne_iff_ne, h3]
    simp only [hlk]
    simp

end IndexSet

end Regalloc
