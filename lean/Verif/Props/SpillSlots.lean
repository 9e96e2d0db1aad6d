import Verif.Proofs.SpillSlots

namespace Regalloc.Spill

/-! ### C22: stack words of spill slots -/

/-- For any sequence of requests, from any number of words already in use: every slot
answered starts at a multiple of its size, lies at or above the words in use before and
below the final count, and no two slots share a word. Both naming conventions. -/
theorem C22_disjoint_aligned_bounded (byLast : Bool) (num num' : UInt32) (sizes : List UInt32) (slots : List SpillSlot)
    (h : allocSlots byLast num sizes = some (slots, num')) :
    slots.length = sizes.length ∧
    (∀ (i : Nat) s (z : UInt32), slots[i]? = some s → sizes[i]? = some z →
      z.toNat ∣ firstWord byLast s.index z.toNat ∧
      ∀ w, Occupies byLast s.index z.toNat w → num.toNat ≤ w ∧ w < num'.toNat) ∧
    (∀ (i j : Nat) s z t (y : UInt32), i ≠ j → slots[i]? = some s → sizes[i]? = some z → slots[j]? = some t → sizes[j]? = some y →
      ∀ w, ¬ (Occupies byLast s.index z.toNat w ∧ Occupies byLast t.index y.toNat w)) := by
  obtain ⟨h1, h2, h3, h4⟩ := allocSlots_spec h
  refine ⟨h1, ?_, ?_⟩
  · intro i s z hs hz
    obtain ⟨_, g2, g3, g4, _⟩ := h3 i s z hs hz
    refine ⟨g3, ?_⟩
    intro w hw
    unfold Occupies at hw
    omega
  · rintro i j s z t y hij hs hz ht hy w ⟨a, b⟩
    unfold Occupies at a b
    rcases Nat.lt_or_gt_of_ne hij with hlt | hlt
    · have := h4 i j s z t y hlt hs hz ht hy; omega
    · have := h4 j i t y s z hlt ht hy hs hz; omega

/-- Each slot answered takes exactly its size in words and its name is its first word,
or its last word under the other convention. -/
theorem C22_named (byLast : Bool) (num num' : UInt32) (sizes : List UInt32) (slots : List SpillSlot)
    (h : allocSlots byLast num sizes = some (slots, num')) (i : Nat) (s : SpillSlot) (z : UInt32)
    (hs : slots[i]? = some s) (hz : sizes[i]? = some z) :
    Occupies byLast s.index z.toNat s.index ∧ s.isInvalid = false ∧
    (∀ w, Occupies byLast s.index z.toNat w → if byLast then w ≤ s.index else s.index ≤ w) := by
  obtain ⟨_, _, h3, _⟩ := allocSlots_spec h
  obtain ⟨g1, g2, g3, g4, g5, g6⟩ := h3 i s z hs hz
  have hpos := pow2_pos g1
  have hinv : s.isInvalid = false := by
    unfold SpillSlot.isInvalid
    rw [decide_eq_false_iff_not, g5]
    intro hc
    have h2 : SpillSlot.MAX = 2 ^ 24 - 1 := rfl
    have := congrArg (fun x : SpillSlot => x.bits.toNat) hc
    simp only [SpillSlot.new, SpillSlot.invalid, UInt32.toNat_ofNat', UInt32.reduceToNat] at this
    omega
  cases byLast with
  | false =>
    unfold Occupies firstWord
    simp only [Bool.false_eq_true, if_false]
    exact ⟨by omega, hinv, fun w hw => by omega⟩
  | true =>
    unfold Occupies
    have : firstWord true s.index z.toNat + z.toNat = s.index + 1 := by
      unfold firstWord
      simp only [if_true]
      -- the first word is a number of words below the name
      have hge : z.toNat ≤ s.index + 1 := by
        unfold firstWord at g4 g2 g3
        simp only [if_true] at g2 g3 g4
        rcases Nat.lt_or_ge (s.index + 1) z.toNat with hlt | hge
        · exfalso
          exact absurd hlt (by
            have := named_last h i s z hs hz
            omega)
        · exact hge
      omega
    simp only [if_true]
    exact ⟨by omega, hinv, fun w hw => by omega⟩

/-- Requests of power-of-two sizes are all granted as long as twice their total fits in
the slot index space. -/
theorem C22_granted (byLast : Bool) (num : UInt32) (sizes : List UInt32) (hp : ∀ z ∈ sizes, Pow2 z.toNat)
    (hfit : num.toNat + 2 * (sizes.map UInt32.toNat).sum ≤ 2 ^ 24) : (allocSlots byLast num sizes).isSome :=
  allocSlots_isSome sizes num hp hfit

example : allocSlots true 0 [1, 4, 2, 2] = some ([⟨0⟩, ⟨7⟩, ⟨9⟩, ⟨11⟩], 12) := by decide +kernel
example : allocSlots false 0 [1, 4, 2, 2] = some ([⟨0⟩, ⟨4⟩, ⟨8⟩, ⟨10⟩], 12) := by decide +kernel

/-- Fastalloc: over any sequence of requests for the slots of virtual registers, one
register always gets the same slot and two registers never share a stack word; all
words lie below the final count. -/
theorem C22_one_slot_per_vreg (byLast : Bool) (size : RegClass → UInt32) (cls : Nat → RegClass) (vs : List Nat)
    (slots : List SpillSlot) (tab : Nat → SpillSlot) (num : UInt32)
    (h : getSpillslots byLast size (fun _ => SpillSlot.invalid) 0 (vs.map fun v => (v, cls v)) = some (slots, tab, num)) :
    slots.length = vs.length ∧
    (∀ (i j : Nat) v s t, vs[i]? = some v → vs[j]? = some v → slots[i]? = some s → slots[j]? = some t → s = t) ∧
    (∀ (i j : Nat) v w s t, v ≠ w → vs[i]? = some v → vs[j]? = some w → slots[i]? = some s → slots[j]? = some t →
      ∀ x, ¬ (Occupies byLast s.index (size (cls v)).toNat x ∧ Occupies byLast t.index (size (cls w)).toNat x)) ∧
    (∀ (i : Nat) v s, vs[i]? = some v → slots[i]? = some s → s.isInvalid = false ∧
      ∀ x, Occupies byLast s.index (size (cls v)).toNat x → x < num.toNat) := by
  have inv0 : TabInv byLast size cls (fun _ => SpillSlot.invalid) 0 := by
    have hi : SpillSlot.invalid.isInvalid = true := by decide
    exact ⟨by intro v hv; simp [hi] at hv, by intro v w _ hv; simp [hi] at hv⟩
  obtain ⟨g1, g2, _, g4⟩ := getSpillslots_spec vs _ tab 0 num slots inv0 h
  refine ⟨g2, ?_, ?_, ?_⟩
  · intro i j v s t h1 h2 h3 h4
    rw [(g4 i v s h1 h3).1, (g4 j v t h2 h4).1]
  · intro i j v w s t hvw h1 h2 h3 h4 x
    obtain ⟨e1, f1⟩ := g4 i v s h1 h3
    obtain ⟨e2, f2⟩ := g4 j w t h2 h4
    subst e1 e2
    exact g1.disjoint v w hvw f1 f2 x
  · intro i v s h1 h2
    obtain ⟨e1, f1⟩ := g4 i v s h1 h2
    subst e1
    refine ⟨f1, fun x hx => ?_⟩
    have := g1.bounded v f1
    unfold Occupies at hx
    omega

example : (getSpillslots false (fun c => if c = .Vector then 2 else 1) (fun _ => SpillSlot.invalid) 0
    [(5, .Int), (7, .Vector), (5, .Int), (9, .Float)]).map (fun r => (r.1, r.2.2)) = some ([⟨0⟩, ⟨2⟩, ⟨0⟩, ⟨4⟩], 5) := by
  decide +kernel

/-! ### C23: spill sets and slots -/

/-- Slot assignment never fails. Every spill set that needs memory gets a slot, made for
its class; the others get none. Two spill sets in one slot are of one class and their
live extents share no program point. -/
theorem C23_assignment (size : RegClass → Nat) (sets : List SpillSet) (hne : ∀ ss ∈ sets, ss.required = true → ss.range.Nonempty) :
    ∃ st, assignAll size State.init 0 sets = some st ∧
      (∀ (x : Nat) ss, sets[x]? = some ss → (ss.required = true ↔ ∃ s, st.assigned x = some s)) ∧
      (∀ (x s : Nat) ss, sets[x]? = some ss → st.assigned x = some s → ∃ d, st.slots[s]? = some d ∧ d.slots = size ss.cls) ∧
      (∀ (x y s : Nat) ss tt, x ≠ y → sets[x]? = some ss → sets[y]? = some tt → st.assigned x = some s → st.assigned y = some s →
        ss.cls = tt.cls ∧ ¬ ss.range.Meets tt.range) := by
  obtain ⟨st, h1, inv⟩ := assignAll_spec (size := size) (sets := sets) sets 0 State.init (by simp) (init_inv size sets)
    (fun ss hs hr => RKey.nonempty_iff.mp (hne ss hs hr))
  refine ⟨st, h1, ?_, ?_, ?_⟩
  · intro x ss hx
    constructor
    · intro hr
      exact Option.ne_none_iff_exists'.mp ((inv.done x).mpr ⟨(List.getElem?_eq_some_iff.mp hx).1, ss, hx, hr⟩)
    · rintro ⟨s, hs⟩
      obtain ⟨_, ss', h2, h3⟩ := (inv.done x).mp (by rw [hs]; simp)
      rw [hx] at h2
      simp only [Option.some.injEq] at h2
      subst h2
      exact h3
  · intro x s ss hx hs
    exact inv.bound ss.cls s (inv.inClass x s ss hs hx)
  · intro x y s ss tt hxy hx hy hs ht
    have hc1 := inv.inClass x s ss hs hx
    have hc2 := inv.inClass y s tt ht hy
    refine ⟨inv.unique _ _ s hc1 hc2, ?_⟩
    intro hm
    obtain ⟨d, hd, _⟩ := inv.bound ss.cls s hc1
    have m1 := (inv.mem s d hd ss.range x).mpr ⟨hs, ss, hx, rfl⟩
    have m2 := (inv.mem s d hd tt.range y).mpr ⟨ht, tt, hy, rfl⟩
    have hsd := inv.sorted s d hd
    have n1 := hsd.1 _ m1
    have n2 := hsd.1 _ m2
    rw [RKey.meets_iff n1 n2] at hm
    have key : ∀ {l : List (RKey × Nat)}, l.Pairwise (fun a b => a.1.to ≤ b.1.fr) → (ss.range, x) ∈ l → (tt.range, y) ∈ l →
        ss.range.to ≤ tt.range.fr ∨ tt.range.to ≤ ss.range.fr := by
      intro l hl
      induction hl with
      | nil => simp
      | cons ha _ ih =>
        intro g1 g2
        rcases List.mem_cons.mp g1 with e1 | g1
        · rcases List.mem_cons.mp g2 with e2 | g2
          · have := e1.trans e2.symm
            simp only [Prod.mk.injEq] at this
            exact absurd this.2 hxy
          · have := ha _ g2
            rw [← e1] at this
            exact .inl this
        · rcases List.mem_cons.mp g2 with e2 | g2
          · have := ha _ g1
            rw [← e2] at this
            exact .inr this
          · exact ih g1 g2
    have := key hsd.2 m1 m2
    simp only at hm
    omega

/-- End to end: two value sets that are in memory at a common program point never share
a stack word, and every word used lies below the final count. -/
theorem C23_no_shared_words (byLast : Bool) (size : RegClass → Nat) (hsize : ∀ c, size c < 2 ^ 32) (num num' : UInt32)
    (sets : List SpillSet) (hne : ∀ ss ∈ sets, ss.required = true → ss.range.Nonempty) (st : State) (slots : List SpillSlot)
    (h : allocateSpillslots byLast size num sets = some (st, slots, num')) :
    (∀ (x : Nat) ss, sets[x]? = some ss → ss.required = true → ∃ s slot, st.assigned x = some s ∧ slots[s]? = some slot ∧
      ∀ w, Occupies byLast slot.index (size ss.cls) w → num.toNat ≤ w ∧ w < num'.toNat) ∧
    (∀ (x y : Nat) ss tt, x ≠ y → sets[x]? = some ss → sets[y]? = some tt → ss.range.Meets tt.range →
      ∀ s t slot slot', st.assigned x = some s → st.assigned y = some t → slots[s]? = some slot → slots[t]? = some slot' →
      ∀ w, ¬ (Occupies byLast slot.index (size ss.cls) w ∧ Occupies byLast slot'.index (size tt.cls) w)) := by
  obtain ⟨st', h1, h2, h3, h4⟩ := C23_assignment size sets hne
  unfold allocateSpillslots at h
  rw [h1] at h
  simp only at h
  split at h
  · simp at h
  · rename_i slots' num2 ha
    simp only [Option.some.injEq, Prod.mk.injEq] at h
    obtain ⟨rfl, rfl, rfl⟩ := h
    obtain ⟨k1, k2, k3⟩ := C22_disjoint_aligned_bounded byLast num num2 _ slots' ha
    have hz : ∀ (x s : Nat) ss, sets[x]? = some ss → st'.assigned x = some s →
        (st'.slots.map fun d => UInt32.ofNat d.slots)[s]? = some (UInt32.ofNat (size ss.cls)) := by
      intro x s ss hx hs
      obtain ⟨d, hd, he⟩ := h3 x s ss hx hs
      rw [List.getElem?_map, hd, ← he]; rfl
    have hto : ∀ c, (UInt32.ofNat (size c)).toNat = size c := by
      intro c
      rw [UInt32.toNat_ofNat', Nat.mod_eq_of_lt (hsize c)]
    refine ⟨?_, ?_⟩
    · intro x ss hx hr
      obtain ⟨s, hs⟩ := (h2 x ss hx).mp hr
      have hzs := hz x s ss hx hs
      have hlt : s < slots'.length := by rw [k1]; exact (List.getElem?_eq_some_iff.mp hzs).1
      refine ⟨s, slots'[s], hs, List.getElem?_eq_getElem hlt, ?_⟩
      have := (k2 s slots'[s] _ (List.getElem?_eq_getElem hlt) hzs).2
      rw [hto] at this
      exact this
    · intro x y ss tt hxy hx hy hm s t slot slot' hs ht hss hst
      have hst' : s ≠ t := by
        rintro rfl
        exact (h4 x y s ss tt hxy hx hy hs ht).2 hm
      have := k3 s t slot _ slot' _ hst' hss (hz x s ss hx hs) hst (hz y t tt hy ht)
      rw [hto, hto] at this
      exact this

/-- Three sets: the first two are live together, the third fits beside the first. -/
example : ((allocateSpillslots false (fun _ => 1) 0
    [⟨true, .Int, ⟨0, 10⟩⟩, ⟨true, .Int, ⟨5, 15⟩⟩, ⟨false, .Int, ⟨0, 3⟩⟩, ⟨true, .Int, ⟨10, 12⟩⟩, ⟨true, .Float, ⟨20, 30⟩⟩]).map
      fun r => ((List.range 5).map r.1.assigned, r.2.1, r.2.2)) =
    some ([some 0, some 1, none, some 0, some 2], [⟨0⟩, ⟨1⟩, ⟨2⟩], 3) := by decide +kernel

end Regalloc.Spill
