import Verif.Proofs.PipeReady
import Verif.Props.SpillSlots
import Verif.Props.Encodings

/-! The slots of the spill sets. -/
namespace Regalloc.Pipeline

/-- What is needed of the slots given to the spill sets. -/
structure Slotted (st : Ion.St) (ss : Spill.State) (slots : List SpillSlot) (num : UInt32) : Prop where
  get : ∀ t, t < st.nSpillsets → (st.spillsets t).required = true → ∃ s slot, ss.assigned t = some s ∧ slots[s]? = some slot ∧
    slot = SpillSlot.new slot.index ∧ slot.index ≤ SpillSlot.MAX ∧ slot.index < num.toNat
  same : ∀ t t', t < st.nSpillsets → t' < st.nSpillsets → ∀ s s' slot slot', ss.assigned t = some s → ss.assigned t' = some s' →
    slots[s]? = some slot → slots[s']? = some slot' → slot.index = slot'.index →
    t = t' ∨ ((st.spillsets t).cls = (st.spillsets t').cls ∧ ¬ (st.spillsets t).range.Meets (st.spillsets t').range)

theorem setsOf_get {st : Ion.St} {t : Nat} (ht : t < st.nSpillsets) :
    (setsOf st)[t]? = some ⟨(st.spillsets t).required, (st.spillsets t).cls, (st.spillsets t).range⟩ := by
  unfold setsOf
  rw [List.getElem?_map, List.getElem?_range ht]
  rfl

theorem slotted {i : Input} {st : Ion.St} (hw : ∀ t, t < st.nSpillsets → (st.spillsets t).range.fr < (st.spillsets t).range.to)
    {ss : Spill.State} {slots : List SpillSlot} {num : UInt32}
    (h : Spill.allocateSpillslots i.byLast i.sizeN 0 (setsOf st) = some (ss, slots, num)) : Slotted st ss slots num := by
  have hne : ∀ s ∈ setsOf st, s.required = true → s.range.Nonempty := by
    intro s hs _
    unfold setsOf at hs
    obtain ⟨t, ht, rfl⟩ := List.mem_map.mp hs
    exact ⟨_, Nat.le_refl _, hw t (List.mem_range.mp ht)⟩
  obtain ⟨st', h1, h2, h3, h4⟩ := Spill.C23_assignment i.sizeN (setsOf st) hne
  unfold Spill.allocateSpillslots at h
  rw [h1] at h
  simp only at h
  split at h
  · simp at h
  rename_i slots' num2 ha
  simp only [Option.some.injEq, Prod.mk.injEq] at h
  obtain ⟨rfl, rfl, rfl⟩ := h
  have hspec := Spill.allocSlots_spec ha
  have hname := Spill.C22_named i.byLast 0 num2 _ slots' ha
  have hdis := Spill.C22_disjoint_aligned_bounded i.byLast 0 num2 _ slots' ha
  have hz : ∀ t s, t < st.nSpillsets → st'.assigned t = some s →
      ∃ z, (st'.slots.map fun d => UInt32.ofNat d.slots)[s]? = some z := by
    intro t s ht hs
    obtain ⟨d, hd, -⟩ := h3 t s _ (setsOf_get ht) hs
    exact ⟨UInt32.ofNat d.slots, by rw [List.getElem?_map, hd]; rfl⟩
  constructor
  · intro t ht hreq
    obtain ⟨s, hs⟩ := (h2 t _ (setsOf_get ht)).mp hreq
    obtain ⟨z, hz⟩ := hz t s ht hs
    have hlt : s < slots'.length := by
      rw [hspec.1]
      exact (List.getElem?_eq_some_iff.mp hz).1
    have hg := List.getElem?_eq_getElem hlt
    have k1 := hspec.2.2.1 s _ z hg hz
    have k2 := (hname s _ z hg hz).1
    exact ⟨s, slots'[s], hs, hg, k1.2.2.2.2.1, k1.2.2.2.2.2, ((hdis.2.1 s _ z hg hz).2 _ k2).2⟩
  · intro t t' ht ht' s s' slot slot' hs hs' hg hg' he
    by_cases htt : t = t'
    · exact .inl htt
    obtain ⟨z, hz1⟩ := hz t s ht hs
    obtain ⟨z', hz2⟩ := hz t' s' ht' hs'
    by_cases hss : s = s'
    · subst hss
      exact .inr (h4 t t' s _ _ htt (setsOf_get ht) (setsOf_get ht') hs hs')
    · exfalso
      refine hdis.2.2 s s' slot z slot' z' hss hg hz1 hg' hz2 slot.index ⟨(hname s _ z hg hz1).1, ?_⟩
      have := (hname s' _ z' hg' hz2).1
      rw [← he] at this ⊢
      exact this

end Regalloc.Pipeline
