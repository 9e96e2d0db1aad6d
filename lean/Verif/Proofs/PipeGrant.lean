import Verif.Proofs.PipeRun

/-! The slots are granted. -/
namespace Regalloc.Spill

theorem allocSlots_num {byLast : Bool} : ∀ {sizes : List UInt32} {num num' : UInt32} {slots : List SpillSlot},
    allocSlots byLast num sizes = some (slots, num') → num'.toNat ≤ num.toNat + 2 * (sizes.map UInt32.toNat).sum := by
  intro sizes
  induction sizes with
  | nil =>
    intro num num' slots h
    simp only [allocSlots, Option.some.injEq, Prod.mk.injEq] at h
    obtain ⟨-, rfl⟩ := h
    simp
  | cons z sizes ih =>
    intro num num' slots h
    unfold allocSlots at h
    split at h
    · cases h
    rename_i slot num1 h1
    split at h
    · cases h
    rename_i slots1 num2 h2
    cases h
    obtain ⟨-, a, p1, p2, -, -, p3, -⟩ := allocSlot_spec h1
    have := ih h2
    simp only [List.map_cons, List.sum_cons]
    omega

theorem assign_slots {st st' : State} {x s : Nat} {range : RKey} (h : assign st x range s = some st') :
    st'.slots.map (·.slots) = st.slots.map (·.slots) := by
  unfold assign at h
  split at h
  · cases h
  rename_i d hd
  split at h
  · cases h
    dsimp only
    rw [List.map_set]
    apply List.ext_getElem?
    intro j
    rw [List.getElem?_set]
    split
    · rename_i hj
      subst hj
      have := (List.getElem?_eq_some_iff.mp hd).1
      rw [if_pos (by simpa using this), List.getElem?_map, hd]
      rfl
    · rfl
  · cases h

theorem step_slots {size : RegClass → Nat} {st st' : State} {x : Nat} {ss : SpillSet} (h : step size st x ss = some st') :
    st'.slots.map (·.slots) = st.slots.map (·.slots) ∨ ∃ c, st'.slots.map (·.slots) = st.slots.map (·.slots) ++ [size c] := by
  unfold step at h
  split at h
  · cases h; exact .inl rfl
  dsimp only at h
  split at h
  · cases h
  · split at h
    · cases h
    · left
      have := assign_slots h
      simpa using this
  · right
    have := assign_slots h
    exact ⟨ss.cls, by simpa using this⟩

theorem assignAll_slots {size : RegClass → Nat} : ∀ {sets : List SpillSet} {st st' : State} {x : Nat}, assignAll size st x sets = some st' →
    st'.slots.length ≤ st.slots.length + sets.length ∧
    ((∀ d ∈ st.slots, ∃ c, d.slots = size c) → ∀ d ∈ st'.slots, ∃ c, d.slots = size c) := by
  intro sets
  induction sets with
  | nil =>
    intro st st' x h
    unfold assignAll at h
    cases h
    exact ⟨by simp, id⟩
  | cons ss sets ih =>
    intro st st' x h
    unfold assignAll at h
    split at h
    · cases h
    rename_i st1 h1
    obtain ⟨a1, a2⟩ := ih h
    have hmem : ∀ (s : State), (∀ d ∈ s.slots, ∃ c, d.slots = size c) ↔ ∀ z ∈ s.slots.map (·.slots), ∃ c, z = size c := by
      intro s
      constructor
      · intro h z hz
        obtain ⟨d, hd, rfl⟩ := List.mem_map.mp hz
        exact h d hd
      · intro h d hd
        exact h _ (List.mem_map.mpr ⟨d, hd, rfl⟩)
    rcases step_slots h1 with h2 | ⟨c, h2⟩
    · have hlen := congrArg List.length h2
      simp only [List.length_map] at hlen
      refine ⟨by simp only [List.length_cons]; omega, fun hd => a2 ?_⟩
      rw [hmem, h2, ← hmem]
      exact hd
    · have hlen := congrArg List.length h2
      simp only [List.length_map, List.length_append, List.length_cons, List.length_nil] at hlen
      refine ⟨by simp only [List.length_cons]; omega, fun hd => a2 ?_⟩
      rw [hmem, h2]
      intro z hz
      rcases List.mem_append.mp hz with hz | hz
      · exact (hmem st).mp hd z hz
      · exact ⟨c, by simpa using hz⟩

theorem sum_le_mul : ∀ {l : List Nat} {m : Nat}, (∀ x ∈ l, x ≤ m) → l.sum ≤ l.length * m := by
  intro l m
  induction l with
  | nil => intro _; simp
  | cons x l ih =>
    intro h
    have h1 := h x List.mem_cons_self
    have h2 := ih (fun y hy => h y (List.mem_cons_of_mem _ hy))
    simp only [List.sum_cons, List.length_cons]
    rw [Nat.add_mul]
    omega

/-- With enough space, slots are granted. -/
theorem allocateSpillslots_granted {byLast : Bool} {size : RegClass → UInt32} (hp : ∀ c, Pow2 (size c).toNat) {sets : List SpillSet}
    (hne : ∀ ss ∈ sets, ss.required = true → ss.range.Nonempty) {n m : Nat} (hn : sets.length ≤ n) (hm : ∀ c, (size c).toNat ≤ m)
    (hfit : 2 * (n * m) ≤ 2 ^ 24) :
    ∃ ss slots num, allocateSpillslots byLast (fun c => (size c).toNat) 0 sets = some (ss, slots, num) ∧ num.toNat ≤ 2 * (n * m) := by
  obtain ⟨st, h1, -⟩ := C23_assignment (fun c => (size c).toNat) sets hne
  obtain ⟨a1, a2⟩ := assignAll_slots h1
  have a2 := a2 (fun d hd => absurd hd List.not_mem_nil)
  have a1 : st.slots.length ≤ sets.length := by simpa [State.init] using a1
  have hz : ∀ z ∈ st.slots.map (fun d => UInt32.ofNat d.slots), ∃ c, z = size c := by
    intro z hz
    obtain ⟨d, hd, rfl⟩ := List.mem_map.mp hz
    obtain ⟨c, hc⟩ := a2 d hd
    exact ⟨c, by rw [hc]; simp⟩
  have hsum : ((st.slots.map (fun d => UInt32.ofNat d.slots)).map UInt32.toNat).sum ≤ n * m := by
    refine Nat.le_trans (sum_le_mul (m := m) ?_) (Nat.mul_le_mul_right m ?_)
    · intro y hy
      obtain ⟨z, h2, rfl⟩ := List.mem_map.mp hy
      obtain ⟨c, rfl⟩ := hz z h2
      exact hm c
    · simp only [List.length_map]; omega
  have hg := C22_granted byLast 0 (st.slots.map (fun d => UInt32.ofNat d.slots)) (by
    intro z h
    obtain ⟨c, rfl⟩ := hz z h
    exact hp c) (by
      show 0 + _ ≤ _
      omega)
  obtain ⟨⟨slots, num⟩, h2⟩ := Option.isSome_iff_exists.mp hg
  refine ⟨st, slots, num, ?_, ?_⟩
  · unfold allocateSpillslots
    rw [h1]
    simp only [h2]
  · have := allocSlots_num h2
    have h0 : (0 : UInt32).toNat = 0 := rfl
    omega

end Regalloc.Spill

namespace Regalloc.Ion

theorem createBundle_nSpillsets (cls : Nat → RegClass) (st : St) (v : Nat) : (createBundle cls st v).nSpillsets ≤ st.nSpillsets + 1 := by
  unfold createBundle
  split
  · omega
  · simp

theorem mergeBundles_nSpillsets (env : MachineEnv) (st : St) (a b : Nat) : (mergeBundles env st a b).2.nSpillsets = st.nSpillsets := by
  by_cases hne : a = b
  · subst hne; rw [(C33_refused_unchanged env st a a).2]
  rcases mergeBundles_cases env st a b hne with h1 | ⟨-, -, -, -, -, h1 | h1 | h1⟩
  · rw [h1]
  · rw [h1.2]
  · rw [h1.2.2]
    simp [commitMove, St.modB]
  · rw [h1.2.2]
    dsimp only
    unfold commitMerge
    dsimp only
    split <;> simp [St.modB, St.modS]

theorem mergeReqs_nSpillsets (env : MachineEnv) : ∀ (qs : List (Nat × Nat)) (st st' : St), qs.foldlM (mergeReq env) st = some st' →
    st'.nSpillsets = st.nSpillsets := by
  intro qs
  induction qs with
  | nil => intro st st' h; cases h; rfl
  | cons q qs ih =>
    intro st st' h
    rw [List.foldlM_cons] at h
    cases h1 : mergeReq env st q with
    | none => rw [h1] at h; cases h
    | some st1 =>
      rw [h1] at h
      rw [ih _ _ h]
      unfold mergeReq at h1
      split at h1
      · cases h1; exact mergeBundles_nSpillsets env st _ _
      · cases h1

theorem mergeVregBundles_nSpillsets (env : MachineEnv) (f : Func) (cls : Nat → RegClass) (outs : List (Nat × Nat)) (st st' : St)
    (h : mergeVregBundles env f cls outs st = some st') : st'.nSpillsets ≤ st.nSpillsets + f.numVregs := by
  unfold mergeVregBundles at h
  have h0 : ∀ l : List Nat, (l.foldl (createBundle cls) st).nSpillsets ≤ st.nSpillsets + l.length := by
    clear h
    intro l
    induction l generalizing st with
    | nil => simp
    | cons v l ih =>
      have h1 := ih (createBundle cls st v)
      have h2 := createBundle_nSpillsets cls st v
      simp only [List.foldl_cons, List.length_cons]
      omega
  have h0 := h0 (List.range f.numVregs)
  rw [List.length_range] at h0
  cases h1 : (List.range f.numInsts).mapM (fun i => reuseReqs (f.operands i)) with
  | none => rw [h1] at h; cases h
  | some reqs =>
    rw [h1] at h
    simp only [Option.bind_eq_bind, Option.bind_some] at h
    cases h2 : reqs.flatten.foldlM (mergeReq env) ((List.range f.numVregs).foldl (createBundle cls) st) with
    | none => rw [h2] at h; cases h
    | some st2 =>
      rw [h2] at h
      rw [mergeReqs_nSpillsets env _ _ _ h, mergeReqs_nSpillsets env _ _ _ h2]
      exact h0

end Regalloc.Ion

namespace Regalloc.ResolveMoves

/-- Moves take at most two further slots of each class. -/
theorem resolveSorted_bound {e : MoveEnv} (M : MachineOk e) {num : UInt32} (hroom : Room e num.toNat) {ms sorted : List InsertedMove}
    (hperm : sorted.Perm ms) (hsorted : sorted.Pairwise (fun a b => a.pp.key ≤ b.pp.key))
    (hG : ∀ pp, GroupOk e num.toNat (ms.filter fun m => decide (m.pp = pp))) {edits : List RMove} {s : Slots}
    (h : resolveSorted e sorted (Slots.start num) = some (edits, s)) :
    s.num.toNat ≤ num.toNat + 4 * ((e.size .Int).toNat + (e.size .Float).toNat + (e.size .Vector).toNat) := by
  have hmem : ∀ pp m, m ∈ ms.filter (fun m => decide (m.pp = pp)) ↔ m ∈ sorted.filter (fun m => decide (m.pp = pp)) := by
    intro pp m
    simp only [List.mem_filter, hperm.mem_iff]
  obtain ⟨gs, s', a1, a2, -⟩ := resolveAll_spec M hroom sorted.length sorted (Nat.le_refl _) hsorted
    (fun pp => (hG pp).congr (hmem pp)) (start_inv e num)
  unfold resolveSorted at h
  rw [a1] at h
  cases h
  have h1 := a2.bound
  have h2 := a2.len
  have k : ∀ c : RegClass, (s.extra c).length * (e.size c).toNat ≤ 2 * (e.size c).toNat := fun c => Nat.mul_le_mul_right _ (h2 c)
  have h3 : extraWords e s ≤ 2 * ((e.size .Int).toNat + (e.size .Float).toNat + (e.size .Vector).toNat) := by
    unfold extraWords
    have := k .Int
    have := k .Float
    have := k .Vector
    omega
  omega

end Regalloc.ResolveMoves
