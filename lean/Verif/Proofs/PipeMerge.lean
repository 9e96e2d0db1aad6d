import Verif.Props.Merge
import Verif.Spec.Process

/-! What `merge_vreg_bundles` leaves as it was, beyond C33. -/
namespace Regalloc.Ion

/-- Every bundle has a spill set of its own, none of which is in use yet. -/
structure Lone (n : Nat) (st : St) : Prop where
  sets : ∀ c c', c < st.nBundles → c' < st.nBundles → (st.bundles c).spillset = (st.bundles c').spillset → c = c'
  known : ∀ c, c < st.nBundles → (st.bundles c).spillset < st.nSpillsets
  unspilled : ∀ t, (st.spillsets t).spillBundle = none ∧ (st.spillsets t).hint = none
  lists : st.queue = [] ∧ st.spilled = []
  count : st.nRanges = n
  full : ∀ v, ∀ e ∈ st.vregs v, e.range.fr < e.range.to
  wide : ∀ t, t < st.nSpillsets → (st.spillsets t).range.fr < (st.spillsets t).range.to

theorem foldJoin_wide : ∀ (es : List Entry) (r : RKey), r.fr < r.to →
    (es.foldl (fun r e => r.join e.range) r).fr < (es.foldl (fun r e => r.join e.range) r).to := by
  intro es
  induction es with
  | nil => intro r h; exact h
  | cons e es ih =>
    intro r h
    refine ih _ ?_
    unfold RKey.join
    dsimp only
    omega

theorem createBundle_lone {n : Nat} (cls : Nat → RegClass) (st : St) (v : Nat) (h : Lone n st) : Lone n (createBundle cls st v) := by
  unfold createBundle
  split
  · exact h
  · rename_i e es hv
    refine ⟨?_, ?_, ?_, ?_, ?_, ?_, ?_⟩
    · intro c c' hc hc' e
      simp only [linkAll_nBundles, linkAll_bundles, linkAll_nSpillsets] at hc hc' e
      unfold upd at e
      have k1 := h.known c
      have k2 := h.known c'
      split at e <;> split at e
      · omega
      · have := k2 (by omega); dsimp only at e; omega
      · have := k1 (by omega); dsimp only at e; omega
      · exact h.sets c c' (by omega) (by omega) e
    · intro c hc
      simp only [linkAll_nBundles, linkAll_bundles, linkAll_nSpillsets] at hc ⊢
      unfold upd
      split
      · dsimp only; omega
      · have := h.known c (by omega); omega
    · intro t
      simp only [linkAll_spillsets, linkAll_nSpillsets]
      unfold upd
      split
      · exact ⟨rfl, rfl⟩
      · exact h.unspilled t
    · simp only [linkAll_queue, linkAll_spilled]; exact h.lists
    · simp only [linkAll_nRanges]; exact h.count
    · simp only [linkAll_vregs]; exact h.full
    · intro t ht
      simp only [linkAll_spillsets, linkAll_nSpillsets] at ht ⊢
      unfold upd
      split
      · exact foldJoin_wide _ _ (h.full v e (by rw [hv]; exact List.mem_cons_self))
      · exact h.wide t (by omega)

theorem modB_spillset (st : St) (b : Nat) (g : Bundle → Bundle) (hg : ∀ x, (g x).spillset = x.spillset) (c : Nat) :
    ((st.modB b g).bundles c).spillset = (st.bundles c).spillset := by
  unfold St.modB upd
  dsimp only
  split
  · rename_i h; rw [hg, h]
  · rfl

theorem Lone.same {n : Nat} {st st' : St} (h : Lone n st) (h1 : st'.nBundles = st.nBundles)
    (h2 : ∀ c, (st'.bundles c).spillset = (st.bundles c).spillset) (h3 : st'.nSpillsets = st.nSpillsets)
    (h4 : ∀ t, (st'.spillsets t).spillBundle = (st.spillsets t).spillBundle ∧ (st'.spillsets t).hint = (st.spillsets t).hint)
    (h5 : st'.queue = st.queue ∧ st'.spilled = st.spilled) (h6 : st'.nRanges = st.nRanges) (h7 : st'.vregs = st.vregs)
    (h8 : ∀ t, (st.spillsets t).range.fr < (st.spillsets t).range.to → (st'.spillsets t).range.fr < (st'.spillsets t).range.to) :
    Lone n st' := by
  refine ⟨?_, ?_, ?_, ?_, ?_, ?_, ?_⟩
  · intro c c' hc hc' e
    rw [h2, h2] at e
    exact h.sets c c' (h1 ▸ hc) (h1 ▸ hc') e
  · intro c hc; rw [h2, h3]; exact h.known c (h1 ▸ hc)
  · intro t; rw [(h4 t).1, (h4 t).2]; exact h.unspilled t
  · rw [h5.1, h5.2]; exact h.lists
  · rw [h6]; exact h.count
  · rw [h7]; exact h.full
  · intro t ht; exact h8 t (h.wide t (h3 ▸ ht))

theorem modS_set (st : St) (s : Nat) (g : SpillSet → SpillSet) (hg : ∀ x, (g x).spillBundle = x.spillBundle ∧ (g x).hint = x.hint) (t : Nat) :
    ((st.modS s g).spillsets t).spillBundle = (st.spillsets t).spillBundle ∧ ((st.modS s g).spillsets t).hint = (st.spillsets t).hint := by
  unfold St.modS upd
  dsimp only
  split
  · rename_i h; subst h; exact hg _
  · exact ⟨rfl, rfl⟩

theorem Lone.modB {n : Nat} {st : St} (h : Lone n st) (b : Nat) (g : Bundle → Bundle) (hg : ∀ x, (g x).spillset = x.spillset) :
    Lone n (st.modB b g) :=
  h.same rfl (modB_spillset st b g hg) rfl (fun _ => ⟨rfl, rfl⟩) ⟨rfl, rfl⟩ rfl rfl (fun _ h => h)

theorem Lone.modS {n : Nat} {st : St} (h : Lone n st) (s : Nat) (g : SpillSet → SpillSet)
    (hg : ∀ x, (g x).spillBundle = x.spillBundle ∧ (g x).hint = x.hint)
    (hw : ∀ x : SpillSet, x.range.fr < x.range.to → (g x).range.fr < (g x).range.to) : Lone n (st.modS s g) := by
  refine h.same rfl (fun _ => rfl) rfl (modS_set st s g hg) ⟨rfl, rfl⟩ rfl rfl ?_
  intro t ht
  unfold St.modS upd
  dsimp only
  split
  · rename_i h; subst h; exact hw _ ht
  · exact ht

theorem Lone.linkAll {n : Nat} {st : St} (h : Lone n st) (es : List Entry) (b : Nat) : Lone n (st.linkAll es b) :=
  h.same (by simp) (by simp) (by simp) (by simp) (by simp) (by simp) (by simp) (by simp)

theorem mergeBundles_lone {n : Nat} (env : MachineEnv) (st : St) (a b : Nat) (h : Lone n st) : Lone n (mergeBundles env st a b).2 := by
  by_cases hne : a = b
  · subst hne; rw [(C33_refused_unchanged env st a a).2]; exact h
  rcases mergeBundles_cases env st a b hne with h1 | ⟨-, -, -, -, -, h1 | h1 | h1⟩
  · rw [h1]; exact h
  · rw [h1.2]; exact h
  · rw [h1.2.2]
    dsimp only
    unfold commitMove
    dsimp only
    refine Lone.modB ?_ _ _ ?_
    · refine Lone.modB (h.linkAll _ _) _ _ ?_
      intro x; rfl
    · intro x; rw [mergeProps_spillset]
  · rw [h1.2.2]
    have h2 := ((h.linkAll (st.bundles a).ranges b).modB a (fun b => { b with ranges := [] }) (fun _ => rfl)).modB b
      (fun x => { x with ranges := mergedRanges (st.bundles a).ranges x.ranges }) (fun _ => rfl)
    dsimp only
    unfold commitMerge
    dsimp only
    split
    · refine Lone.modB ?_ _ _ ?_
      · refine h2.modS _ _ ?_ ?_
        · intro x; exact ⟨rfl, rfl⟩
        · intro x hx
          unfold RKey.join
          dsimp only
          omega
      · intro x; rw [mergeProps_spillset]
    · refine h2.modB _ _ ?_
      intro x; rw [mergeProps_spillset]

theorem mergeReqs_lone {n : Nat} (env : MachineEnv) : ∀ (qs : List (Nat × Nat)) (st st' : St), qs.foldlM (mergeReq env) st = some st' →
    Lone n st → Lone n st' := by
  intro qs
  induction qs with
  | nil => intro st st' h; cases h; exact id
  | cons q qs ih =>
    intro st st' h hl
    rw [List.foldlM_cons] at h
    cases h1 : mergeReq env st q with
    | none => rw [h1] at h; cases h
    | some st1 =>
      rw [h1] at h
      refine ih _ _ h ?_
      unfold mergeReq at h1
      split at h1
      · cases h1; exact mergeBundles_lone env st _ _ hl
      · cases h1

theorem mergeVregBundles_lone {n : Nat} (env : MachineEnv) (f : Func) (cls : Nat → RegClass) (outs : List (Nat × Nat)) (st st' : St)
    (hl : Lone n st) (h : mergeVregBundles env f cls outs st = some st') : Lone n st' := by
  unfold mergeVregBundles at h
  have h0 : Lone n ((List.range f.numVregs).foldl (createBundle cls) st) := by
    generalize List.range f.numVregs = l
    clear h
    induction l generalizing st with
    | nil => exact hl
    | cons v l ih => exact ih _ (createBundle_lone cls st v hl)
  cases h1 : (List.range f.numInsts).mapM (fun i => reuseReqs (f.operands i)) with
  | none => rw [h1] at h; cases h
  | some reqs =>
    rw [h1] at h
    simp only [Option.bind_eq_bind, Option.bind_some] at h
    cases h2 : reqs.flatten.foldlM (mergeReq env) ((List.range f.numVregs).foldl (createBundle cls) st) with
    | none => rw [h2] at h; cases h
    | some st2 =>
      rw [h2] at h
      exact mergeReqs_lone env _ _ _ h (mergeReqs_lone env _ _ _ h2 h0)

end Regalloc.Ion
