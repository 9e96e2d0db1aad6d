import Verif.Proofs.CheckerTotal

/-
Invariants of the data-flow analysis of the checker, for functions laid out so that each block
comes after one of its predecessors.
-/
namespace Regalloc.Checker

theorem meet_claims_of {S T : CState} {a : Allocation} {v : VReg} (h : Claims S a v) (h' : Claims T a v) : Claims (S.meet T) a v := by
  obtain ⟨s, hs, hv⟩ := h
  obtain ⟨t, ht, hw⟩ := h'
  cases S with
  | top => simp [CState.get] at hs
  | allocs m =>
    cases T with
    | top => simp [CState.get] at ht
    | allocs n =>
      simp only [CState.get] at hs ht
      refine ⟨s.filter (· ∈ t), ?_, List.mem_filter.mpr ⟨hv, by simpa using hw⟩⟩
      simp only [CState.meet, CState.get]
      rw [CMap.get_merge, hs, ht]
      rfl

section
variable {UA : List Allocation} {UV : List VReg} {f : Func} {p : Prep} {Inv : Nat → CState → Prop}

/-- What is known of the input states. -/
structure Known (UA : List Allocation) (UV : List VReg) (f : Func) (Inv : Nat → CState → Prop) (bbIn : List CState) : Prop where
  len : bbIn.length = f.numBlocks
  wf : ∀ (t : Nat) S, bbIn[t]? = some S → StWf UA UV S
  inv : ∀ (t : Nat) S, bbIn[t]? = some S → S = .top ∨ Inv t S

theorem visitSuccs_inv (hmeet : ∀ c S T, StWf UA UV S → StWf UA UV T → Inv c S → Inv c T → Inv c (S.meet T)) {b : Nat} {s : CState}
    (hal : ∃ m, s = .allocs m) (ts : List Nat) :
    ∀ (w w' : Work), Known UA UV f Inv w.bbIn →
    (∀ t ∈ ts, ∀ S, updates? s (p.edges b t) = some S → StWf UA UV S ∧ Inv t S) → visitSuccs? p b s ts w = some w' →
    Known UA UV f Inv w'.bbIn ∧ (∀ c : Nat, w.bbIn[c]? ≠ some .top → w'.bbIn[c]? ≠ some .top) ∧ (∀ t ∈ ts, w'.bbIn[t]? ≠ some .top) ∧
      ∃ extra, w'.queue = extra ++ w.queue ∧ ∀ c ∈ extra, c ∈ ts := by
  induction ts with
  | nil =>
    intro w w' K _ h
    simp only [visitSuccs?, Option.some.injEq] at h
    subst h
    exact ⟨K, fun _ h => h, by simp, [], rfl, by simp⟩
  | cons t ts ih =>
    intro w w' K hs h
    have hs' := fun t' ht' => hs t' (List.mem_cons_of_mem _ ht')
    unfold visitSuccs? at h
    split at h
    · rename_i s' cur h1 h2
      obtain ⟨w1, i1⟩ := hs t List.mem_cons_self s' h1
      obtain ⟨m', rfl⟩ := updates_allocs h1 (.inr hal)
      have hnew : ∃ m, (CState.allocs m').meet cur = .allocs m := by cases cur <;> exact ⟨_, rfl⟩
      obtain ⟨m, hm⟩ := hnew
      dsimp only at h
      rw [hm] at h
      split at h
      · rename_i hsame
        obtain ⟨g1, g2, g3, extra, g4, g5⟩ := ih w w' K hs' h
        refine ⟨g1, g2, ?_, extra, g4, fun c hc => List.mem_cons_of_mem _ (g5 c hc)⟩
        intro c hc
        rcases List.mem_cons.mp hc with rfl | hc
        · apply g2
          rw [h2]
          rintro he
          cases he
          simp [CState.same] at hsame
        · exact g3 c hc
      · obtain ⟨hlt, _⟩ := List.getElem?_eq_some_iff.mp h2
        have K' : Known UA UV f Inv (w.bbIn.set t (.allocs m)) := by
          refine ⟨by rw [List.length_set]; exact K.len, ?_, ?_⟩
          · intro c S hS
            by_cases hc : t = c
            · subst hc
              rw [List.getElem?_set_self hlt] at hS
              cases hS
              rw [← hm]
              exact w1.meet (K.wf t _ h2)
            · rw [List.getElem?_set_ne hc] at hS
              exact K.wf c S hS
          · intro c S hS
            by_cases hc : t = c
            · subst hc
              rw [List.getElem?_set_self hlt] at hS
              cases hS
              right
              rw [← hm]
              rcases K.inv t _ h2 with rfl | h3
              · exact i1
              · exact hmeet t _ _ w1 (K.wf t _ h2) i1 h3
            · rw [List.getElem?_set_ne hc] at hS
              exact K.inv c S hS
        have hset : ∀ c : Nat, w.bbIn[c]? ≠ some .top → (w.bbIn.set t (.allocs m))[c]? ≠ some .top := by
          intro c hc
          by_cases hct : t = c
          · subst hct
            rw [List.getElem?_set_self hlt]
            simp
          · rw [List.getElem?_set_ne hct]
            exact hc
        obtain ⟨g1, g2, g3, extra, g4, g5⟩ := ih _ w' K' hs' h
        refine ⟨g1, fun c hc => g2 c (hset c hc), ?_, ?_⟩
        · intro c hc
          rcases List.mem_cons.mp hc with rfl | hc
          · apply g2
            rw [List.getElem?_set_self hlt]
            simp
          · exact g3 c hc
        · dsimp only at g4
          split at g4
          · exact ⟨extra, g4, fun c hc => List.mem_cons_of_mem _ (g5 c hc)⟩
          · refine ⟨extra ++ [t], by rw [g4]; simp, ?_⟩
            intro c hc
            rcases List.mem_append.mp hc with hc | hc
            · exact List.mem_cons_of_mem _ (g5 c hc)
            · rw [List.mem_singleton.mp hc]
              exact List.mem_cons_self
    · cases h

/-- The queue: blocks whose input has changed, and those not visited yet, in order. -/
structure Queued (f : Func) (bbIn : List CState) (queue pushed : List Nat) (j : Nat) : Prop where
  eq : queue = pushed ++ List.range' j (f.numBlocks - j)
  le : j ≤ f.numBlocks
  pushed : ∀ b ∈ pushed, b < f.numBlocks ∧ bbIn[b]? ≠ some .top
  visited : ∀ a, a < j → ∀ c ∈ f.succs a, bbIn[c]? ≠ some .top

theorem analyzeLoop_inv (P : PrepOk UA UV f p)
    (hmeet : ∀ c S T, StWf UA UV S → StWf UA UV T → Inv c S → Inv c T → Inv c (S.meet T)) (hentry : ∀ S, Inv f.entry S)
    (hne : ∀ b, b < f.numBlocks → p.insts b ≠ [])
    (hstep : ∀ b, b < f.numBlocks → ∀ S, StWf UA UV S → Inv b S → ∀ S1, updates? S (p.insts b) = some S1 →
      ∀ c ∈ f.succs b, ∀ S2, updates? S1 (p.edges b c) = some S2 → Inv c S2)
    (horder : ∀ b, b < f.numBlocks → b ≠ f.entry → ∃ a, a < b ∧ b ∈ f.succs a) :
    ∀ (n : Nat) (bbIn : List CState) (queue pushed : List Nat) (j : Nat), Known UA UV f Inv bbIn → Queued f bbIn queue pushed j →
    ∀ r, analyzeLoop f p n ⟨bbIn, queue⟩ = some r → ∀ b, b < f.numBlocks → ∃ S, r[b]? = some S ∧ StWf UA UV S ∧ Inv b S := by
  have hentry' : ∀ b, b = f.entry → ∀ S, Inv b S := fun b h S => by rw [h]; exact hentry S
  intro n
  induction n with
  | zero =>
    intro bbIn queue pushed j K Q r hr b hb
    cases queue with
    | cons _ _ => simp [analyzeLoop] at hr
    | nil =>
      simp only [analyzeLoop, Option.some.injEq] at hr
      subst hr
      have hj : j = f.numBlocks := by
        have := congrArg List.length Q.eq
        rw [List.length_append, List.length_range', List.length_nil] at this
        have := Q.le
        omega
      have hlt : b < bbIn.length := by rw [K.len]; exact hb
      refine ⟨bbIn[b], List.getElem?_eq_getElem hlt, K.wf b _ (List.getElem?_eq_getElem hlt), ?_⟩
      by_cases he : b = f.entry
      · exact hentry' _ he _
      · obtain ⟨a, ha, hab⟩ := horder b hb he
        rcases K.inv b _ (List.getElem?_eq_getElem hlt) with h | h
        · exact absurd (by rw [List.getElem?_eq_getElem hlt, h]) (Q.visited a (by omega) b hab)
        · exact h
  | succ n ih =>
    intro bbIn queue pushed j K Q r hr b hb
    cases queue with
    | nil =>
      have hr' : analyzeLoop f p 0 ⟨bbIn, []⟩ = some r := by
        simp only [analyzeLoop] at hr ⊢
        exact hr
      have hj : j = f.numBlocks := by
        have := congrArg List.length Q.eq
        rw [List.length_append, List.length_range', List.length_nil] at this
        have := Q.le
        omega
      simp only [analyzeLoop, Option.some.injEq] at hr'
      subst hr'
      have hlt : b < bbIn.length := by rw [K.len]; exact hb
      refine ⟨bbIn[b], List.getElem?_eq_getElem hlt, K.wf b _ (List.getElem?_eq_getElem hlt), ?_⟩
      by_cases he : b = f.entry
      · exact hentry' _ he _
      · obtain ⟨a, ha, hab⟩ := horder b hb he
        rcases K.inv b _ (List.getElem?_eq_getElem hlt) with h | h
        · exact absurd (by rw [List.getElem?_eq_getElem hlt, h]) (Q.visited a (by omega) b hab)
        · exact h
    | cons q qs =>
      -- the block at the front has an input that satisfies the invariant
      have hfront : q < f.numBlocks ∧ (∀ S, bbIn[q]? = some S → Inv q S) ∧ ∃ pushed' j', qs = pushed' ++ List.range' j' (f.numBlocks - j') ∧
          j' ≤ f.numBlocks ∧ (∀ c ∈ pushed', c ∈ pushed) ∧ (∀ a, a < j' → a < j ∨ a = q) := by
        cases pushed with
        | cons c cs =>
          have h1 := Q.eq
          rw [List.cons_append, List.cons.injEq] at h1
          obtain ⟨rfl, h1⟩ := h1
          obtain ⟨h2, h3⟩ := Q.pushed q List.mem_cons_self
          refine ⟨h2, ?_, cs, j, h1, Q.le, fun c hc => List.mem_cons_of_mem _ hc, fun a ha => .inl ha⟩
          intro S hS
          rcases K.inv q S hS with rfl | h
          · exact absurd hS h3
          · exact h
        | nil =>
          have h1 := Q.eq
          rw [List.nil_append] at h1
          have hjn : j < f.numBlocks := by
            have := congrArg List.length h1
            rw [List.length_range', List.length_cons] at this
            omega
          rw [show f.numBlocks - j = (f.numBlocks - (j + 1)) + 1 by omega, List.range'_succ, List.cons.injEq] at h1
          obtain ⟨rfl, h1⟩ := h1
          refine ⟨hjn, ?_, [], q + 1, h1, hjn, by simp, fun a ha => by omega⟩
          intro S hS
          by_cases he : q = f.entry
          · exact hentry' _ he _
          · obtain ⟨a, ha, hab⟩ := horder q hjn he
            rcases K.inv q S hS with rfl | h
            · exact absurd hS (Q.visited a ha q hab)
            · exact h
      obtain ⟨hq, hinv, pushed', j', hqs, hj', hp', hlt'⟩ := hfront
      simp only [analyzeLoop] at hr
      split at hr
      · cases hr
      rename_i w hw
      unfold visit? at hw
      dsimp only at hw
      split at hw
      · cases hw
      rename_i s0 hs0
      split at hw
      · cases hw
      rename_i s hs
      have hwf0 := K.wf q s0 hs0
      have hal := updates_allocs hs (.inl (hne q hq))
      have hwfs : StWf UA UV s := by
        obtain ⟨s', h1, h2⟩ := updates_wf (p.insts q) hwf0 (P.insts q hq)
        rw [hs] at h1
        cases h1
        exact h2
      obtain ⟨g1, g2, g3, extra, g4, g5⟩ := visitSuccs_inv (f := f) hmeet hal (f.succs q) ⟨bbIn, qs⟩ w K (by
        intro t ht S2 hS2
        refine ⟨?_, hstep q hq s0 hwf0 (hinv s0 hs0) s hs t ht S2 hS2⟩
        obtain ⟨s', h1, h2⟩ := updates_wf (p.edges q t) hwfs (P.edges q hq t ht)
        rw [hS2] at h1
        cases h1
        exact h2) hw
      dsimp only at g2 g4
      obtain ⟨bbIn', queue'⟩ := w
      dsimp only at g1 g2 g3 g4
      refine ih bbIn' queue' (extra ++ pushed') j' g1 ⟨by rw [g4, hqs]; simp, hj', ?_, ?_⟩ r hr b hb
      · intro c hc
        rcases List.mem_append.mp hc with hc | hc
        · exact ⟨P.succs q hq c (g5 c hc), g3 c (g5 c hc)⟩
        · obtain ⟨h1, h2⟩ := Q.pushed c (hp' c hc)
          exact ⟨h1, g2 c h2⟩
      · intro a ha c hc
        rcases hlt' a ha with h | rfl
        · exact g2 c (Q.visited a h c hc)
        · exact g3 c hc

/-- If an invariant holds of any input of the entry, and is kept by blocks and edges, all input
states that the analysis finds satisfy it. -/
theorem analyze_inv (f : Func) (p : Prep) (hs : ∀ b, b < f.numBlocks → ∀ t ∈ f.succs b, t < f.numBlocks) {Inv : Nat → CState → Prop}
    (hmeet : ∀ c S T, Inv c S → Inv c T → Inv c (S.meet T)) (hentry : ∀ S, Inv f.entry S)
    (hne : ∀ b, b < f.numBlocks → p.insts b ≠ [])
    (hstep : ∀ UA UV, PrepOk UA UV f p → ∀ b, b < f.numBlocks → ∀ S, StWf UA UV S → Inv b S → ∀ S1, updates? S (p.insts b) = some S1 →
      ∀ c ∈ f.succs b, ∀ S2, updates? S1 (p.edges b c) = some S2 → Inv c S2)
    (horder : ∀ b, b < f.numBlocks → b ≠ f.entry → ∃ a, a < b ∧ b ∈ f.succs a) :
    ∃ UA UV r, PrepOk UA UV f p ∧ analyze? f p = some r ∧ ∀ b, b < f.numBlocks → ∃ S, r[b]? = some S ∧ StWf UA UV S ∧ Inv b S := by
  have P := allInsts_ok f p hs
  obtain ⟨_, _, r, _, hr, _⟩ := analyze_spec f p hs
  refine ⟨_, _, r, P, hr, ?_⟩
  refine analyzeLoop_inv P (fun c S T _ _ => hmeet c S T) hentry hne (hstep _ _ P) horder (fuel f p) (List.replicate f.numBlocks .top)
    (List.range f.numBlocks) [] 0 ⟨by simp, ?_, ?_⟩ ⟨by rw [List.range_eq_range']; simp, by omega, by simp, fun a ha => by omega⟩ r hr
  · intro t S h
    rw [List.getElem?_replicate] at h
    split at h
    · cases h; trivial
    · cases h
  · intro t S h
    rw [List.getElem?_replicate] at h
    split at h
    · cases h; exact .inl rfl
    · cases h
end

end Regalloc.Checker
