import Verif.Proofs.ProcessLoop

/-
The registers tried for spilled bundles at the end. Helper lemmas for C40.
-/
namespace Regalloc.Ion

open PregMap (PMap ScanEnv tryAlloc Ov)

/-- Sorting puts ranges that are apart in order. -/
theorem tidy_isort {es : List Entry} (hn : ∀ e ∈ es, e.range.fr < e.range.to) (hp : es.Pairwise (fun a b => Apart a.range b.range)) :
    Tidy (isort (fun a b => decide (a.range.fr ≤ b.range.fr)) es) := by
  have hperm := perm_isort (fun a b : Entry => decide (a.range.fr ≤ b.range.fr)) es
  have hsort := pairwise_isort (le := fun a b : Entry => decide (a.range.fr ≤ b.range.fr))
    (by intro a b c; simp only [decide_eq_true_eq]; omega) (by intro a b; simp only [decide_eq_true_eq]; omega) es
  have hp' := (hperm.pairwise_iff (R := fun a b : Entry => Apart a.range b.range)
    (fun {a b} h p hh => h p ⟨hh.2, hh.1⟩)).mpr hp
  refine ⟨fun e he => hn e (mem_isort.mp he), ?_⟩
  refine (List.Pairwise.and_mem.mp (hsort.and hp')).imp ?_
  intro a b ⟨ha, hb, h1, h2⟩
  simp only [decide_eq_true_eq] at h1
  have h3 := hn a (mem_isort.mp ha)
  have h4 := hn b (mem_isort.mp hb)
  have h5 := h2 b.range.fr
  unfold Covers at h5
  omega

theorem ne_nil_iff {α : Type} (l : List α) : l ≠ [] ↔ ∃ x, x ∈ l := by
  cases l <;> simp

section
variable {P : Params} {q0 q : PSt} {todo : List Nat} {b : Nat}

/-- Sorting the ranges of a bundle. -/
def sortB (q : PSt) (b : Nat) : PSt := { q with st := q.st.modB b (fun x => { x with
      ranges := isort (fun a b => decide (a.range.fr ≤ b.range.fr)) x.ranges }) }

theorem sortB_facts (q : PSt) (b : Nat) : ∀ c, ((sortB q b).st.bundles c).spillset = (q.st.bundles c).spillset ∧
    ((sortB q b).st.bundles c).minimal = (q.st.bundles c).minimal ∧ ((sortB q b).st.bundles c).alloc = (q.st.bundles c).alloc ∧
    (∀ e, e ∈ ((sortB q b).st.bundles c).ranges ↔ e ∈ (q.st.bundles c).ranges) ∧
    (c ≠ b → ((sortB q b).st.bundles c).ranges = (q.st.bundles c).ranges) := by
  intro c
  unfold sortB
  dsimp only
  by_cases hc : c = b
  · subst hc
    rw [modB_self]
    exact ⟨rfl, rfl, rfl, fun e => mem_isort, fun h => absurd rfl h⟩
  · rw [modB_other _ _ _ _ hc]
    exact ⟨rfl, rfl, rfl, fun e => Iff.rfl, fun _ => rfl⟩

theorem pairwise_apart_of_tidy {es : List Entry} (h : Tidy es) : es.Pairwise (fun a b => Apart a.range b.range) := by
  refine h.2.imp ?_
  intro a b hab p hp
  unfold Covers at hp
  omega

theorem Core.sortB (h : Core P q0 q todo) (hb : b ∈ todo) : Core P q0 (sortB q b) todo ∧ Tidy ((Ion.sortB q b).st.bundles b).ranges := by
  have hf := sortB_facts q b
  have hlive : ∀ c e, Live (Ion.sortB q b).st c e ↔ Live q.st c e := fun c e => by unfold Live; rw [(hf c).2.2.2.1 e]; rfl
  have hlt := (h.todoOk b hb).1
  have hself : ((Ion.sortB q b).st.bundles b).ranges = isort (fun a b => decide (a.range.fr ≤ b.range.fr)) (q.st.bundles b).ranges := by
    unfold Ion.sortB; dsimp only; rw [modB_self]
  have htidy : Tidy ((Ion.sortB q b).st.bundles b).ranges := by
    rw [hself]
    refine tidy_isort (fun e he => (h.shape.neat b e ⟨hlt, he⟩).nonempty) ?_
    by_cases hs : IsSpill q.st b
    · exact h.shape.spill b hlt hs
    · exact pairwise_apart_of_tidy (h.shape.tidy b hlt hs)
  have huses : ∀ c u, u ∈ usesOf (Ion.sortB q b).st c ↔ u ∈ usesOf q.st c := by
    intro c u
    rw [mem_usesOf, mem_usesOf]
    exact ⟨fun ⟨e, he, hu⟩ => ⟨e, ((hf c).2.2.2.1 e).mp he, hu⟩, fun ⟨e, he, hu⟩ => ⟨e, ((hf c).2.2.2.1 e).mpr he, hu⟩⟩
  have hne : ∀ c, ((Ion.sortB q b).st.bundles c).ranges ≠ [] ↔ (q.st.bundles c).ranges ≠ [] := by
    intro c
    rw [ne_nil_iff, ne_nil_iff]
    exact exists_congr (fun e => (hf c).2.2.2.1 e)
  refine ⟨⟨?_, h.todoNodup, ?_, ?_, ?_, h.sorted, ?_, h.fixed, h.hints, h.nSets, h.sets⟩, htidy⟩
  · refine h.shape.congr rfl rfl rfl rfl (fun _ => rfl) (fun c => ⟨(hf c).1, (hf c).2.1, (hf c).2.2.2.1⟩) ?_ ?_
    · intro c hc hs
      by_cases hcb : c = b
      · subst hcb; exact htidy
      · rw [(hf c).2.2.2.2 hcb]; exact h.shape.tidy c hc hs
    · intro c hc hs
      by_cases hcb : c = b
      · subst hcb; exact pairwise_apart_of_tidy htidy
      · rw [(hf c).2.2.2.2 hcb]; exact h.shape.spill c hc hs
  · intro c hc
    rw [(hf c).2.2.1]
    exact h.todoOk c hc
  · intro c hc hr
    rw [(hf c).2.2.1, (hf c).1]
    rcases h.status c hc ((hne c).mp hr) with h1 | h1 | ⟨h1, h2⟩
    · exact .inl h1
    · exact .inr (.inl h1)
    · exact .inr (.inr ⟨h1, fun u hu => h2 u ((huses c u).mp hu)⟩)
  · intro c hc p hp
    rw [(hf c).2.2.1] at hp
    obtain ⟨h1, h2, h3, h4⟩ := h.alloc c hc p hp
    refine ⟨(hne c).mpr h1, by rw [(hf c).1]; exact h2, fun u hu => h3 u ((huses c u).mp hu), ?_⟩
    intro e he
    exact h4 e (((hf c).2.2.2.1 e).mp he)
  · intro p k i hi
    obtain ⟨c, h1, h2⟩ := h.entry p k i hi
    exact ⟨c, (hlive c _).mpr h1, by rw [(hf c).2.2.1]; exact h2⟩

/-- All uses in these bundles accept any location. -/
def AllAny (st : St) (todo : List Nat) : Prop := ∀ c ∈ todo, ∀ u ∈ usesOf st c, u.op.constraint = .Any

theorem tryFirst_spec (h : Core P q0 q (b :: todo)) (hne : (q.st.bundles b).ranges ≠ []) (ht : Tidy (q.st.bundles b).ranges)
    (ha : AllAny q.st (b :: todo)) : ∀ (regs : List PReg),
    (∀ p ∈ regs, Eligible P.env q0.st (q.st.bundles b).spillset p) →
    tryFirst P b q regs = .ok none ∨ ∃ q', tryFirst P b q regs = .ok (some q') ∧ Core P q0 q' todo ∧ AllAny q'.st todo ∧ q'.st.queue = q.st.queue := by
  have hne' : rangesOf q.st b ≠ [] := by unfold rangesOf; simpa using hne
  intro regs
  induction regs with
  | nil => intro _; exact .inl rfl
  | cons p ps ih =>
    intro hregs
    have ih' := ih (fun r hr => hregs r (by simp [hr]))
    unfold tryFirst
    rcases PregMap.tryAlloc_spec (se := scanEnv P q.st none) (h.sorted p) (rangesOf_sorted ht) hne' with
      ⟨m, h1, h2, h3, h4⟩ | ⟨cs, a, h1, -⟩ | ⟨r, h1, h2⟩
    · rw [h1]
      refine .inr ⟨_, rfl, h.take hne (hregs p (by simp)) ?_ h3 h4, ?_, rfl⟩
      · intro u hu
        rw [ha b (by simp) u hu]
        trivial
      · intro c hc u hu
        refine ha c (by simp [hc]) u ?_
        rw [← usesOf_congr (st := q.st) (st' := (q.take b p m).st) (c := c) ?_ (fun _ _ => rfl)]
        · exact hu
        · unfold PSt.take PSt.setMap
          dsimp only
          by_cases hcb : c = b
          · subst hcb; rw [modB_self]
          · rw [modB_other _ _ _ _ hcb]
    · rw [h1]
      exact ih'
    · rw [h1]
      cases r with
      | Allocated m => exact absurd h2 (by simp [PregMap.RetOk])
      | Conflict cs a => exact ih'
      | ConflictWithFixed w a => exact ih'
      | ConflictHighCost => exact ih'

theorem trySpilled_spec (h : Core P q0 q (b :: todo)) (ha : AllAny q.st (b :: todo)) :
    ∃ q', trySpilled P q b = .ok q' ∧ Core P q0 q' todo ∧ AllAny q'.st todo ∧ q'.st.queue = q.st.queue := by
  have ha' : AllAny q.st todo := fun c hc => ha c (by simp [hc])
  unfold trySpilled
  split
  · rename_i hn
    refine ⟨q, rfl, { h with todoNodup := (List.nodup_cons.mp h.todoNodup).2, todoOk := fun c hc => h.todoOk c (by simp [hc]), status := ?_ }, ha', rfl⟩
    intro c hc hr
    rcases h.status c hc hr with h1 | h1 | h1
    · exact .inl h1
    · rcases List.mem_cons.mp h1 with rfl | h1
      · exact absurd hn hr
      · exact .inr (.inl h1)
    · exact .inr (.inr h1)
  · rename_i hn
    dsimp only
    obtain ⟨hc, ht⟩ := h.sortB (b := b) (by simp)
    have hf := sortB_facts q b
    have hns : ((sortB q b).st.bundles b).ranges ≠ [] := by
      rw [ne_nil_iff]
      rw [← ne_eq, ne_nil_iff] at hn
      exact hn.imp (fun e he => ((hf b).2.2.2.1 e).mpr he)
    have has : AllAny (sortB q b).st (b :: todo) := by
      intro c hc u hu
      refine ha c hc u ?_
      rw [mem_usesOf] at hu ⊢
      obtain ⟨e, he, hu⟩ := hu
      exact ⟨e, ((hf c).2.2.2.1 e).mp he, hu⟩
    have hregs : ∀ p ∈ (RegTraversalIter.new P.env (q.st.spillsets (q.st.bundles b).spillset).cls none
        (q.st.spillsets (q.st.bundles b).spillset).hint b (q.st.bundles b).limit).all,
        Eligible P.env q0.st ((sortB q b).st.bundles b).spillset p := by
      intro p hp
      rw [(hf b).1]
      rcases ((RegTraversalIter.C18_yields _ _ _ _ _ _).mp hp).2 with h1 | h1
      · exact h.hints _ _ h1
      · rw [(h.sets _).1] at h1
        rcases h1 with h1 | h1
        · exact .inl h1
        · exact .inr (.inl h1)
    have hq : (sortB q b).st.queue = q.st.queue := rfl
    rcases tryFirst_spec hc hns ht has _ hregs with h1 | ⟨q', h1, h2, h3, h4⟩
    · unfold sortB at h1
      rw [h1]
      refine ⟨_, rfl, ?_, ?_, hq⟩
      · have := hc.require (fun u hu => .inl (has b (by simp) u hu))
        rw [(hf b).1] at this
        exact this
      · exact fun c hc => has c (by simp [hc])
    · unfold sortB at h1
      rw [h1]
      exact ⟨q', rfl, h2, h3, h4.trans hq⟩

theorem trySpilledAll_spec : ∀ (l : List Nat) {q : PSt}, Core P q0 q l → AllAny q.st l →
    ∃ q', l.foldlM (trySpilled P) q = .ok q' ∧ Core P q0 q' [] ∧ q'.st.queue = q.st.queue := by
  intro l
  induction l with
  | nil => intro q h _; exact ⟨q, rfl, h, rfl⟩
  | cons b l ih =>
    intro q h ha
    obtain ⟨q1, h1, h2, h3, h4⟩ := trySpilled_spec h ha
    obtain ⟨q2, h5, h6, h7⟩ := ih h2 h3
    refine ⟨q2, ?_, h6, h7.trans h4⟩
    rw [List.foldlM_cons, h1]
    exact h5

theorem Inv.spilledAll (h : Inv P q0 q []) (hq : q.st.queue = []) :
    ∃ q', trySpilledAll P q = .ok q' ∧ Core P q0 q' [] ∧ q'.st.queue = [] := by
  have hc : Core P q0 q q.st.spilled := by
    have := h.core
    rw [hq] at this
    exact this
  have ha : AllAny q.st q.st.spilled := by
    intro c hc' u hu
    rcases h.spilled c hc' with hs | hs
    · obtain ⟨e, he, hu⟩ := (mem_usesOf _ _ _).mp hu
      rcases h.core.shape.kind c e ⟨(hc.todoOk c hc').1, he⟩ with ⟨-, h1⟩ | ⟨h1, -⟩
      · exact h1 u hu
      · exact absurd hs h1
    · exact hs u hu
  obtain ⟨q', h1, h2, h3⟩ := trySpilledAll_spec q.st.spilled hc ha
  exact ⟨q', h1, h2, h3.trans hq⟩

end
end Regalloc.Ion
