import Verif.Model.Postorder
import Verif.Spec.Graph

namespace Regalloc.Postorder

variable {succs : Nat → List Nat} {entry n : Nat}

/-- stack blocks form a path: each block is a successor of the one below it, the
bottom one is the entry. -/
def StackPath (succs : Nat → List Nat) (entry : Nat) : List (Nat × List Nat) → Prop
  | [] => True
  | [e] => e.1 = entry
  | e :: f :: l => e.1 ∈ succs f.1 ∧ StackPath succs entry (f :: l)

/-- Condition on a block in the output relative to the blocks output before it
(`post`). -/
def Good (succs : Nat → List Nat) (x : Nat) (post : List Nat) : Prop :=
  ∀ y ∈ succs x, y ∈ post ∨ Reaches succs y x

/-- Every non-entry block has a predecessor output later (earlier in `rpo`) or
still on the stack. -/
structure Inv (succs : Nat → List Nat) (entry n : Nat) (st : State) : Prop where
  len : st.visited.length = n
  vis : ∀ b, st.visited[b]? = some true ↔ b ∈ st.stack.map (·.1) ∨ b ∈ st.rpo
  nodup : (st.stack.map (·.1) ++ st.rpo).Nodup
  path : StackPath succs entry st.stack
  reach : ∀ b, b ∈ st.stack.map (·.1) ∨ b ∈ st.rpo → Reaches succs entry b
  sub : ∀ e ∈ st.stack, e.2 ⊆ succs e.1
  closedStack : ∀ e ∈ st.stack, ∀ y ∈ succs e.1, y ∈ e.2 ∨ y ∈ st.stack.map (·.1) ∨ y ∈ st.rpo
  good : ∀ pre x post, st.rpo = pre ++ x :: post → Good succs x post
  closed : ∀ x ∈ st.rpo, ∀ y ∈ succs x, y ∈ st.stack.map (·.1) ∨ y ∈ st.rpo
  parent : ∀ pre x post, st.rpo = pre ++ x :: post → x ≠ entry →
    ∃ p, x ∈ succs p ∧ (p ∈ pre ∨ p ∈ st.stack.map (·.1))
  last : st.stack = [] → st.rpo.head? = some entry
  lt : ∀ b, b ∈ st.stack.map (·.1) ∨ b ∈ st.rpo → b < n

theorem stack_reaches {e : Nat × List Nat} {l : List (Nat × List Nat)}
    (h : StackPath succs entry (e :: l)) : ∀ y ∈ (e :: l).map (·.1), Reaches succs y e.1 := by
  induction l generalizing e with
  | nil => intro y hy; simp at hy; subst hy; exact .refl _ _
  | cons f l ih =>
    intro y hy
    rw [List.map_cons, List.mem_cons] at hy
    rcases hy with rfl | hy
    · exact .refl _ _
    · exact (ih h.2 y hy).step h.1

/-- measure: remaining work. -/
def work (succs : Nat → List Nat) (st : State) : Nat :=
  ((List.range st.visited.length).map (fun b =>
    if st.visited[b]? = some true then 0 else (succs b).length + 1)).sum +
  (st.stack.map (fun e => e.2.length + 1)).sum

theorem sum_set_lt (f : Nat → Nat) (v : List Bool) (s k : Nat) (hs : v[s]? = some false) (hk : s < k) :
    ((List.range k).map (fun b => if (v.set s true)[b]? = some true then 0 else f b)).sum + f s =
    ((List.range k).map (fun b => if v[b]? = some true then 0 else f b)).sum := by
  have hlt : s < v.length := (List.getElem?_eq_some_iff.mp hs).1
  induction k with
  | zero => omega
  | succ k ih =>
    rw [List.range_succ, List.map_append, List.map_append, List.sum_append, List.sum_append]
    by_cases e : s = k
    · subst e
      have : ((List.range s).map (fun b => if (v.set s true)[b]? = some true then 0 else f b)) =
          ((List.range s).map (fun b => if v[b]? = some true then 0 else f b)) := by
        apply List.map_congr_left
        intro b hb
        have : s ≠ b := by simp at hb; omega
        rw [List.getElem?_set_ne this]
      have h3 : (v.set s true)[s]? = some true := by simp [hlt]
      rw [this]
      simp only [List.map_cons, List.map_nil, List.sum_cons, List.sum_nil, h3, hs]
      simp
    · have := ih (by omega)
      have h2 : (v.set s true)[k]? = v[k]? := List.getElem?_set_ne e
      simp only [List.map_cons, List.map_nil, List.sum_cons, List.sum_nil, h2]
      omega

theorem loop_spec (fuel : Nat) (st : State) (I : Inv succs entry n st) (hf : work succs st < fuel) :
    (∃ rpo, loop succs fuel st = some (.ok rpo) ∧ ∃ v, Inv succs entry n ⟨v, [], rpo⟩) ∨
    (∃ b, loop succs fuel st = some (.bb b) ∧ n ≤ b ∧ ∃ a, Reaches succs entry a ∧ b ∈ succs a) := by
  induction fuel generalizing st with
  | zero => omega
  | succ fuel ih =>
    unfold loop
    cases hst : st.stack with
    | nil =>
      refine .inl ⟨st.rpo, rfl, st.visited, ?_⟩
      have : (⟨st.visited, [], st.rpo⟩ : State) = st := by cases st; simp_all
      rw [this]; exact I
    | cons e rest =>
      obtain ⟨b, r⟩ := e
      cases r with
      | cons s ss =>
        simp only
        have hbs : s ∈ succs b := I.sub (b, s :: ss) (by rw [hst]; simp) (by simp)
        have hbr : Reaches succs entry b := I.reach b (.inl (by rw [hst]; simp))
        have hsub : ss ⊆ succs b := fun y hy => I.sub (b, s :: ss) (by rw [hst]; simp) (by simp [hy])
        have hmap : st.stack.map (·.1) = b :: rest.map (·.1) := by rw [hst]; rfl
        cases hv : st.visited[s]? with
        | none =>
          refine .inr ⟨s, rfl, ?_, b, hbr, hbs⟩
          have := List.getElem?_eq_none_iff.mp hv
          rw [I.len] at this; exact this
        | some v =>
          cases v with
          | true =>
            simp only
            have hsv := (I.vis s).mp hv
            rw [hmap] at hsv
            apply ih
            · constructor
              · exact I.len
              · intro x; have := I.vis x; rw [hmap] at this; exact this
              · have := I.nodup; rw [hmap] at this; exact this
              · have := I.path
                rw [hst] at this
                cases rest with
                | nil => exact this
                | cons f l => exact this
              · intro x hx; apply I.reach; rw [hmap]; exact hx
              · intro e he
                rcases List.mem_cons.mp he with rfl | he
                · exact hsub
                · exact I.sub e (by rw [hst]; exact List.mem_cons_of_mem _ he)
              · intro e he y hy
                rcases List.mem_cons.mp he with rfl | he
                · rcases I.closedStack (b, s :: ss) (by rw [hst]; simp) y hy with h | h
                  · rcases List.mem_cons.mp h with rfl | h
                    · right; exact hsv
                    · left; exact h
                  · right; rw [hmap] at h; exact h
                · have := I.closedStack e (by rw [hst]; exact List.mem_cons_of_mem _ he) y hy
                  rw [hmap] at this; exact this
              · exact I.good
              · intro x hx y hy; have := I.closed x hx y hy; rw [hmap] at this; exact this
              · intro pre x post h1 h2; have := I.parent pre x post h1 h2; rw [hmap] at this; exact this
              · intro h; simp at h
              · intro x hx; apply I.lt; rw [hmap]; exact hx
            · unfold work at hf ⊢
              rw [hst] at hf
              simp only [List.map_cons, List.sum_cons, List.length_cons] at hf ⊢
              omega
          | false =>
            simp only
            have hlt : s < st.visited.length := (List.getElem?_eq_some_iff.mp hv).1
            have hns : ¬ (s ∈ st.stack.map (·.1) ∨ s ∈ st.rpo) := by
              rw [← I.vis, hv]; simp
            rw [hmap] at hns
            simp only [not_or] at hns
            apply ih
            · constructor
              · rw [List.length_set]; exact I.len
              · intro x
                have hvx := I.vis x
                rw [hmap] at hvx
                simp only [List.map_cons]
                by_cases e : s = x
                · subst e; simp [hlt]
                · rw [List.getElem?_set_ne e, hvx]
                  have : x ≠ s := fun h => e h.symm
                  simp [this]
              · have := I.nodup
                rw [hmap] at this
                simp only [List.map_cons, List.cons_append, List.nodup_cons] at this ⊢
                refine ⟨?_, this⟩
                simp only [List.mem_cons, List.mem_append, not_or] at hns ⊢
                exact ⟨hns.1.1, hns.1.2, hns.2⟩
              · have := I.path
                rw [hst] at this
                refine ⟨hbs, ?_⟩
                cases rest with
                | nil => exact this
                | cons f l => exact this
              · intro x hx
                simp only [List.map_cons] at hx
                rcases hx with hx | hx
                · rcases List.mem_cons.mp hx with rfl | hx
                  · exact hbr.step hbs
                  · exact I.reach x (.inl (by rw [hmap]; exact hx))
                · exact I.reach x (.inr hx)
              · intro e he
                rcases List.mem_cons.mp he with rfl | he
                · exact fun _ h => h
                · rcases List.mem_cons.mp he with rfl | he
                  · exact hsub
                  · exact I.sub e (by rw [hst]; exact List.mem_cons_of_mem _ he)
              · intro e he y hy
                simp only [List.map_cons]
                rcases List.mem_cons.mp he with rfl | he
                · left; exact hy
                · rcases List.mem_cons.mp he with rfl | he
                  · rcases I.closedStack (b, s :: ss) (by rw [hst]; simp) y hy with h | h
                    · rcases List.mem_cons.mp h with rfl | h
                      · right; left; simp
                      · left; exact h
                    · right; rw [hmap] at h
                      rcases h with h | h
                      · left; exact List.mem_cons_of_mem _ h
                      · right; exact h
                  · have := I.closedStack e (by rw [hst]; exact List.mem_cons_of_mem _ he) y hy
                    rw [hmap] at this
                    rcases this with h | h | h
                    · left; exact h
                    · right; left; exact List.mem_cons_of_mem _ h
                    · right; right; exact h
              · exact I.good
              · intro x hx y hy
                have := I.closed x hx y hy
                rw [hmap] at this
                rcases this with h | h
                · left; exact List.mem_cons_of_mem _ h
                · right; exact h
              · intro pre x post h1 h2
                obtain ⟨p, hp, h⟩ := I.parent pre x post h1 h2
                rw [hmap] at h
                refine ⟨p, hp, ?_⟩
                rcases h with h | h
                · left; exact h
                · right; exact List.mem_cons_of_mem _ h
              · intro h; simp at h
              · intro x hx
                simp only [List.map_cons] at hx
                rcases hx with hx | hx
                · rcases List.mem_cons.mp hx with rfl | hx
                  · rw [← I.len]; exact hlt
                  · exact I.lt x (.inl (by rw [hmap]; exact hx))
                · exact I.lt x (.inr hx)
            · unfold work at hf ⊢
              rw [hst] at hf
              have := sum_set_lt (fun b => (succs b).length + 1) st.visited s st.visited.length hv hlt
              simp only [List.length_set, List.map_cons, List.sum_cons, List.length_cons] at hf this ⊢
              omega
      | nil =>
        simp only
        have hmap : st.stack.map (·.1) = b :: rest.map (·.1) := by rw [hst]; rfl
        have hnd := I.nodup
        rw [hmap] at hnd
        simp only [List.cons_append, List.nodup_cons, List.mem_append, not_or] at hnd
        apply ih
        · constructor
          · exact I.len
          · intro x
            have := I.vis x
            rw [hmap] at this
            simp only [List.mem_cons] at this ⊢
            grind
          · simp only
            have h2 := hnd.2
            rw [List.nodup_append] at h2 ⊢
            refine ⟨h2.1, List.nodup_cons.mpr ⟨hnd.1.2, h2.2.1⟩, ?_⟩
            intro x hx y hy
            rcases List.mem_cons.mp hy with rfl | hy
            · intro e; subst e; exact hnd.1.1 hx
            · exact h2.2.2 x hx y hy
          · have := I.path
            rw [hst] at this
            cases rest with
            | nil => trivial
            | cons f l => exact this.2
          · intro x hx
            apply I.reach
            rw [hmap]
            simp only [List.mem_cons] at hx ⊢
            grind
          · intro e he
            exact I.sub e (by rw [hst]; exact List.mem_cons_of_mem _ he)
          · intro e he y hy
            have := I.closedStack e (by rw [hst]; exact List.mem_cons_of_mem _ he) y hy
            rw [hmap] at this
            simp only [List.mem_cons] at this ⊢
            grind
          · intro pre x post h
            cases pre with
            | nil =>
              simp only [List.nil_append, List.cons.injEq] at h
              obtain ⟨rfl, rfl⟩ := h
              intro y hy
              rcases I.closedStack (b, []) (by rw [hst]; simp) y hy with h | h | h
              · simp at h
              · right
                have hp := I.path
                rw [hst] at hp h
                exact stack_reaches hp y h
              · left; exact h
            | cons c pre =>
              simp only [List.cons_append, List.cons.injEq] at h
              exact I.good pre x post h.2
          · intro x hx y hy
            rcases List.mem_cons.mp hx with rfl | hx
            · rcases I.closedStack (x, []) (by rw [hst]; simp) y hy with h | h | h
              · simp at h
              · rw [hmap] at h
                rcases List.mem_cons.mp h with h | h
                · right; rw [h]; simp
                · left; exact h
              · right; exact List.mem_cons_of_mem _ h
            · have := I.closed x hx y hy
              rw [hmap] at this
              simp only [List.mem_cons] at this ⊢
              grind
          · intro pre x post h hne
            cases pre with
            | nil =>
              simp only [List.nil_append, List.cons.injEq] at h
              obtain ⟨rfl, rfl⟩ := h
              have hp := I.path
              rw [hst] at hp
              cases rest with
              | nil => exact absurd hp hne
              | cons f l => exact ⟨f.1, hp.1, .inr (by simp)⟩
            | cons c pre =>
              simp only [List.cons_append, List.cons.injEq] at h
              obtain ⟨rfl, h⟩ := h
              obtain ⟨p, hp, h'⟩ := I.parent pre x post h hne
              rw [hmap] at h'
              refine ⟨p, hp, ?_⟩
              rcases h' with h' | h'
              · left; exact List.mem_cons_of_mem _ h'
              · rcases List.mem_cons.mp h' with h' | h'
                · left; rw [h']; simp
                · right; exact h'
          · intro h
            have hp := I.path
            rw [hst] at hp
            simp only at h
            subst h
            have : b = entry := hp
            simp [this]
          · intro x hx
            apply I.lt
            rw [hmap]
            simp only [List.mem_cons] at hx ⊢
            grind
        · unfold work at hf ⊢
          rw [hst] at hf
          simp only [List.map_cons, List.sum_cons, List.length_nil] at hf ⊢
          omega

/-- Everything known about the result. -/
structure Result (succs : Nat → List Nat) (entry n : Nat) (rpo : List Nat) : Prop where
  nodup : rpo.Nodup
  mem : ∀ b, b ∈ rpo ↔ Reaches succs entry b
  lt : ∀ b ∈ rpo, b < n
  head : rpo.head? = some entry
  good : ∀ pre x post, rpo = pre ++ x :: post → Good succs x post
  parent : ∀ pre x post, rpo = pre ++ x :: post → x ≠ entry → ∃ p, x ∈ succs p ∧ p ∈ pre

theorem calculate_spec (n entry : Nat) (succs : Nat → List Nat) :
    (∃ rpo, calculate? n entry succs = some (.ok rpo.reverse) ∧ Result succs entry n rpo) ∨
    (∃ b, calculate? n entry succs = some (.bb b) ∧ n ≤ b ∧
      (b = entry ∨ ∃ a, Reaches succs entry a ∧ b ∈ succs a)) := by
  unfold calculate?
  by_cases he : entry < n
  · have hv : (List.replicate n false)[entry]? = some false := by simp [he]
    simp only [hv]
    have I : Inv succs entry n ⟨(List.replicate n false).set entry true, [(entry, succs entry)], []⟩ := by
      constructor
      · simp
      · intro b
        by_cases e : entry = b
        · subst e; simp [he]
        · have : b ≠ entry := fun h => e h.symm
          rw [List.getElem?_set_ne e]
          simp [this, List.getElem?_replicate]
      · simp
      · rfl
      · intro b hb; simp at hb; subst hb; exact .refl _ _
      · intro e he; simp at he; subst he; exact fun _ h => h
      · intro e he y hy; simp at he; subst he; left; exact hy
      · intro pre x post h; simp at h
      · simp
      · intro pre x post h; simp at h
      · intro h; simp at h
      · intro b hb; simp at hb; subst hb; exact he
    have hw : work succs ⟨(List.replicate n false).set entry true, [(entry, succs entry)], []⟩ < fuel n succs := by
      unfold work fuel
      have := sum_set_lt (fun b => (succs b).length + 1) (List.replicate n false) entry n hv he
      have h2 : ((List.range n).map (fun b => if (List.replicate n false)[b]? = some true then 0
          else (succs b).length + 1)) = (List.range n).map (fun b => (succs b).length + 1) := by
        apply List.map_congr_left
        intro b hb
        simp [List.getElem?_replicate]
      rw [h2] at this
      simp only [List.length_set, List.length_replicate, List.map_cons, List.map_nil, List.sum_cons,
        List.sum_nil] at this ⊢
      omega
    rcases loop_spec _ _ I hw with ⟨rpo, h1, v, J⟩ | ⟨b, h1, h2, h3⟩
    · left
      rw [h1]
      refine ⟨rpo, rfl, by simpa using J.nodup, ?_, fun b hb => J.lt b (.inr hb), J.last rfl, J.good, ?_⟩
      · intro b
        constructor
        · intro hb; exact J.reach b (.inr hb)
        · rintro ⟨l, hl⟩
          induction hl with
          | start =>
            have := J.last rfl
            simp only at this
            cases rpo with
            | nil => simp at this
            | cons a l => simp at this; simp [this]
          | step _ hs ih =>
            rcases J.closed _ ih _ hs with h | h
            · simp at h
            · exact h
      · intro pre x post h hne
        obtain ⟨p, hp, h'⟩ := J.parent pre x post h hne
        refine ⟨p, hp, ?_⟩
        rcases h' with h' | h'
        · exact h'
        · simp at h'
    · right
      rw [h1]
      exact ⟨b, rfl, h2, .inr h3⟩
  · right
    have hv : (List.replicate n false)[entry]? = none := by simp; omega
    simp only [hv]
    exact ⟨entry, rfl, by omega, .inl rfl⟩

end Regalloc.Postorder
