import Verif.Proofs.RangeMap

namespace Regalloc.PregMap

open RangeMap

/-- Numeric overlap. -/
def Ov (a b : RKey) : Prop := a.fr < b.to ∧ b.fr < a.to

/-- The skip loop ends at the first entry not below the range; what it passes over is
below the range. -/
theorem skipLoop_spec {m : PMap} (hm : SortedM m) {key : RKey} :
    ∀ (fuel skips : Nat) (pre rest : PMap), m = pre ++ rest → rest.length < fuel →
      ∃ pre' rest', skipLoop m key fuel skips rest = some rest' ∧ m = pre' ++ rest' ∧
        (∀ x ∈ pre', x ∈ pre ∨ x.1.to ≤ key.fr) ∧
        (∀ x ∈ rest'.head?, key.fr < x.1.to) ∧ rest'.length ≤ rest.length := by
  intro fuel
  induction fuel with
  | zero => intro _ _ _ _ h; omega
  | succ fuel ih =>
    intro skips pre rest he hf
    match rest with
    | [] => exact ⟨pre, [], rfl, he, fun x hx => .inl hx, by simp, by simp⟩
    | (e, v) :: rest =>
      unfold skipLoop
      simp only [List.length_cons] at hf
      by_cases hc : e.cmp key = .lt
      · rw [if_pos hc]
        rw [RKey.cmp_lt] at hc
        by_cases hs : skips + 1 ≥ 16
        · rw [if_pos hs]
          obtain ⟨pre2, e1, e2, e3⟩ := seek_spec hm key.fr
          have hlen : (seek m ⟨key.fr, key.fr⟩).length ≤ rest.length := by
            -- every entry of the new tail ends after the key starts, so is in `rest`
            have hsub : (pre ++ [(e, v)]).length ≤ pre2.length := by
              rcases Nat.lt_or_ge pre2.length (pre ++ [(e, v)]).length with hlt | hge
              · exfalso
                have hm2 : pre2 ++ seek m ⟨key.fr, key.fr⟩ = (pre ++ [(e, v)]) ++ rest := by rw [← e1, he]; simp
                have hmem : (e, v) ∈ seek m ⟨key.fr, key.fr⟩ := by
                  have h1 : (pre2 ++ seek m ⟨key.fr, key.fr⟩)[pre.length]? = some (e, v) := by rw [hm2]; simp
                  simp only [List.length_append, List.length_cons, List.length_nil] at hlt
                  rw [List.getElem?_append_right (by omega)] at h1
                  exact List.mem_of_getElem? h1
                have := e3 _ hmem
                simp only at this; omega
              · exact hge
            have l1 : m.length = pre2.length + (seek m ⟨key.fr, key.fr⟩).length := by
              rw [← List.length_append, ← e1]
            have l2 : m.length = pre.length + (rest.length + 1) := by rw [he]; simp
            simp only [List.length_append, List.length_cons, List.length_nil] at hsub
            omega
          obtain ⟨pre', rest', h1, h2, h3, h4, h5⟩ := ih 0 pre2 _ e1 (by omega)
          refine ⟨pre', rest', h1, h2, ?_, h4, by simp only [List.length_cons]; omega⟩
          intro x hx
          rcases h3 x hx with h | h
          · exact .inr (e2 x h)
          · exact .inr h
        · rw [if_neg hs]
          obtain ⟨pre', rest', h1, h2, h3, h4, h5⟩ := ih (skips + 1) (pre ++ [(e, v)]) rest (by rw [he]; simp) (by omega)
          refine ⟨pre', rest', h1, h2, ?_, h4, by simp only [List.length_cons]; omega⟩
          intro x hx
          rcases h3 x hx with h | h
          · rcases List.mem_append.mp h with h | h
            · exact .inl h
            · rw [List.mem_singleton] at h; subst h; exact .inr hc
          · exact .inr h
      · rw [if_neg hc]
        refine ⟨pre, (e, v) :: rest, rfl, he, fun x hx => .inl hx, ?_, by simp⟩
        intro x hx
        simp only [List.head?_cons, Option.mem_some_iff] at hx
        subst hx
        simp only
        rcases Nat.lt_or_ge key.fr e.to with h | h
        · exact h
        · exact absurd (RKey.cmp_lt.mpr h) hc

/-- Invariant of the scan; `keys` are all ranges of the bundle, `done` those compared
in full with everything, and the next range to look at starts at `bound` or later. -/
structure ScanInv (se : ScanEnv) (m : PMap) (keys done : List RKey) (bound : Nat) (pre : PMap) (s : Scan) : Prop where
  split : m = pre ++ s.rest
  passed : ∀ x ∈ pre, x.1.to ≤ bound ∨ ∃ i, x.2 = some i ∧ se.bundleOf i ∈ s.conflicts
  sound : ∀ b ∈ s.conflicts, ∃ e i, (e, some i) ∈ m ∧ se.bundleOf i = b ∧ ∃ r ∈ keys, Ov e r
  complete : ∀ x ∈ m, ∀ r ∈ done, Ov x.1 r → ∃ i, x.2 = some i ∧ se.bundleOf i ∈ s.conflicts
  nodup : s.conflicts.Nodup
  cost : ∀ c, se.maxCost = some c → ∀ b ∈ s.conflicts, se.weight b ≤ c
  weight_ge : ∀ b ∈ s.conflicts, se.weight b ≤ s.maxWeight
  weight_mem : s.maxWeight = 0 ∨ ∃ b ∈ s.conflicts, se.weight b = s.maxWeight
  first_none : s.first = none ↔ s.conflicts = []
  first_le : ∀ p, s.first = some p → (∀ x ∈ m, ∀ r ∈ keys, Ov x.1 r → p ≤ max x.1.fr r.fr) ∧
    ∃ x ∈ m, ∃ r ∈ keys, Ov x.1 r ∧ p = max x.1.fr r.fr

/-- What an early return means. -/
def RetOk (se : ScanEnv) (m : PMap) (keys : List RKey) : AllocRegResult → Prop
  | .ConflictWithFixed w p => ∃ e r, (e, none) ∈ m ∧ r ∈ keys ∧ Ov e r ∧ p = e.fr ∧
      (w = 0 ∨ ∃ e i r, (e, some i) ∈ m ∧ r ∈ keys ∧ Ov e r ∧ w = se.weight (se.bundleOf i)) ∧
      (∀ x ∈ m, ∀ r' ∈ keys, Ov x.1 r' → x.1.fr < e.fr → ∃ i, x.2 = some i ∧ se.weight (se.bundleOf i) ≤ w)
  | .ConflictHighCost => ∃ c, se.maxCost = some c ∧ ∃ e i r, (e, some i) ∈ m ∧ r ∈ keys ∧ Ov e r ∧
      c < se.weight (se.bundleOf i)
  | _ => False

theorem rangeLoop_spec {se : ScanEnv} {m : PMap} (hm : SortedM m) {keys done later : List RKey} {key : RKey}
    (hk : key.fr < key.to) (hkeys : keys = done ++ key :: later)
    (hlater : ∀ r ∈ later, key.to ≤ r.fr ∧ r.fr < r.to) (hdone : ∀ r ∈ done, r.to ≤ key.fr) :
    ∀ (fuel : Nat) (pre : PMap) (s : Scan), ScanInv se m keys done key.fr pre s → s.rest.length < fuel →
      (∃ s' pre', rangeLoop se m key fuel s = some (.next s') ∧ s'.rest ≠ [] ∧
          ScanInv se m keys (done ++ [key]) key.to pre' s') ∨
      (∃ s' pre', rangeLoop se m key fuel s = some (.stop s') ∧ ScanInv se m keys keys key.to pre' s') ∨
      (∃ r, rangeLoop se m key fuel s = some (.ret r) ∧ RetOk se m keys r) := by
  intro fuel
  induction fuel with
  | zero => intro _ _ _ h; omega
  | succ fuel ih =>
    intro pre s inv hf
    obtain ⟨pre', rest', k1, k2, k3, k4, k5⟩ := skipLoop_spec (key := key) hm (s.rest.length + 1) 0 pre s.rest inv.split (by omega)
    have hpassed : ∀ x ∈ pre', x.1.to ≤ key.fr ∨ ∃ i, x.2 = some i ∧ se.bundleOf i ∈ s.conflicts := by
      intro x hx
      rcases k3 x hx with h | h
      · exact inv.passed x h
      · exact .inl h
    unfold rangeLoop
    rw [k1]
    match rest', k1, k2, k4, k5 with
    | [], k1, k2, k4, k5 =>
      refine .inr (.inl ⟨{ s with rest := [] }, pre', rfl, ?_⟩)
      refine ⟨k2, ?_, inv.sound, ?_, inv.nodup, inv.cost, inv.weight_ge, inv.weight_mem, inv.first_none, inv.first_le⟩
      · intro x hx
        rcases hpassed x hx with h | h
        · exact .inl (by omega)
        · exact .inr h
      · intro x hx r hr hov
        rw [hkeys] at hr
        rcases List.mem_append.mp hr with hr | hr
        · exact inv.complete x hx r hr hov
        · have hx' : x ∈ pre' := by rw [k2, List.append_nil] at hx; exact hx
          rcases hpassed x hx' with h | h
          · exfalso
            unfold Ov at hov
            rcases List.mem_cons.mp hr with rfl | hr
            · omega
            · have := hlater r hr; omega
          · exact h
    | (e, v) :: rest2, k1, k2, k4, k5 =>
      have hme : (e, v) ∈ m := by rw [k2]; simp
      have he1 := hm.1 _ hme
      have he2 : key.fr < e.to := k4 (e, v) (by simp)
      have hrest : SortedM ((e, v) :: rest2) := by rw [k2] at hm; exact hm.suffix
      have hprele : ∀ x ∈ pre', x.1.to ≤ e.fr := by
        intro x hx
        rw [k2] at hm
        exact hm.prefix_le x hx (e, v) (by simp)
      have hrestle : ∀ x ∈ rest2, e.to ≤ x.1.fr := hrest.head_le
      simp only at he1
      simp only
      by_cases hgt : e.cmp key = .gt
      · rw [if_pos hgt]
        rw [RKey.cmp_gt] at hgt
        refine .inl ⟨{ s with rest := (e, v) :: rest2 }, pre', rfl, by simp, ?_⟩
        refine ⟨k2, ?_, inv.sound, ?_, inv.nodup, inv.cost, inv.weight_ge, inv.weight_mem, inv.first_none, inv.first_le⟩
        · intro x hx
          rcases hpassed x hx with h | h
          · exact .inl (by omega)
          · exact .inr h
        · intro x hx r hr hov
          rcases List.mem_append.mp hr with hr | hr
          · exact inv.complete x hx r hr hov
          · rw [List.mem_singleton] at hr
            subst hr
            rw [k2] at hx
            unfold Ov at hov
            rcases List.mem_append.mp hx with hx | hx
            · rcases hpassed x hx with h | h
              · omega
              · exact h
            · exfalso
              rcases List.mem_cons.mp hx with rfl | hx
              · simp only at hov; omega
              · have := hrestle x hx; omega
      · rw [if_neg hgt]
        have hov : Ov e key := by
          unfold Ov
          refine ⟨?_, he2⟩
          rcases Nat.lt_or_ge e.fr key.to with h | h
          · exact h
          · exact absurd (RKey.cmp_gt.mpr ⟨by omega, h⟩) hgt
        have hkeymem : key ∈ keys := by rw [hkeys]; simp
        -- nothing but recorded entries meets a range before `e`
        have hbefore : ∀ x ∈ m, ∀ r ∈ keys, Ov x.1 r → x.1.fr < e.fr → ∃ i, x.2 = some i ∧ se.bundleOf i ∈ s.conflicts := by
          intro x hx r hr ho hlt
          rw [hkeys] at hr
          rcases List.mem_append.mp hr with hr | hr
          · exact inv.complete x hx r hr ho
          · rw [k2] at hx
            rcases List.mem_append.mp hx with hx | hx
            · rcases hpassed x hx with h | h
              · exfalso
                unfold Ov at ho
                rcases List.mem_cons.mp hr with rfl | hr
                · omega
                · have := hlater r hr; omega
              · exact h
            · exfalso
              rcases List.mem_cons.mp hx with rfl | hx
              · simp only at hlt; omega
              · have := hrestle x hx; omega
        match v, hme, k1, k2, hrest with
        | none, hme, k1, k2, hrest =>
          refine .inr (.inr ⟨_, rfl, e, key, hme, hkeymem, hov, rfl, ?_, ?_⟩)
          · rcases inv.weight_mem with h | ⟨b, hb, hw⟩
            · exact .inl h
            · obtain ⟨e', i, h1, h2, r, h3, h4⟩ := inv.sound b hb
              exact .inr ⟨e', i, r, h1, h3, h4, by rw [h2, hw]⟩
          · intro x hx r hr ho hlt
            obtain ⟨i, h1, h2⟩ := hbefore x hx r hr ho hlt
            exact ⟨i, h1, inv.weight_ge _ h2⟩
        | some i, hme, k1, k2, hrest =>
          simp only
          generalize hfdef : firstPoint s.first e key = first
          have hfirst_ne : first ≠ none := by rw [← hfdef]; unfold firstPoint; cases s.first <;> simp
          have hfirst_le : ∀ p, first = some p → (∀ x ∈ m, ∀ r ∈ keys, Ov x.1 r → p ≤ max x.1.fr r.fr) ∧
              ∃ x ∈ m, ∃ r ∈ keys, Ov x.1 r ∧ p = max x.1.fr r.fr := by
            intro p hp
            cases hs : s.first with
            | some q =>
              rw [hs] at hfdef
              simp only [firstPoint] at hfdef
              rw [← hfdef] at hp
              exact inv.first_le p (by rw [hs, hp])
            | none =>
              rw [hs] at hfdef
              simp only [firstPoint] at hfdef
              rw [← hfdef] at hp
              simp only [Option.some.injEq] at hp
              subst hp
              have hemp : s.conflicts = [] := inv.first_none.mp hs
              refine ⟨?_, (e, some i), hme, key, hkeymem, hov, rfl⟩
              intro x hx r hr ho
              rcases Nat.lt_or_ge x.1.fr e.fr with hlt | hge
              · obtain ⟨j, _, hj⟩ := hbefore x hx r hr ho hlt
                rw [hemp] at hj; simp at hj
              · rw [hkeys] at hr
                rcases List.mem_append.mp hr with hr | hr
                · obtain ⟨j, _, hj⟩ := inv.complete x hx r hr ho
                  rw [hemp] at hj; simp at hj
                · rcases List.mem_cons.mp hr with rfl | hr
                  · omega
                  · have := hlater r hr; omega
          have hinv2 : ∀ (cs : List Nat) (w : Nat), (∀ b ∈ s.conflicts, b ∈ cs) → se.bundleOf i ∈ cs →
              (∀ b ∈ cs, b ∈ s.conflicts ∨ b = se.bundleOf i) → cs.Nodup →
              (∀ c, se.maxCost = some c → ∀ b ∈ cs, se.weight b ≤ c) → (∀ b ∈ cs, se.weight b ≤ w) →
              (w = 0 ∨ ∃ b ∈ cs, se.weight b = w) →
              ScanInv se m keys done key.fr (pre' ++ [(e, some i)]) ⟨rest2, cs, w, first⟩ := by
            intro cs w hsub hin hcs hnd hcost hwge hwmem
            refine ⟨by simp [k2], ?_, ?_, ?_, hnd, hcost, hwge, hwmem, ?_, hfirst_le⟩
            · intro x hx
              rcases List.mem_append.mp hx with hx | hx
              · rcases hpassed x hx with h | ⟨j, h1, h2⟩
                · exact .inl h
                · exact .inr ⟨j, h1, hsub _ h2⟩
              · rw [List.mem_singleton] at hx
                subst hx
                exact .inr ⟨i, rfl, hin⟩
            · intro b hb
              rcases hcs b hb with h | h
              · exact inv.sound b h
              · exact ⟨e, i, hme, h.symm, key, hkeymem, hov⟩
            · intro x hx r hr ho
              obtain ⟨j, h1, h2⟩ := inv.complete x hx r hr ho
              exact ⟨j, h1, hsub _ h2⟩
            · constructor
              · intro h; exact absurd h hfirst_ne
              · intro h; simp only at h; rw [h] at hin; simp at hin
          have hlen2 : rest2.length < fuel := by simp only [List.length_cons] at k5; omega
          by_cases hmem : se.bundleOf i ∈ s.conflicts
          · rw [if_pos hmem]
            exact ih _ _ (hinv2 s.conflicts s.maxWeight (fun _ h => h) hmem (fun _ h => .inl h) inv.nodup inv.cost
              inv.weight_ge inv.weight_mem) hlen2
          · rw [if_neg hmem]
            have hsplitmax : max s.maxWeight (se.weight (se.bundleOf i)) = s.maxWeight ∨
                max s.maxWeight (se.weight (se.bundleOf i)) = se.weight (se.bundleOf i) := by omega
            have hwmem : max s.maxWeight (se.weight (se.bundleOf i)) = 0 ∨
                ∃ b ∈ s.conflicts ++ [se.bundleOf i], se.weight b = max s.maxWeight (se.weight (se.bundleOf i)) := by
              rcases hsplitmax with h | h
              · rw [h]
                rcases inv.weight_mem with h0 | ⟨b, hb, hw⟩
                · exact .inl h0
                · exact .inr ⟨b, by simp [hb], hw⟩
              · rw [h]; exact .inr ⟨_, by simp, rfl⟩
            have hwge : ∀ b ∈ s.conflicts ++ [se.bundleOf i], se.weight b ≤ max s.maxWeight (se.weight (se.bundleOf i)) := by
              intro b hb
              rcases List.mem_append.mp hb with hb | hb
              · have := inv.weight_ge b hb; omega
              · rw [List.mem_singleton] at hb; subst hb; omega
            have hnd : (s.conflicts ++ [se.bundleOf i]).Nodup := by
              rw [List.nodup_append]
              refine ⟨inv.nodup, by simp, ?_⟩
              intro a ha b hb
              rw [List.mem_singleton] at hb
              subst hb
              rintro rfl
              exact hmem ha
            cases hc : se.maxCost with
            | none =>
              simp only [Bool.false_eq_true, if_false]
              exact ih _ _ (hinv2 _ _ (by simp +contextual) (by simp) (by simp +contextual) hnd
                (by intro c h; rw [hc] at h; simp at h) hwge hwmem) hlen2
            | some c =>
              by_cases hw : max s.maxWeight (se.weight (se.bundleOf i)) > c
              · simp only [hw, decide_true, if_true]
                refine .inr (.inr ⟨_, rfl, c, hc, ?_⟩)
                rcases hsplitmax with h | h
                · rcases inv.weight_mem with h0 | ⟨b, hb, hwb⟩
                  · omega
                  · have := inv.cost c hc b hb; omega
                · exact ⟨e, i, key, hme, hkeymem, hov, by omega⟩
              · simp only [hw, decide_false, Bool.false_eq_true, if_false]
                exact ih _ _ (hinv2 _ _ (by simp +contextual) (by simp) (by simp +contextual) hnd
                  (by intro c' h b hb; rw [hc] at h; simp only [Option.some.injEq] at h; subst h; have := hwge b hb; omega)
                  hwge hwmem) hlen2

theorem scanRanges_spec {se : ScanEnv} {m : PMap} (hm : SortedM m) {keys : List RKey} :
    ∀ (rs : List (RKey × Nat)) (done : List RKey) (bound : Nat) (pre : PMap) (s : Scan), keys = done ++ rs.map Prod.fst → SortedM rs →
      (∀ r ∈ rs, bound ≤ r.1.fr) → (∀ d ∈ done, ∀ r ∈ rs, d.to ≤ r.1.fr) → ScanInv se m keys done bound pre s →
      (∃ s' pre' b', scanRanges se m rs s = some (.inl s') ∧ ScanInv se m keys keys b' pre' s') ∨
      (∃ r, scanRanges se m rs s = some (.inr r) ∧ RetOk se m keys r) := by
  intro rs
  induction rs with
  | nil =>
    intro done bound pre s hk _ _ _ inv
    simp only [List.map_nil, List.append_nil] at hk
    subst hk
    exact .inl ⟨s, pre, bound, rfl, inv⟩
  | cons a rs ih =>
    intro done bound pre s hk hrs hb hd inv
    obtain ⟨key, i⟩ := a
    have h1 := hrs.head_lt
    have h2 := hrs.head_le
    have hb' := hb (key, i) (by simp)
    simp only at h1 h2 hb'
    have inv' : ScanInv se m keys done key.fr pre s := by
      refine ⟨inv.split, ?_, inv.sound, inv.complete, inv.nodup, inv.cost, inv.weight_ge, inv.weight_mem, inv.first_none, inv.first_le⟩
      intro x hx
      rcases inv.passed x hx with h | h
      · exact .inl (by omega)
      · exact .inr h
    have hlen : s.rest.length < m.length + 1 := by
      have := congrArg List.length inv.split
      simp only [List.length_append] at this; omega
    have hlater : ∀ r ∈ rs.map Prod.fst, key.to ≤ r.fr ∧ r.fr < r.to := by
      intro r hr
      obtain ⟨x, hx, rfl⟩ := List.mem_map.mp hr
      exact ⟨h2 x hx, hrs.tail.1 x hx⟩
    rcases rangeLoop_spec hm h1 (by simpa using hk) hlater (fun d hd' => hd d hd' (key, i) (by simp)) (m.length + 1) pre s inv' hlen with
      ⟨s', pre', e1, _, e2⟩ | ⟨s', pre', e1, e2⟩ | ⟨r, e1, e2⟩
    · unfold scanRanges
      rw [e1]
      simp only
      refine ih (done ++ [key]) key.to pre' s' (by simp [hk]) hrs.tail h2 ?_ e2
      intro d hd' r hr
      rcases List.mem_append.mp hd' with h | h
      · exact hd d h r (by simp [hr])
      · rw [List.mem_singleton] at h; subst h; exact h2 r hr
    · unfold scanRanges
      rw [e1]
      exact .inl ⟨s', pre', key.to, rfl, e2⟩
    · unfold scanRanges
      rw [e1]
      exact .inr ⟨r, rfl, e2⟩

theorem insertAll_spec : ∀ (rs : List (RKey × Nat)) (m : PMap), SortedM m → SortedM rs →
    (∀ x ∈ m, ∀ r ∈ rs, ¬ Ov x.1 r.1) →
    ∃ m', insertAll rs m = some m' ∧ SortedM m' ∧ ∀ y, y ∈ m' ↔ y ∈ m ∨ ∃ r ∈ rs, y = (r.1, some r.2) := by
  intro rs
  induction rs with
  | nil => intro m hm _ _; exact ⟨m, rfl, hm, by simp⟩
  | cons a rs ih =>
    intro m hm hrs hfree
    obtain ⟨k, i⟩ := a
    have h1 := hrs.head_lt
    have h2 := hrs.head_le
    simp only at h1 h2
    obtain ⟨e1, e2, e3⟩ := insert_free hm h1 (some i) (by
      intro e he ho
      exact hfree e he (k, i) (by simp) ⟨ho.2, ho.1⟩)
    unfold insertAll
    cases hins : RangeMap.insert m k (some i) with
    | mk o m1 =>
      rw [hins] at e1 e2 e3
      simp only at e1 e2 e3
      subst e1
      obtain ⟨m', f1, f2, f3⟩ := ih m1 e2 hrs.tail (by
        intro x hx r hr ho
        rcases (e3 x).mp hx with rfl | hx
        · have := h2 r hr; unfold Ov at ho; simp only at ho; omega
        · exact hfree x hx r (by simp [hr]) ho)
      refine ⟨m', f1, f2, ?_⟩
      intro y
      rw [f3, e3]
      constructor
      · rintro ((rfl | h) | ⟨r, hr, rfl⟩)
        · exact .inr ⟨(k, i), by simp, rfl⟩
        · exact .inl h
        · exact .inr ⟨r, by simp [hr], rfl⟩
      · rintro (h | ⟨r, hr, rfl⟩)
        · exact .inl (.inr h)
        · rcases List.mem_cons.mp hr with rfl | hr
          · exact .inl (.inl rfl)
          · exact .inr ⟨r, hr, rfl⟩

/-- Everything the attempt can answer. -/
theorem tryAlloc_spec {se : ScanEnv} {m : PMap} (hm : SortedM m) {rs : List (RKey × Nat)} (hrs : SortedM rs) (hne : rs ≠ []) :
    (∃ m', tryAlloc se m rs = some (.Allocated m') ∧ (∀ x ∈ m, ∀ r ∈ rs, ¬ Ov x.1 r.1) ∧ SortedM m' ∧
      ∀ y, y ∈ m' ↔ y ∈ m ∨ ∃ r ∈ rs, y = (r.1, some r.2)) ∨
    (∃ cs p, tryAlloc se m rs = some (.Conflict cs p) ∧ cs ≠ [] ∧ cs.Nodup ∧
      (∀ b, b ∈ cs ↔ ∃ e i, (e, some i) ∈ m ∧ se.bundleOf i = b ∧ ∃ r ∈ rs, Ov e r.1) ∧
      (∀ e, (e, none) ∈ m → ∀ r ∈ rs, ¬ Ov e r.1) ∧
      (∀ c, se.maxCost = some c → ∀ b ∈ cs, se.weight b ≤ c) ∧
      (∀ x ∈ m, ∀ r ∈ rs, Ov x.1 r.1 → p ≤ max x.1.fr r.1.fr) ∧
      (∃ x ∈ m, ∃ r ∈ rs, Ov x.1 r.1 ∧ p = max x.1.fr r.1.fr)) ∨
    (∃ r, tryAlloc se m rs = some r ∧ RetOk se m (rs.map Prod.fst) r) := by
  match rs, hne with
  | (k0, i0) :: rs', _ =>
    obtain ⟨pre, e1, e2, e3⟩ := seek_spec hm k0.fr
    have inv0 : ScanInv se m (((k0, i0) :: rs').map Prod.fst) [] k0.fr pre ⟨seek m ⟨k0.fr, k0.fr⟩, [], 0, none⟩ :=
      ⟨e1, fun x hx => .inl (e2 x hx), by simp, by simp, by simp, by simp, by simp, .inl rfl, by simp, by simp⟩
    have hb0 : ∀ r ∈ (k0, i0) :: rs', k0.fr ≤ r.1.fr := by
      intro r hr
      rcases List.mem_cons.mp hr with rfl | hr
      · exact Nat.le_refl _
      · have := hrs.head_le r hr; have := hrs.head_lt; simp only at *; omega
    unfold tryAlloc
    rcases scanRanges_spec hm ((k0, i0) :: rs') [] k0.fr pre _ rfl hrs hb0 (by simp) inv0 with
      ⟨s', pre', b', f1, inv⟩ | ⟨r, f1, f2⟩
    · simp only
      rw [f1]
      simp only
      cases hcs : s'.conflicts with
      | nil =>
        have hfree : ∀ x ∈ m, ∀ r ∈ (k0, i0) :: rs', ¬ Ov x.1 r.1 := by
          intro x hx r hr ho
          obtain ⟨j, _, hj⟩ := inv.complete x hx r.1 (List.mem_map_of_mem hr) ho
          rw [hcs] at hj; simp at hj
        obtain ⟨m', g1, g2, g3⟩ := insertAll_spec ((k0, i0) :: rs') m hm hrs hfree
        exact .inl ⟨m', by simp [g1], hfree, g2, g3⟩
      | cons c cs =>
        have hf : s'.first ≠ none := by
          intro h
          have := inv.first_none.mp h
          rw [hcs] at this; simp at this
        cases hp : s'.first with
        | none => exact absurd hp hf
        | some p =>
          refine .inr (.inl ⟨c :: cs, p, rfl, by simp, by rw [← hcs]; exact inv.nodup, ?_, ?_, ?_, ?_, ?_⟩)
          · intro b
            rw [← hcs]
            constructor
            · intro hb
              obtain ⟨e, i, h1, h2, r, h3, h4⟩ := inv.sound b hb
              obtain ⟨x, hx, rfl⟩ := List.mem_map.mp h3
              exact ⟨e, i, h1, h2, x, hx, h4⟩
            · rintro ⟨e, i, h1, h2, r, h3, h4⟩
              obtain ⟨j, hj1, hj2⟩ := inv.complete (e, some i) h1 r.1 (List.mem_map_of_mem h3) h4
              simp only [Option.some.injEq] at hj1
              subst hj1
              rw [← h2]; exact hj2
          · intro e he r hr ho
            obtain ⟨j, hj1, _⟩ := inv.complete (e, none) he r.1 (List.mem_map_of_mem hr) ho
            simp at hj1
          · rw [← hcs]; exact inv.cost
          · intro x hx r hr ho
            exact (inv.first_le p hp).1 x hx r.1 (List.mem_map_of_mem hr) ho
          · obtain ⟨x, hx, r, hr, ho, hpe⟩ := (inv.first_le p hp).2
            obtain ⟨y, hy, rfl⟩ := List.mem_map.mp hr
            exact ⟨x, hx, y, hy, ho, hpe⟩
    · simp only
      rw [f1]
      exact .inr (.inr ⟨r, rfl, f2⟩)

theorem evict_spec : ∀ (rs : List (RKey × Nat)) (m : PMap), SortedM m → SortedM rs →
    (∀ r ∈ rs, (r.1, some r.2) ∈ m) →
    SortedM (evict m rs) ∧ ∀ y, y ∈ evict m rs ↔ y ∈ m ∧ ∀ r ∈ rs, y ≠ (r.1, some r.2) := by
  intro rs
  induction rs with
  | nil => intro m hm _ _; exact ⟨hm, by simp [evict]⟩
  | cons a rs ih =>
    intro m hm hrs hin
    obtain ⟨k, i⟩ := a
    have h1 := hrs.head_lt
    have h2 := hrs.head_le
    simp only at h1 h2
    obtain ⟨e1, e2⟩ := remove_spec hm (hin (k, i) (by simp))
    obtain ⟨f1, f2⟩ := ih (RangeMap.remove m k) e1 hrs.tail (by
      intro r hr
      rw [e2]
      refine ⟨hin r (by simp [hr]), ?_⟩
      intro h
      have : r.1 = k := congrArg Prod.fst h
      have h3 := h2 r hr
      rw [this] at h3; omega)
    refine ⟨f1, ?_⟩
    intro y
    have : evict m ((k, i) :: rs) = evict (RangeMap.remove m k) rs := rfl
    rw [this, f2, e2]
    simp only [List.mem_cons, forall_eq_or_imp]
    grind

end Regalloc.PregMap
