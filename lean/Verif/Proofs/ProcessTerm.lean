import Verif.Proofs.ProcessReady
import Batteries.Data.List.Perm

/-
The allocation loop ends. Helper lemmas for C40.
-/
namespace Regalloc.Ion

/-- Splits still to be counted. -/
def splitsLeft (st : St) : Nat := ((List.range st.nSpillsets).map (fun t => 2 - (st.spillsets t).splits)).sum

/-- A bundle that is worth splitting. -/
def isBig (st : St) (c : Nat) : Bool :=
  !(st.bundles c).ranges.isEmpty && !(st.bundles c).minimal && decide ((st.spillsets (st.bundles c).spillset).spillBundle ≠ some c)

/-- The number of bundles that are worth splitting. -/
def bigs (st : St) : Nat := ((List.range st.nBundles).filter (isBig st)).length

/-- The waiting bundles, by weight. -/
def load (P : Params) (st : St) : Nat := ((st.queue.map (·.1)).map (fun c => (st.nBundles + 1) ^ weight P st c)).sum

theorem sum_le_of_le (l : List Nat) (f g : Nat → Nat) (h : ∀ t ∈ l, f t ≤ g t) : (l.map f).sum ≤ (l.map g).sum := by
  induction l with
  | nil => simp
  | cons a l ih =>
    simp only [List.map_cons, List.sum_cons]
    have h1 := h a (by simp)
    have h2 := ih (fun t ht => h t (by simp [ht]))
    omega

theorem sum_lt_of_lt (l : List Nat) (f g : Nat → Nat) (h : ∀ t ∈ l, f t ≤ g t) {t : Nat} (ht : t ∈ l) (hlt : f t < g t) :
    (l.map f).sum < (l.map g).sum := by
  induction l with
  | nil => cases ht
  | cons a l ih =>
    simp only [List.map_cons, List.sum_cons]
    have h1 := h a (by simp)
    have h2 := sum_le_of_le l f g (fun t ht => h t (by simp [ht]))
    rcases List.mem_cons.mp ht with rfl | ht
    · omega
    · have := ih (fun t ht => h t (by simp [ht])) ht
      omega

theorem isBig_iff (st : St) (c : Nat) : isBig st c = true ↔ (st.bundles c).ranges ≠ [] ∧ (st.bundles c).minimal = false ∧ ¬ IsSpill st c := by
  unfold isBig IsSpill
  simp [and_assoc]

theorem bigs_le {st st' : St} (h : ∀ c < st'.nBundles, isBig st' c = true → c < st.nBundles ∧ isBig st c = true) : bigs st' ≤ bigs st := by
  unfold bigs
  have hn : ((List.range st'.nBundles).filter (isBig st')).Nodup := List.Pairwise.filter _ List.nodup_range
  refine (List.subperm_of_subset hn ?_).length_le
  intro c hc
  rw [List.mem_filter, List.mem_range] at hc ⊢
  exact h c hc.1 hc.2

theorem bigs_lt {st st' : St} (h : ∀ c < st'.nBundles, isBig st' c = true → c < st.nBundles ∧ isBig st c = true) {b : Nat}
    (hb : b < st.nBundles) (hbig : isBig st b = true) (hnot : isBig st' b = false) : bigs st' < bigs st := by
  unfold bigs
  have hn : (b :: (List.range st'.nBundles).filter (isBig st')).Nodup := by
    rw [List.nodup_cons]
    refine ⟨?_, List.Pairwise.filter _ List.nodup_range⟩
    rw [List.mem_filter, hnot]
    simp
  have hsub : (b :: (List.range st'.nBundles).filter (isBig st')) ⊆ (List.range st.nBundles).filter (isBig st) := by
    intro c hc
    rw [List.mem_cons] at hc
    rw [List.mem_filter, List.mem_range]
    rcases hc with rfl | hc
    · exact ⟨hb, hbig⟩
    · rw [List.mem_filter, List.mem_range] at hc
      exact h c hc.1 hc.2
  have := (List.subperm_of_subset hn hsub).length_le
  rw [List.length_cons] at this
  exact this

theorem load_lt {K w : Nat} (f : Nat → Nat) (bs : List Nat) (hlen : bs.length < K) (hf : ∀ d ∈ bs, f d < w) :
    (bs.map (fun d => K ^ f d)).sum < K ^ w := by
  have hK : 0 < K := by omega
  cases bs with
  | nil => simpa using Nat.pow_pos hK
  | cons d ds =>
    have hw : 0 < w := by have := hf d (by simp); omega
    obtain ⟨v, rfl⟩ : ∃ v, w = v + 1 := ⟨w - 1, by omega⟩
    have : ∀ l : List Nat, (∀ d ∈ l, f d < v + 1) → (l.map (fun d => K ^ f d)).sum ≤ l.length * K ^ v := by
      intro l
      induction l with
      | nil => simp
      | cons a l ih =>
        intro hl
        simp only [List.map_cons, List.sum_cons, List.length_cons, Nat.add_mul, Nat.one_mul]
        have h1 : K ^ f a ≤ K ^ v := Nat.pow_le_pow_right hK (by have := hl a (by simp); omega)
        have h2 := ih (fun d hd => hl d (by simp [hd]))
        omega
    have h1 := this (d :: ds) hf
    have h2 : (d :: ds).length * K ^ v < K * K ^ v := Nat.mul_lt_mul_of_pos_right hlen (Nat.pow_pos hK)
    rw [Nat.pow_succ, Nat.mul_comm (K ^ v)]
    omega

section
variable {P : Params} {q0 q q' : PSt} {b : Nat}

theorem Quiet.splitsLeft {st st' : St} (h : Quiet st st') : splitsLeft st' = splitsLeft st := by
  unfold Ion.splitsLeft
  rw [h.nSets]
  congr 1
  apply List.map_congr_left
  intro t _
  rw [(h.splits t).1]

theorem Quiet.isBig {st st' : St} (h : Quiet st st') (c : Nat) : isBig st' c = isBig st c := by
  unfold Ion.isBig
  obtain ⟨h1, h2, -, -, -, h6⟩ := h.fields c
  rw [h1, h2, h6, (h.splits _).2]

theorem Quiet.bigs {st st' : St} (h : Quiet st st') : bigs st' = bigs st := by
  unfold Ion.bigs
  rw [h.nBundles]
  congr 1
  apply List.filter_congr
  intro c _
  exact h.isBig c

/-- A bundle of spill set `t` other than the one at hand, in a cut. -/
theorem Recut.other {hint : Option PReg} {st0 st st' : St} (r : Recut st b hint st') (hs : Shape st0 st) {c : Nat} (hc : c < st.nBundles)
    (hcb : c ≠ b) (hn : ¬ IsSpill st' c) : st'.bundles c = st.bundles c ∧ ¬ IsSpill st c := by
  have hn' : ¬ IsSpill st c := fun hx => hn ((r.frm.isSpill_old hc).mpr hx)
  refine ⟨r.bund c hc hcb ?_, hn'⟩
  intro hx
  have := (hs.spillOk _ _ hx).2
  apply hn'
  unfold IsSpill
  rw [this]
  exact hx

theorem Frm.splitsLeft {ss : Nat} {hint : Option PReg} {st st' : St} (h : Frm ss hint st st') : Ion.splitsLeft st' ≤ Ion.splitsLeft st := by
  unfold Ion.splitsLeft
  rw [h.nS]
  apply sum_le_of_le
  intro t _
  have := h.mono t
  omega

theorem Inv.known (h : Inv P q0 q [b]) (hr : Ready q0) : (q.st.bundles b).spillset < q.st.nSpillsets := by
  obtain ⟨b1, -, b3, -⟩ := h.busy_lt
  obtain ⟨e, he⟩ := (ne_nil_iff _).mp b3
  obtain ⟨b0, e0, h1, h2⟩ := h.core.shape.origin b e ⟨b1, he⟩
  rw [h2.set, h.core.nSets]
  exact hr.known b0 h1.1

/-- A turn brings the end closer. -/
theorem turn_less (hT : LocalTotal P) (hr : Ready q0) {rest : List (Nat × Nat × Option PReg)} {x : Nat × Option PReg}
    (hperm : q.st.queue.Perm ((b, x) :: rest)) (h : Inv P q0 { q with st := { q.st with queue := rest } } [b]) (h' : Inv P q0 q' [])
    (hm : Moved P { q with st := { q.st with queue := rest } } b q' ∨ Spilt { q with st := { q.st with queue := rest } } b q') :
    splitsLeft q'.st < splitsLeft q.st ∨ splitsLeft q'.st ≤ splitsLeft q.st ∧
      (bigs q'.st < bigs q.st ∨ bigs q'.st ≤ bigs q.st ∧ load P q'.st < load P q.st) := by
  obtain ⟨b1, b2, b3, b4, b5, b6⟩ := h.busy_lt
  have hk := h.known hr
  dsimp only at b1 b2 b3 b4 b5 b6 hk
  have hload : load P q.st = (q.st.nBundles + 1) ^ weight P q.st b +
      ((rest.map (·.1)).map (fun c => (q.st.nBundles + 1) ^ weight P q.st c)).sum := by
    unfold load
    rw [((hperm.map (·.1)).map (fun c => (q.st.nBundles + 1) ^ weight P q.st c)).sum_nat]
    simp
  have hweight : ∀ c, weight P { q.st with queue := rest } c = weight P q.st c := fun c =>
    Quiet.weight (a := q.st) (b := { q.st with queue := rest }) hT ⟨rfl, rfl, rfl, fun _ => rfl, rfl, fun _ => ⟨rfl, rfl⟩⟩ c
  rcases hm with (⟨q1, same, hint, r, rq, hm⟩ | ⟨same, bs, queue, low⟩) | ⟨⟨hint, r, rq⟩, num, queue, gone⟩
  · have e1 : splitsLeft q1.st = splitsLeft q.st := same.splitsLeft
    have e2 : bigs q1.st = bigs q.st := same.bigs
    obtain ⟨f1, f2, -, -, -, f6⟩ := same.fields b
    dsimp only at f1 f2 f6 hm
    rcases rq.progress with ⟨p1, p2⟩ | ⟨p1, p2⟩
    · left
      rw [← e1]
      unfold splitsLeft
      rw [r.frm.nS]
      refine sum_lt_of_lt _ _ _ (fun t _ => ?_) (t := (q1.st.bundles b).spillset) ?_ ?_
      · have := r.frm.mono t; omega
      · rw [List.mem_range, f6, same.nSets]; exact hk
      · omega
    · right
      refine ⟨by rw [← e1]; exact r.frm.splitsLeft, .inl ?_⟩
      rw [← e2]
      have hbig : isBig q1.st b = true := by
        rw [isBig_iff, f1, f2]
        refine ⟨b3, hm, ?_⟩
        unfold IsSpill
        rw [f6, (same.splits _).2]
        exact b4
      refine bigs_lt ?_ (b := b) (by rw [same.nBundles]; exact b1) hbig ?_
      · intro c hc hbc
        rw [isBig_iff] at hbc
        obtain ⟨c1, c2, c3⟩ := hbc
        have hlt : c < q1.st.nBundles := by
          by_cases hlt : c < q1.st.nBundles
          · exact hlt
          · have := p2 c (by omega) hc c3 c1
            rw [c2] at this
            cases this
        have hcb : c ≠ b := by rintro rfl; exact c1 p1
        refine ⟨hlt, ?_⟩
        have hnew : ¬ IsSpill q1.st c := fun hx => c3 ((r.frm.isSpill_old hlt).mpr hx)
        have : q'.st.bundles c = q1.st.bundles c := by
          refine r.bund c hlt hcb ?_
          intro hx
          apply hnew
          have hx' : (q.st.spillsets (q.st.bundles b).spillset).spillBundle = some c := by
            rw [← f6]; rw [(same.splits _).2] at hx; exact hx
          have hcset := (h.core.shape.spillOk _ _ hx').2
          dsimp only at hcset
          unfold IsSpill
          rw [(same.fields c).2.2.2.2.2]
          dsimp only
          rw [hcset, ← f6]
          exact hx
        rw [isBig_iff]
        rw [this] at c1 c2
        exact ⟨c1, c2, hnew⟩
      · rw [← Bool.not_eq_true, isBig_iff, p1]
        simp
  · right
    refine ⟨Nat.le_of_eq same.splitsLeft, .inr ⟨Nat.le_of_eq same.bigs, ?_⟩⟩
    rw [hload]
    unfold load
    rw [queue]
    have hq : ∀ c, weight P q'.st c = weight P q.st c := fun c => (same.weight hT c).trans (hweight c)
    simp only [hq, List.map_append, List.sum_append]
    have hn : q'.st.nBundles = q.st.nBundles := same.nBundles
    rw [hn]
    have hnd : bs.Nodup := by
      have := h'.core.todoNodup
      rw [queue] at this
      simp only [List.nil_append] at this
      exact (List.nodup_append.mp (List.nodup_append.mp this).1).2.1
    have hlen : bs.length < q.st.nBundles + 1 := by
      have : bs.length ≤ (List.range q.st.nBundles).length :=
        (List.subperm_of_subset hnd (fun d hd => List.mem_range.mpr (low d hd).1)).length_le
      rw [List.length_range] at this
      omega
    have := load_lt (K := q.st.nBundles + 1) (w := weight P q.st b) (weight P q.st) bs hlen (fun d hd => by
      have := (low d hd).2
      rw [hweight, hweight] at this
      exact this)
    omega
  · right
    refine ⟨r.frm.splitsLeft, .inr ⟨?_, ?_⟩⟩
    · apply bigs_le
      intro c hc hbc
      rw [isBig_iff] at hbc
      obtain ⟨c1, c2, c3⟩ := hbc
      rw [num] at hc
      have hcb : c ≠ b := by rintro rfl; exact c1 gone
      obtain ⟨k1, k2⟩ := r.other h.core.shape hc hcb c3
      rw [k1] at c1 c2
      exact ⟨hc, (isBig_iff _ _).mpr ⟨c1, c2, k2⟩⟩
    · rw [hload]
      unfold load
      rw [queue, num]
      dsimp only
      have hpos : 0 < (q.st.nBundles + 1) ^ weight P q.st b := Nat.pow_pos (by omega)
      have : ((rest.map (·.1)).map (fun c => (q.st.nBundles + 1) ^ weight P q'.st c)) =
          ((rest.map (·.1)).map (fun c => (q.st.nBundles + 1) ^ weight P q.st c)) := by
        apply List.map_congr_left
        intro c hc
        have hcb : c ≠ b := by rintro rfl; exact b5 hc
        have hlt : c < q.st.nBundles := (h.core.todoOk c (by simp [hc])).1
        have hw := h'.wait c (by rw [queue]; simpa using hc)
        obtain ⟨k1, k2⟩ := r.other h.core.shape hlt hcb hw.2
        dsimp only at k1
        have htot : P.total q'.st c = P.total q.st c := by
          apply hT
          · rw [k1]
          · intro e he
            exact (r.keep c e ⟨hlt, he⟩ hcb).2.1
        unfold weight
        rw [k1, htot]
      rw [this]
      omega

/-- The loop ends. -/
theorem processBundles_ends (hP : Setting P q0.st) (hT : LocalTotal P) (hr : Ready q0) : ∀ (n1 n2 n3 : Nat) (q : PSt), Inv P q0 q [] →
    splitsLeft q.st = n1 → bigs q.st = n2 → load P q.st = n3 →
    ∃ fuel, processBundles P fuel q ≠ .error .fuel ∧ ∀ more, processBundles P (fuel + more) q = processBundles P fuel q := by
  intro n1
  induction n1 using Nat.strongRecOn with
  | _ n1 ih1 =>
  intro n2
  induction n2 using Nat.strongRecOn with
  | _ n2 ih2 =>
  intro n3
  induction n3 using Nat.strongRecOn with
  | _ n3 ih3 =>
  intro q h e1 e2 e3
  cases hp : popMax q.st.queue with
  | none =>
    refine ⟨0, ?_, ?_⟩
    · unfold processBundles; rw [hp]; simp
    · intro more
      unfold processBundles; rw [hp]
  | some r =>
    obtain ⟨⟨b, prio, hint⟩, rest⟩ := r
    obtain ⟨h1, h2⟩ := h.pop hp
    have h3 := processBundle_spec hP h1 hint h2
    cases hb : processBundle P { q with st := { q.st with queue := rest } } b hint with
    | error e =>
      rw [hb] at h3
      refine ⟨1, ?_, ?_⟩
      · unfold processBundles
        rw [hp]
        dsimp only
        rw [hb]
        dsimp only
        intro hx
        exact h3.1 (Except.error.inj hx)
      · intro more
        rw [Nat.add_comm]
        unfold processBundles
        rw [hp]
        dsimp only
        rw [hb]
    | ok q' =>
      rw [hb] at h3
      have h4 := turn_less hT hr (popMax_perm hp) h1 h3.1 (h3.2 hT)
      have key : ∃ fuel, processBundles P fuel q' ≠ .error .fuel ∧ ∀ more, processBundles P (fuel + more) q' = processBundles P fuel q' := by
        rcases h4 with h4 | ⟨h4, h5⟩
        · exact ih1 _ (by omega) _ _ q' h3.1 rfl rfl rfl
        · rcases Nat.lt_or_eq_of_le h4 with h4 | h4
          · exact ih1 _ (by omega) _ _ q' h3.1 rfl rfl rfl
          · rcases h5 with h5 | ⟨h5, h6⟩
            · exact ih2 _ (by omega) _ q' h3.1 (by omega) rfl rfl
            · rcases Nat.lt_or_eq_of_le h5 with h5 | h5
              · exact ih2 _ (by omega) _ q' h3.1 (by omega) rfl rfl
              · exact ih3 _ (by omega) q' h3.1 (by omega) (by omega) rfl
      obtain ⟨fuel, k1, k2⟩ := key
      have hstep : ∀ n, processBundles P (n + 1) q = processBundles P n q' := by
        intro n
        conv => lhs; unfold processBundles
        rw [hp]
        dsimp only
        rw [hb]
      refine ⟨fuel + 1, by rw [hstep]; exact k1, ?_⟩
      intro more
      rw [show fuel + 1 + more = (fuel + more) + 1 by omega, hstep, hstep]
      exact k2 more

theorem allocate_ends (hP : Setting P q0.st) (hT : LocalTotal P) (hr : Ready q0) :
    ∃ fuel, allocate P fuel q0 ≠ .error .fuel ∧ ∀ more, allocate P (fuel + more) q0 = allocate P fuel q0 := by
  obtain ⟨st, h1, -, h2⟩ := hr.queued (P := P)
  obtain ⟨fuel, h3, h4⟩ := processBundles_ends hP hT hr _ _ _ _ h2 rfl rfl rfl
  refine ⟨fuel, ?_, ?_⟩
  · have h5 := processBundles_spec hP fuel h2
    unfold allocate
    rw [h1]
    dsimp only
    cases hb : processBundles P fuel { q0 with st := st } with
    | error e => rw [hb] at h3; exact h3
    | ok q1 =>
      rw [hb] at h5
      obtain ⟨q2, h6, -⟩ := h5.1.spilledAll h5.2
      have : (Except.ok q1 >>= fun q => trySpilledAll P q) = trySpilledAll P q1 := rfl
      rw [this, h6]
      simp
  · intro more
    unfold allocate
    rw [h1]
    dsimp only
    rw [h4 more]

end
end Regalloc.Ion
