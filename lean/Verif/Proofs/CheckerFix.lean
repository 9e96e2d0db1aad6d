import Verif.Proofs.CheckerMap

namespace Regalloc.Checker

/-- Block `b` is stable: the input of each successor claims no more than what
flows along the edge. -/
def FixAt (f : Func) (p : Prep) (bbIn : List CState) (b : Nat) : Prop :=
  ∀ S0, bbIn[b]? = some S0 → ∃ S, updates? S0 (p.insts b) = some S ∧
    ∀ t ∈ f.succs b, ∃ S' T, updates? S (p.edges b t) = some S' ∧ bbIn[t]? = some T ∧ Le T S'

/-- All instructions stay within the universes. -/
structure PrepOk (UA : List Allocation) (UV : List VReg) (f : Func) (p : Prep) : Prop where
  insts : ∀ b, b < f.numBlocks → ∀ ci ∈ p.insts b, ci.Within UA UV
  edges : ∀ b, b < f.numBlocks → ∀ t ∈ f.succs b, ∀ ci ∈ p.edges b t, ci.Within UA UV
  succs : ∀ b, b < f.numBlocks → ∀ t ∈ f.succs b, t < f.numBlocks

def phi (UA : List Allocation) (UV : List VReg) (bbIn : List CState) : Nat := (bbIn.map (mu UA UV)).sum

theorem phi_set (UA : List Allocation) (UV : List VReg) (l : List CState) (t : Nat) (x y : CState) (h : l[t]? = some x) :
    phi UA UV (l.set t y) + mu UA UV x = phi UA UV l + mu UA UV y := by
  induction l generalizing t with
  | nil => simp at h
  | cons a l ih =>
    cases t with
    | zero => simp at h; subst h; simp [phi]; omega
    | succ t =>
      simp at h
      have := ih t h
      simp [phi] at this ⊢
      omega

structure WInv (UA : List Allocation) (UV : List VReg) (f : Func) (bbIn : List CState) (queue : List Nat) : Prop where
  len : bbIn.length = f.numBlocks
  wf : ∀ (t : Nat) S, bbIn[t]? = some S → StWf UA UV S
  q : ∀ b ∈ queue, b < f.numBlocks
  root : ∀ x : Nat, x < f.numBlocks → (∀ b, b < f.numBlocks → x ∉ f.succs b) → bbIn[x]? = some .top

theorem fixAt_set {f : Func} {p : Prep} {bbIn : List CState} {c t : Nat} {cur new : CState}
    (h : FixAt f p bbIn c) (hc : c ≠ t) (hcur : bbIn[t]? = some cur) (hle : Le new cur) :
    FixAt f p (bbIn.set t new) c := by
  intro S0 hS0
  rw [List.getElem?_set_ne (fun h => hc h.symm)] at hS0
  obtain ⟨S, h1, h2⟩ := h S0 hS0
  refine ⟨S, h1, ?_⟩
  intro u hu
  obtain ⟨S', T, g1, g2, g3⟩ := h2 u hu
  by_cases hut : u = t
  · subst hut
    rw [g2] at hcur
    simp at hcur; subst hcur
    have : u < bbIn.length := by
      rcases Nat.lt_or_ge u bbIn.length with h | h
      · exact h
      · rw [List.getElem?_eq_none h] at g2; simp at g2
    exact ⟨S', new, g1, by simp [this], hle.trans g3⟩
  · exact ⟨S', T, g1, by rw [List.getElem?_set_ne (fun h => hut h.symm)]; exact g2, g3⟩

theorem visitSuccs_spec {UA : List Allocation} {UV : List VReg} {f : Func} {p : Prep} (P : PrepOk UA UV f p)
    {b : Nat} (hb : b < f.numBlocks) {S0 S : CState} (hS : updates? S0 (p.insts b) = some S) (hSw : StWf UA UV S)
    (ts done : List Nat) (hts : f.succs b = done ++ ts) (w : Work) (I : WInv UA UV f w.bbIn w.queue)
    (hfix : ∀ c, c < f.numBlocks → c ≠ b → c ∉ w.queue → FixAt f p w.bbIn c)
    (hbq : b ∉ w.queue → w.bbIn[b]? = some S0 ∧
      ∀ t ∈ done, ∃ S' T, updates? S (p.edges b t) = some S' ∧ w.bbIn[t]? = some T ∧ Le T S') :
    ∃ w', visitSuccs? p b S ts w = some w' ∧ WInv UA UV f w'.bbIn w'.queue ∧
      (∀ c, c < f.numBlocks → c ∉ w'.queue → FixAt f p w'.bbIn c) ∧
      phi UA UV w'.bbIn + w'.queue.length ≤ phi UA UV w.bbIn + w.queue.length := by
  induction ts generalizing done w with
  | nil =>
    refine ⟨w, rfl, I, ?_, Nat.le_refl _⟩
    intro c hc hcq
    by_cases hcb : c = b
    · subst hcb
      obtain ⟨h1, h2⟩ := hbq hcq
      intro S1 hS1
      rw [h1] at hS1
      simp at hS1; subst hS1
      refine ⟨S, hS, ?_⟩
      intro t ht
      exact h2 t (by rw [hts] at ht; simpa using ht)
    · exact hfix c hc hcb hcq
  | cons t ts ih =>
    have htm : t ∈ f.succs b := by rw [hts]; simp
    have htl := P.succs b hb t htm
    obtain ⟨S', e1, e2⟩ := updates_wf (p.edges b t) hSw (P.edges b hb t htm)
    have htlen : t < w.bbIn.length := by rw [I.len]; exact htl
    obtain ⟨cur, hcur⟩ : ∃ cur, w.bbIn[t]? = some cur := ⟨w.bbIn[t], by simp [htlen]⟩
    have hcw := I.wf t cur hcur
    unfold visitSuccs?
    rw [e1, hcur]
    simp only
    by_cases hsame : (S'.meet cur).same cur = true
    · rw [if_pos hsame]
      refine ih (done ++ [t]) (by simp [hts]) w I hfix ?_
      intro hq
      refine ⟨(hbq hq).1, ?_⟩
      intro u hu
      rcases List.mem_append.mp hu with hu | hu
      · exact (hbq hq).2 u hu
      · simp at hu; subst hu
        exact ⟨S', cur, e1, hcur, le_of_same_meet e2 hcw hsame⟩
    · rw [if_neg hsame]
      have hlt := mu_meet_lt e2 hcw (by simpa using hsame)
      have hphi := phi_set UA UV w.bbIn t cur (S'.meet cur) hcur
      have hqm : ∀ c, c ∉ (if t ∈ w.queue then w.queue else t :: w.queue) → c ≠ t ∧ c ∉ w.queue := by
        intro c hc
        split at hc
        · next h => exact ⟨fun e => hc (e ▸ h), hc⟩
        · rw [List.mem_cons, not_or] at hc; exact hc
      have I' : WInv UA UV f (w.bbIn.set t (S'.meet cur)) (if t ∈ w.queue then w.queue else t :: w.queue) := by
        refine ⟨by simpa using I.len, ?_, ?_, ?_⟩
        · intro u T hu
          by_cases hut : u = t
          · subst hut
            simp [htlen] at hu; subst hu
            exact e2.meet hcw
          · skip
            rw [List.getElem?_set_ne (fun h => hut h.symm)] at hu
            exact I.wf u T hu
        · intro c hc
          split at hc
          · exact I.q c hc
          · rcases List.mem_cons.mp hc with rfl | hc
            · exact htl
            · exact I.q c hc
        · intro x hx hno
          rw [List.getElem?_set_ne]
          · exact I.root x hx hno
          · rintro rfl; exact hno b hb htm
      have F' : ∀ c, c < f.numBlocks → c ≠ b → c ∉ (if t ∈ w.queue then w.queue else t :: w.queue) →
          FixAt f p (w.bbIn.set t (S'.meet cur)) c := by
        intro c hc hcb hcq
        obtain ⟨h1, h2⟩ := hqm c hcq
        exact fixAt_set (hfix c hc hcb h2) h1 hcur (le_meet_right e2 hcw)
      have B' : b ∉ (if t ∈ w.queue then w.queue else t :: w.queue) →
          (w.bbIn.set t (S'.meet cur))[b]? = some S0 ∧
          ∀ u ∈ done ++ [t], ∃ S1 T, updates? S (p.edges b u) = some S1 ∧
            (w.bbIn.set t (S'.meet cur))[u]? = some T ∧ Le T S1 := by
        intro hq
        obtain ⟨h1, h2⟩ := hqm b hq
        obtain ⟨h3, h4⟩ := hbq h2
        refine ⟨by rw [List.getElem?_set_ne (fun h => h1 h.symm)]; exact h3, ?_⟩
        intro u hu
        rcases List.mem_append.mp hu with hu | hu
        · by_cases hut : u = t
          · subst hut
            exact ⟨S', S'.meet cur, e1, by simp [htlen], le_meet_left e2 hcw⟩
          · obtain ⟨S1, T, k1, k2, k3⟩ := h4 u hu
            exact ⟨S1, T, k1, by rw [List.getElem?_set_ne (fun h => hut h.symm)]; exact k2, k3⟩
        · simp at hu; subst hu
          exact ⟨S', S'.meet cur, e1, by simp [htlen], le_meet_left e2 hcw⟩
      obtain ⟨w', g1, g2, g3, g4⟩ := ih (done ++ [t]) (by simp [hts])
        ⟨w.bbIn.set t (S'.meet cur), if t ∈ w.queue then w.queue else t :: w.queue⟩ I' F' B'
      refine ⟨w', g1, g2, g3, Nat.le_trans g4 ?_⟩
      simp only
      split <;> simp <;> omega

theorem analyzeLoop_spec {UA : List Allocation} {UV : List VReg} {f : Func} {p : Prep} (P : PrepOk UA UV f p)
    (n : Nat) (bbIn : List CState) (queue : List Nat) (I : WInv UA UV f bbIn queue)
    (hfix : ∀ c, c < f.numBlocks → c ∉ queue → FixAt f p bbIn c)
    (hn : phi UA UV bbIn + queue.length ≤ n) :
    ∃ r, analyzeLoop f p n ⟨bbIn, queue⟩ = some r ∧ WInv UA UV f r [] ∧
      ∀ c, c < f.numBlocks → FixAt f p r c := by
  induction n generalizing bbIn queue with
  | zero =>
    have : queue = [] := List.eq_nil_of_length_eq_zero (by omega)
    subst this
    exact ⟨bbIn, rfl, I, fun c hc => hfix c hc (by simp)⟩
  | succ n ih =>
    cases queue with
    | nil => exact ⟨bbIn, rfl, I, fun c hc => hfix c hc (by simp)⟩
    | cons b q =>
      have hb := I.q b (by simp)
      have hbl : b < bbIn.length := by rw [I.len]; exact hb
      have hS0 : bbIn[b]? = some bbIn[b] := by simp [hbl]
      obtain ⟨S, e1, e2⟩ := updates_wf (p.insts b) (I.wf b _ hS0) (P.insts b hb)
      obtain ⟨w', g1, g2, g3, g4⟩ := visitSuccs_spec P hb e1 e2 (f.succs b) [] rfl ⟨bbIn, q⟩
        ⟨I.len, I.wf, fun c hc => I.q c (List.mem_cons_of_mem _ hc), I.root⟩
        (fun c hc hcb hcq => hfix c hc (by simp only [List.mem_cons, not_or]; exact ⟨hcb, hcq⟩))
        (fun _ => ⟨hS0, by simp⟩)
      unfold analyzeLoop visit?
      simp only [hS0, e1, g1]
      refine ih w'.bbIn w'.queue g2 g3 ?_
      simp at g4 hn
      omega

theorem allInsts_ok (f : Func) (p : Prep) (hs : ∀ b, b < f.numBlocks → ∀ t ∈ f.succs b, t < f.numBlocks) :
    PrepOk ((allInsts f p).flatMap CInst.locs) ((allInsts f p).flatMap CInst.labels) f p := by
  have key : ∀ ci ∈ allInsts f p,
      ci.Within ((allInsts f p).flatMap CInst.locs) ((allInsts f p).flatMap CInst.labels) := by
    intro ci hci
    exact ⟨fun a ha => List.mem_flatMap.mpr ⟨ci, hci, ha⟩, fun v hv => List.mem_flatMap.mpr ⟨ci, hci, hv⟩⟩
  refine ⟨?_, ?_, hs⟩
  · intro b hb ci hci
    exact key ci (List.mem_flatMap.mpr ⟨b, by simpa using hb, by simp [hci]⟩)
  · intro b hb t ht ci hci
    refine key ci (List.mem_flatMap.mpr ⟨b, by simpa using hb, ?_⟩)
    rw [List.mem_append]
    exact .inr (List.mem_flatMap.mpr ⟨t, ht, hci⟩)

theorem analyze_spec (f : Func) (p : Prep) (hs : ∀ b, b < f.numBlocks → ∀ t ∈ f.succs b, t < f.numBlocks) :
    ∃ UA UV r, PrepOk UA UV f p ∧ analyze? f p = some r ∧ WInv UA UV f r [] ∧
      ∀ c, c < f.numBlocks → FixAt f p r c := by
  have P := allInsts_ok f p hs
  obtain ⟨r, h1, h2, h3⟩ := analyzeLoop_spec P (fuel f p) (List.replicate f.numBlocks .top) (List.range f.numBlocks)
    ⟨by simp, by
      intro t S h
      rw [List.getElem?_replicate] at h
      split at h
      · simp at h; subst h; trivial
      · simp at h,
     by simp, by intro x hx _; simp [hx]⟩ (by intro c hc h; simp at h; omega) (by
      simp only [phi, List.map_replicate, List.sum_replicate_nat, mu, List.length_range, fuel]
      generalize ((allInsts f p).flatMap CInst.locs).length * _ = h
      simp only [Nat.mul_add]
      omega)
  exact ⟨_, _, r, P, h1, h2, h3⟩

end Regalloc.Checker
