import Verif.Proofs.FastSafeRun

/-
The single-pass allocator finds enough registers: counting the registers that are taken.
-/
namespace Regalloc
namespace Fast

/-- The result is not `TooManyLiveRegs`, and meets `Q` if it is a value. -/
def Fit {α : Type} (r : R α) (Q : α → Prop) : Prop := r ≠ .error .tooMany ∧ ∀ a, r = .ok a → Q a

theorem Fit.ok {α : Type} {a : α} {Q : α → Prop} (h : Q a) : Fit (.ok a : R α) Q :=
  ⟨by simp, fun b e => by cases e; exact h⟩

theorem Fit.panic {α : Type} {Q : α → Prop} : Fit (.error .panic : R α) Q := ⟨by simp, fun b e => by cases e⟩

theorem Fit.err {α β : Type} {r : R α} {Q : α → Prop} {Q' : β → Prop} {x : FErr} (h : Fit r Q) (e : r = .error x) :
    Fit (.error x : R β) Q' := by
  cases x with
  | panic => exact Fit.panic
  | tooMany => exact absurd e h.1

theorem Fit.mono {α : Type} {r : R α} {Q Q' : α → Prop} (h : Fit r Q) (hq : ∀ a, Q a → Q' a) : Fit r Q' :=
  ⟨h.1, fun a e => hq a (h.2 a e)⟩

theorem Fit.cons {α β : Type} {g : α → β → R α} {x : β} {l : List β} {a : α} {Q Q' : α → Prop} (h : Fit (g a x) Q)
    (hl : ∀ a', Q a' → Fit (l.foldlM g a') Q') : Fit ((x :: l).foldlM g a) Q' := by
  rw [List.foldlM_cons]
  dsimp only [bind, Except.bind]
  split
  · exact h.err ‹_›
  · exact hl _ (h.2 _ ‹_›)

theorem Fit.foldlM {α β : Type} {P : α → Prop} {g : α → β → R α} (l : List β) (hg : ∀ x ∈ l, ∀ a, P a → Fit (g a x) P) :
    ∀ {a : α}, P a → Fit (l.foldlM g a) P := by
  induction l with
  | nil => intro a h; exact Fit.ok h
  | cons x l ih =>
    intro a h
    exact Fit.cons (hg x (by simp) a h) (fun a' h' => ih (fun y hy => hg y (List.mem_cons_of_mem _ hy)) h')

/-- A class that occurs. -/
def UsedC (cx : Cx) (C : Nat → VReg) (c : RegClass) : Prop := ∃ v, v < cx.f.numVregs ∧ vcls (C v) = c

theorem Known.used {cx : Cx} {C : Nat → VReg} {v : VReg} (h : Known cx C v) : UsedC cx C (vcls v) := ⟨v.vreg, h.2, by rw [← h.1]⟩

/-- The registers outside of `F` that are not free throughout. -/
def miss (cx : Cx) (F : PReg → Bool) (e l : PRegSet) (c : RegClass) : Nat :=
  (cx.regs c).toList.countP (fun p => !F p && !(e.contains p && l.contains p))

/-- The registers outside of `F`. -/
def pool (cx : Cx) (F : PReg → Bool) (c : RegClass) : Nat := (cx.regs c).toList.countP (fun p => !F p)

structure Rm (cx : Cx) (C : Nat → VReg) (F : PReg → Bool) (RR : Nat → Prop) (k : Nat) (s : FS) : Prop where
  room : ∀ c, miss cx F s.availE s.availL c + (if s.scratch c = none then 1 else 0) ≤ k + scratchNeed cx.env c
  lru : LruOk cx s.lrus
  inK : ∀ p x, s.inPreg p = some x → UsedC cx C (vcls x)
  re : ∀ j n, s.reused j = some n → RR j

/-- There are enough registers for `k` to be taken. -/
def Enough (cx : Cx) (C : Nat → VReg) (F : PReg → Bool) (k : Nat) : Prop := ∀ c, UsedC cx C c → k + scratchNeed cx.env c ≤ pool cx F c

section
variable {cx : Cx} {C : Nat → VReg} {F : PReg → Bool} {RR : Nat → Prop} {k : Nat} {s s' : FS}

theorem Enough.mono (h : Enough cx C F k) {k' : Nat} (hk : k' ≤ k) : Enough cx C F k' := fun c hc => by
  have := h c hc
  omega

theorem Rm.mono (h : Rm cx C F RR k s) {k' : Nat} (hk : k ≤ k') : Rm cx C F RR k' s :=
  { h with room := fun c => by have := h.room c; omega }

theorem Rm.same (h : Rm cx C F RR k s) (h1 : s'.lrus = s.lrus) (h2 : s'.scratch = s.scratch) (h3 : s'.availE = s.availE) (h4 : s'.availL = s.availL)
    (h5 : s'.inPreg = s.inPreg) (h6 : s'.reused = s.reused) : Rm cx C F RR k s' :=
  ⟨by rw [h2, h3, h4]; exact h.room, by rw [h1]; exact h.lru, by rw [h5]; exact h.inK, by rw [h6]; exact h.re⟩

theorem countP_le_add {α : Type} {P Q : α → Bool} {a : α} : ∀ {l : List α}, l.Nodup → (∀ x ∈ l, P x = true → Q x = true ∨ x = a) →
    l.countP P ≤ l.countP Q + 1
  | [], _, _ => by simp
  | x :: l, hn, h => by
    rw [List.nodup_cons] at hn
    have ih := countP_le_add hn.2 (fun y hy => h y (List.mem_cons_of_mem _ hy))
    rw [List.countP_cons, List.countP_cons]
    by_cases hx : P x = true
    · rcases h x (by simp) hx with hq | rfl
      · rw [if_pos hx, if_pos hq]; omega
      · have h2 : l.countP P ≤ l.countP Q := by
          apply List.countP_mono_left
          intro y hy hp
          rcases h y (List.mem_cons_of_mem _ hy) hp with h' | rfl
          · exact h'
          · exact absurd hy hn.1
        rw [if_pos hx]; omega
    · rw [if_neg hx]; omega

theorem toList_nodup (s : PRegSet) : s.toList.Nodup := (PRegSet.toList_spec s).1.imp (fun h e => by rw [e] at h; omega)

/-- Taking a register out. -/
theorem miss_remove {e l e' l' : PRegSet} {p : PReg} (he : ∀ q, q ≠ p → e.contains q = true → e'.contains q = true)
    (hl : ∀ q, q ≠ p → l.contains q = true → l'.contains q = true) (c : RegClass) : miss cx F e' l' c ≤ miss cx F e l c + 1 := by
  refine countP_le_add (a := p) (toList_nodup _) ?_
  intro q _ hq
  by_cases e1 : q = p
  · exact .inr e1
  · left
    simp only [Bool.and_eq_true, Bool.not_eq_true', Bool.and_eq_false_iff] at hq ⊢
    refine ⟨hq.1, ?_⟩
    rcases hq.2 with h | h
    · left
      cases h' : e.contains q with
      | false => rfl
      | true => rw [he q e1 h'] at h; cases h
    · right
      cases h' : l.contains q with
      | false => rfl
      | true => rw [hl q e1 h'] at h; cases h

/-- Taking a register out that does not count. -/
theorem miss_remove' {e l e' l' : PRegSet} {p : PReg} (he : ∀ q, q ≠ p → e.contains q = true → e'.contains q = true)
    (hl : ∀ q, q ≠ p → l.contains q = true → l'.contains q = true) (c : RegClass) (hp : F p = true ∨ (cx.regs c).contains p = false) :
    miss cx F e' l' c ≤ miss cx F e l c := by
  apply List.countP_mono_left
  intro q hqm hq
  have e1 : q ≠ p := by
    rintro rfl
    rcases hp with hp | hp
    · rw [hp] at hq; simp at hq
    · rw [(mem_toList _ _).mp hqm] at hp; cases hp
  simp only [Bool.and_eq_true, Bool.not_eq_true', Bool.and_eq_false_iff] at hq ⊢
  refine ⟨hq.1, ?_⟩
  rcases hq.2 with h | h
  · left
    cases h' : e.contains q with
    | false => rfl
    | true => rw [he q e1 h'] at h; cases h
  · right
    cases h' : l.contains q with
    | false => rfl
    | true => rw [hl q e1 h'] at h; cases h

/-- If not all are taken, one is free. -/
theorem free_exists {e l : PRegSet} {c : RegClass} (h : miss cx F e l c < pool cx F c) :
    ∃ p, (cx.regs c).contains p = true ∧ e.contains p = true ∧ l.contains p = true := by
  apply Classical.byContradiction
  intro hn
  have : pool cx F c ≤ miss cx F e l c := by
    apply List.countP_mono_left
    intro q hq hf
    simp only [Bool.and_eq_true, Bool.not_eq_true', Bool.and_eq_false_iff] at hf ⊢
    refine ⟨by simpa using hf, ?_⟩
    cases h1 : e.contains q with
    | false => exact .inl rfl
    | true =>
      cases h2 : l.contains q with
      | false => exact .inr rfl
      | true => exact absurd ⟨q, (mem_toList _ _).mp hq, h1, h2⟩ hn
  omega

theorem last_fit {lrus : RegClass → Lru} (h : LruOk cx lrus) {c : RegClass} {m : PRegSet} (he : EnvOk cx)
    (hp : ∃ p, (cx.regs c).contains p = true ∧ m.contains p = true) : (lrus c).last? m ≠ some none := by
  obtain ⟨p, h1, h2⟩ := hp
  obtain ⟨o, I, hcl, _, h4⟩ := h c
  have ho := h4 p h1
  unfold Lru.last?
  rw [Lru.lastSatisfying_ok I (List.ne_nil_of_mem ho), hcl]
  intro e
  have e := Option.some.inj e
  rw [List.find?_eq_none] at e
  have := e (PReg.new p.hwEnc c) (List.mem_map.mpr ⟨p.hwEnc, List.mem_reverse.mpr ho, rfl⟩)
  rw [Lru.new_hwEnc (he.class_ok c p ((regs_iff cx c p).mp h1))] at this
  exact this h2

/-! ### Moves and evictions -/

theorem allocstack_fit (cx : Cx) (n : Nat) (c : RegClass) : allocstack cx n c ≠ .error .tooMany := by
  unfold allocstack
  split
  · simp
  · split <;> simp

theorem getSpillslot_fit (cx : Cx) (s : FS) (v : VReg) : Fit (getSpillslot cx s v) (fun r => r.2 = { s with slot := r.2.slot, numSlots := r.2.numSlots }) := by
  unfold getSpillslot
  split
  · exact Fit.ok rfl
  · split
    · rename_i e h
      cases e with
      | panic => exact Fit.panic
      | tooMany => exact absurd h (allocstack_fit _ _ _)
    · exact Fit.ok rfl

theorem toSlot_fit (cx : Cx) (s : FS) (v : VReg) : Fit (toSlot cx s v)
    (fun r => r.2 = { s with slot := r.2.slot, numSlots := r.2.numSlots, alloc := r.2.alloc }) := by
  unfold toSlot
  have h := getSpillslot_fit cx s v
  split
  · exact h.err ‹_›
  · rename_i n t e
    have k := h.2 _ e
    dsimp only at k
    refine Fit.ok ?_
    dsimp only
    rw [k]

theorem ensureScratch_fit (he : EnvOk cx) (h : Rm cx C F RR k s) (hE : Enough cx C F k) {i : Nat} {c : RegClass} {pos : InstPosition}
    (hc : UsedC cx C c) : Fit (ensureScratch cx s i c pos) (fun s' => Rm cx C F RR k s' ∧ s'.inPreg = s.inPreg) := by
  unfold ensureScratch
  split
  · exact Fit.ok ⟨h, rfl⟩
  · rename_i hn
    have key : Fit (allocScratch cx s i c pos) (fun s' => Rm cx C F RR k s' ∧ s'.inPreg = s.inPreg) := by
      unfold allocScratch
      split
      · exact Fit.panic
      · rename_i hl
        refine absurd hl (last_fit h.lru he ?_)
        have hr := h.room c
        rw [if_pos hn] at hr
        obtain ⟨p, h1, h2, h3⟩ := free_exists (cx := cx) (F := F) (e := s.availE) (l := s.availL) (c := c) (by have := hE c hc; omega)
        exact ⟨p, h1, (cont_inter _ _ _).mpr ⟨h3, h2⟩⟩
      · rename_i p hp
        have hev : Fit (if (s.inPreg p).isSome then evictPlain cx s i p pos else .ok s) (fun s' => Rm cx C F RR k s' ∧ s'.inPreg = s.inPreg ∧ s'.scratch = s.scratch) := by
          split
          · unfold evictPlain
            split
            · exact Fit.panic
            · rename_i x hx
              have ht := toSlot_fit cx s x
              split
              · exact ht.err ‹_›
              · rename_i n s1 h1
                have k1 := ht.2 _ h1
                dsimp only at k1
                split
                · exact Fit.panic
                · exact Fit.ok ⟨h.same (by rw [k1]; rfl) (by rw [k1]; rfl) (by rw [k1]; rfl) (by rw [k1]; rfl) (by rw [k1]; rfl) (by rw [k1]; rfl), by rw [k1]; rfl, by rw [k1]; rfl⟩
          · exact Fit.ok ⟨h, rfl, rfl⟩
        split
        · exact hev.err ‹_›
        · rename_i s1 h1
          obtain ⟨k1, k2, k3⟩ := hev.2 _ h1
          refine Fit.ok ⟨⟨?_, k1.lru, k1.inK, k1.re⟩, k2⟩
          intro c'
          show miss cx F (s1.availE.remove p) (s1.availL.remove p) c' + (if (set1 s1.scratch c (some p)) c' = none then 1 else 0) ≤ _
          have hr := k1.room c'
          by_cases e : c' = c
          · subst e
            rw [set1_same, if_neg (by simp)]
            rw [k3, if_pos hn] at hr
            have := miss_remove (cx := cx) (F := F) (p := p) (e := s1.availE) (l := s1.availL) (e' := s1.availE.remove p) (l' := s1.availL.remove p)
              (fun q hq h => (cont_remove _ _ _).mpr ⟨hq, h⟩) (fun q hq h => (cont_remove _ _ _).mpr ⟨hq, h⟩) c'
            omega
          · rw [set1_ne _ _ e]
            have hpc : (cx.regs c').contains p = false := by
              rw [← Bool.not_eq_true]
              intro hx
              exact e ((he.pcls_reg hx).symm.trans (he.pcls_reg (last_mem h.lru hp).1))
            have := miss_remove' (cx := cx) (F := F) (p := p) (e := s1.availE) (l := s1.availL) (e' := s1.availE.remove p) (l' := s1.availL.remove p)
              (fun q hq h => (cont_remove _ _ _).mpr ⟨hq, h⟩) (fun q hq h => (cont_remove _ _ _).mpr ⟨hq, h⟩) c' (.inr hpc)
            omega
    split
    · exact key.err ‹_›
    · rename_i s1 h1
      obtain ⟨k1, k2⟩ := key.2 _ h1
      exact Fit.ok ⟨k1.same rfl rfl rfl rfl rfl rfl, k2⟩

theorem addMove_fit (he : EnvOk cx) (h : Rm cx C F RR k s) (hE : Enough cx C F k) {i : Nat} {src dst : Allocation} {c : RegClass} {pos : InstPosition}
    (hc : UsedC cx C c) : Fit (addMove cx s i src dst c pos) (fun s' => Rm cx C F RR k s' ∧ s'.inPreg = s.inPreg) := by
  unfold addMove
  split
  · have hs := ensureScratch_fit (i := i) (pos := pos) he h hE hc
    split
    · exact hs.err ‹_›
    · rename_i s1 h1
      obtain ⟨k1, k2⟩ := hs.2 _ h1
      split
      · exact Fit.panic
      · exact Fit.ok ⟨k1.same rfl rfl rfl rfl rfl rfl, k2⟩
  · exact Fit.ok ⟨h.same rfl rfl rfl rfl rfl rfl, rfl⟩

theorem evict_fit (he : EnvOk cx) (h : Rm cx C F RR k s) (hE : Enough cx C F k) {i : Nat} {p : PReg} {pos : InstPosition} :
    Fit (evict cx s i p pos) (fun s' => Rm cx C F RR k s' ∧ s'.inPreg = s.inPreg) := by
  unfold evict
  split
  · exact Fit.panic
  · rename_i v hv
    have ht := toSlot_fit cx s v
    split
    · exact ht.err ‹_›
    · rename_i n s1 h1
      have k1 := ht.2 _ h1
      dsimp only at k1
      have k2 : Rm cx C F RR k s1 := h.same (by rw [k1]) (by rw [k1]) (by rw [k1]) (by rw [k1]) (by rw [k1]) (by rw [k1])
      exact (addMove_fit he k2 hE (h.inK p v hv)).mono (fun t ht => ⟨ht.1, ht.2.trans (by rw [k1])⟩)

theorem Rm.clearIn (h : Rm cx C F RR k s) (p : PReg) : Rm cx C F RR k { s with inPreg := set1 s.inPreg p none } :=
  ⟨h.room, h.lru, fun r x hx => by
    dsimp only at hx
    by_cases e : r = p
    · subst e; rw [set1_same] at hx; cases hx
    · rw [set1_ne _ _ e] at hx; exact h.inK r x hx, h.re⟩

theorem Rm.setIn (h : Rm cx C F RR k s) (a : Allocation) (y : Option VReg) (hy : ∀ x, y = some x → UsedC cx C (vcls x)) : Rm cx C F RR k (s.setIn a y) := by
  unfold FS.setIn
  split
  · rename_i p hp
    refine ⟨h.room, h.lru, fun r x hx => ?_, h.re⟩
    dsimp only at hx
    by_cases e : r = p
    · subst e; rw [set1_same] at hx; exact hy x hx
    · rw [set1_ne _ _ e] at hx; exact h.inK r x hx
  · exact h

theorem poke_fit (h : Rm cx C F RR k s) {c : RegClass} {p : PReg} (hp : (cx.regs c).contains p = true) :
    Fit (poke s c p) (fun s' => Rm cx C F RR k s' ∧ s'.availE = s.availE ∧ s'.availL = s.availL) := by
  unfold poke
  split
  · exact Fit.panic
  · rename_i l hl
    exact Fit.ok ⟨{ h with lru := lruOk_poke h.lru hp hl }, rfl, rfl⟩

/-! ### Operands -/

/-- A register is taken out in some phases. -/
def Loses (p : PReg) (s s' : FS) : Prop :=
  s' = { s with availE := s'.availE, availL := s'.availL } ∧ (∀ q, q ≠ p → s.availE.contains q = true → s'.availE.contains q = true) ∧
    ∀ q, q ≠ p → s.availL.contains q = true → s'.availL.contains q = true

theorem Loses.unavail (s : FS) (pos : OperandPos) (p : PReg) : Loses p s (s.unavail pos p) := by
  cases pos
  · exact ⟨rfl, fun q hq h => (cont_remove _ _ _).mpr ⟨hq, h⟩, fun q _ h => h⟩
  · exact ⟨rfl, fun q _ h => h, fun q hq h => (cont_remove _ _ _).mpr ⟨hq, h⟩⟩

theorem Loses.trans {p : PReg} {s1 s2 s3 : FS} (h : Loses p s1 s2) (g : Loses p s2 s3) : Loses p s1 s3 :=
  ⟨by rw [g.1, h.1], fun q hq hx => g.2.1 q hq (h.2.1 q hq hx), fun q hq hx => g.2.2 q hq (h.2.2 q hq hx)⟩

theorem Loses.occupy (s : FS) (o : Op) (p : PReg) : Loses p s (occupy s o p) := by
  unfold Fast.occupy
  dsimp only
  split
  · exact (Loses.unavail _ _ _).trans (Loses.unavail _ _ _)
  · exact (Loses.unavail _ _ _).trans (Loses.unavail _ _ _)
  · split
    · exact (Loses.unavail _ _ _).trans (Loses.unavail _ _ _)
    · exact Loses.unavail _ _ _
  · exact Loses.unavail _ _ _

theorem Rm.loses (h : Rm cx C F RR k s) {p : PReg} (hl : Loses p s s') : Rm cx C F RR (k + 1) s' := by
  obtain ⟨h1, h2, h3⟩ := hl
  refine ⟨fun c => ?_, by rw [h1]; exact h.lru, by rw [h1]; exact h.inK, by rw [h1]; exact h.re⟩
  have := h.room c
  have e : s'.scratch = s.scratch := by rw [h1]
  rw [e]
  have := miss_remove (cx := cx) (F := F) h2 h3 c
  omega

theorem Rm.loses' (h : Rm cx C F RR k s) {p : PReg} (hl : Loses p s s') (hp : F p = true ∨ ∀ c, (cx.regs c).contains p = false) : Rm cx C F RR k s' := by
  obtain ⟨h1, h2, h3⟩ := hl
  refine ⟨fun c => ?_, by rw [h1]; exact h.lru, by rw [h1]; exact h.inK, by rw [h1]; exact h.re⟩
  have := h.room c
  have e : s'.scratch = s.scratch := by rw [h1]
  rw [e]
  have := miss_remove' (cx := cx) (F := F) h2 h3 c (hp.imp id (fun h => h c))
  omega

theorem select_fit (he : EnvOk cx) (h : Rm cx C F RR k s) (hE : Enough cx C F (k + 1)) {o : Op} (ho : UsedC cx C (vcls o.vreg)) :
    Fit (select s o) (fun p => (cx.regs (vcls o.vreg)).contains p = true) := by
  have hr := h.room (vcls o.vreg)
  have h0 := hE _ ho
  obtain ⟨p, h1, h2, h3⟩ := free_exists (cx := cx) (F := F) (e := s.availE) (l := s.availL) (c := vcls o.vreg) (by omega)
  have hd : (drawFrom s o).contains p = true := by
    unfold drawFrom
    split
    · exact (cont_inter _ _ _).mpr ⟨h3, h2⟩
    · exact (cont_inter _ _ _).mpr ⟨h3, h2⟩
    · unfold FS.avail
      split
      · exact h2
      · exact h3
  unfold select
  dsimp only
  split
  · rename_i hem
    have := (C06_is_empty _ _).mp hem p (he.class_ok _ p ((regs_iff cx _ p).mp h1))
    rw [hd] at this
    cases this
  · split
    · exact Fit.panic
    · rename_i hl
      exact absurd hl (last_fit h.lru he ⟨p, h1, hd⟩)
    · rename_i r hl
      exact Fit.ok (last_mem h.lru hl).1

theorem allocReg_fit (he : EnvOk cx) (h : Rm cx C F RR k s) (hE : Enough cx C F (k + 1)) {i : Nat} {o : Op} (ho : UsedC cx C (vcls o.vreg)) :
    Fit (allocReg cx s i o) (fun r => Rm cx C F RR (k + 1) r.2) := by
  unfold allocReg
  have hs := select_fit he h hE ho
  split
  · exact hs.err ‹_›
  · rename_i p hp
    have hreg := hs.2 _ hp
    unfold takeReg
    have hev : Fit (if (s.inPreg p).isSome then evict cx s i p .After else .ok s) (fun s' => Rm cx C F RR k s') := by
      split
      · exact (evict_fit he h (hE.mono (by omega))).mono (fun t ht => ht.1)
      · exact Fit.ok h
    split
    · exact hev.err ‹_›
    · rename_i s1 h1
      have hpk := poke_fit (hev.2 _ h1) hreg
      split
      · exact hpk.err ‹_›
      · rename_i s2 h2
        exact Fit.ok ((hpk.2 _ h2).1.loses (Loses.occupy _ _ _))

theorem slotAlloc_fit (h : Rm cx C F RR k s) (v : VReg) : Fit (slotAlloc cx s v) (fun r => Rm cx C F RR k r.2) := by
  unfold slotAlloc
  have hg := getSpillslot_fit cx s v
  split
  · exact hg.err ‹_›
  · rename_i n t e
    have k1 := hg.2 _ e
    dsimp only at k1
    exact Fit.ok (h.same (by rw [k1]) (by rw [k1]) (by rw [k1]) (by rw [k1]) (by rw [k1]) (by rw [k1]))

/-- What an operand takes: nothing if it is fixed or on the stack. -/
def cost (b : Bool) : Nat := if b then 1 else 0

/-- The operand counts, or it is on the stack or fixed to a register that does not count. -/
def Counted (F : PReg → Bool) (b : Bool) (o : Op) : Prop := b = true ∨ o.constraint = .Stack ∨ ∃ p, o.constraint = .FixedReg p ∧ F p = true

theorem chooseAlloc_fit (he : EnvOk cx) (h : Rm cx C F RR k s) {b : Bool} (hE : Enough cx C F (k + cost b)) {i : Nat} {o : Op} (ho : UsedC cx C (vcls o.vreg))
    (hb : Counted F b o) : Fit (chooseAlloc cx s i o) (fun r => Rm cx C F RR (k + cost b) r.2) := by
  have up : ∀ {t : FS}, Rm cx C F RR k t → Rm cx C F RR (k + cost b) t := fun ht => ht.mono (by omega)
  unfold chooseAlloc
  split
  · rename_i hc
    have hb' : b = true := by
      rcases hb with hb | hb | ⟨p, hb, _⟩
      · exact hb
      · rw [hc] at hb; cases hb
      · rw [hc] at hb; cases hb
    subst hb'
    split
    · exact (slotAlloc_fit h _).mono (fun _ => up)
    · have ha := allocReg_fit (i := i) he h hE ho
      split
      · rename_i e
        exact Fit.ok (ha.2 _ e)
      · exact (slotAlloc_fit h _).mono (fun _ => up)
      · exact Fit.panic
  · rename_i hc
    have hb' : b = true := by
      rcases hb with hb | hb | ⟨p, hb, _⟩
      · exact hb
      · rw [hc] at hb; cases hb
      · rw [hc] at hb; cases hb
    subst hb'
    have ha := allocReg_fit (i := i) he h hE ho
    split
    · exact ha.err ‹_›
    · rename_i a t e
      have := ha.2 _ e
      exact Fit.ok (this.same rfl rfl rfl rfl rfl rfl)
  · exact Fit.ok (up h)
  · exact Fit.panic
  · exact (slotAlloc_fit h _).mono (fun _ => up)
  · exact Fit.panic

theorem keepAlloc_fit (he : EnvOk cx) (h : Rm cx C F RR k s) {b : Bool} {i idx : Nat} {o : Op}
    (hb : b = true ∨ ∀ p, (s.alloc o.vreg.vreg).asReg = some p → F p = true ∨ ∀ c, (cx.regs c).contains p = false) :
    Fit (keepAlloc cx s i o idx) (fun s' => Rm cx C F RR (k + cost b) s') := by
  unfold keepAlloc
  dsimp only
  have h1 : Rm cx C F RR k (if o.constraint = .Reg then
      { s.setAllocs i idx (s.alloc o.vreg.vreg) with numAny := bump (s.setAllocs i idx (s.alloc o.vreg.vreg)).numAny (epos o) (vcls o.vreg) (-1) }
      else s.setAllocs i idx (s.alloc o.vreg.vreg)) := by
    split
    · exact h.same rfl rfl rfl rfl rfl rfl
    · exact h.same rfl rfl rfl rfl rfl rfl
  generalize (if o.constraint = .Reg then
      { s.setAllocs i idx (s.alloc o.vreg.vreg) with numAny := bump (s.setAllocs i idx (s.alloc o.vreg.vreg)).numAny (epos o) (vcls o.vreg) (-1) }
      else s.setAllocs i idx (s.alloc o.vreg.vreg)) = s1 at h1 ⊢
  split
  · exact Fit.ok (h1.mono (by omega))
  · rename_i p hp
    have hpk : Fit (if cx.allocatable.contains p then poke s1 (pcls p) p else .ok s1) (fun s' => Rm cx C F RR k s') := by
      split
      · rename_i ha
        exact (poke_fit h1 (he.allocatable_cls ha)).mono (fun t ht => ht.1)
      · exact Fit.ok h1
    split
    · exact hpk.err ‹_›
    · rename_i s2 h2
      have k2 := hpk.2 _ h2
      have fin : ∀ t, Loses p s2 t → Rm cx C F RR (k + cost b) t := by
        intro t ht
        rcases hb with rfl | hb
        · exact k2.loses ht
        · exact (k2.loses' ht (hb p hp)).mono (by omega)
      split
      · exact Fit.ok (fin _ ((Loses.unavail _ _ _).trans (Loses.unavail _ _ _)))
      · exact Fit.ok (fin _ ((Loses.unavail _ _ _).trans (Loses.unavail _ _ _)))
      · exact Fit.ok (fin _ (Loses.unavail _ _ _))

theorem withinConstraint_fit (cx : Cx) (s : FS) (i : Nat) (o : Op) : withinConstraint cx s i o ≠ .error .tooMany := by
  unfold withinConstraint
  dsimp only
  split
  · split
    · split <;> simp
    · simp
  · split
    · simp
    · split <;> simp
  · simp
  · simp
  · simp
  · simp

theorem processOperand_fit (he : EnvOk cx) (h : Rm cx C F RR k s) {b : Bool} (hE : Enough cx C F (k + cost b)) {i idx : Nat} {o : Op}
    (ho : o.asFixedNonallocatable = none → UsedC cx C (vcls o.vreg)) (hb : Counted F b o) :
    Fit (processOperand cx s i o idx) (fun s' => Rm cx C F RR (k + cost b) s') := by
  unfold processOperand
  split
  · exact Fit.ok (Rm.same (h.mono (Nat.le_add_right _ _)) rfl rfl rfl rfl rfl rfl)
  · rename_i hna
    have hu := ho hna
    split
    · rename_i e hw
      cases e with
      | panic => exact Fit.panic
      | tooMany => exact absurd hw (withinConstraint_fit _ _ _ _)
    · rename_i hw
      refine keepAlloc_fit he h ?_
      rcases hb with hb | hb | ⟨p, hb, hf⟩
      · exact .inl hb
      · right
        intro p hp
        right
        intro c
        unfold withinConstraint at hw
        rw [hb] at hw
        have hw := Except.ok.inj hw
        rw [← Bool.not_eq_true]
        intro hx
        have hs := he.isStack_reg hx
        rw [isStack_reg] at hs
        unfold Cx.isStack at hw
        rw [hp] at hw
        dsimp only at hw
        rw [hs, Bool.or_false] at hw
        unfold Allocation.isStack at hw
        unfold Allocation.asReg at hp
        split at hp
        · rename_i hk
          rw [hk] at hw
          cases hw
        · cases hp
      · right
        intro p' hp'
        left
        unfold withinConstraint at hw
        rw [hb] at hw
        have hw := Except.ok.inj hw
        rw [hp'] at hw
        have : p' = p := by simpa using hw
        rw [this]; exact hf
    · dsimp only
      have ha := chooseAlloc_fit (i := i) he h hE hu hb
      have ha' : Fit (allocOperand cx s i o idx) (fun r => Rm cx C F RR (k + cost b) r.2) := by
        unfold allocOperand
        split
        · exact ha.err ‹_›
        · rename_i e
          exact Fit.ok ((ha.2 _ e).same rfl rfl rfl rfl rfl rfl)
      split
      · exact ha'.err ‹_›
      · rename_i a t e
        have k1 := ha'.2 _ e
        dsimp only at k1
        split
        · unfold becomeLive
          split
          · exact Fit.panic
          · refine Fit.ok (Rm.setIn ?_ a (some o.vreg) (fun x hx => by cases hx; exact hu))
            exact k1.same rfl rfl rfl rfl rfl rfl
        · unfold relocate
          have hm : Fit (if o.kind = .Def then addMove cx t i a (s.alloc o.vreg.vreg) (vcls o.vreg) .After else .ok t) (fun t' => Rm cx C F RR (k + cost b) t') := by
            split
            · exact (addMove_fit he k1 hE hu).mono (fun t ht => ht.1)
            · exact Fit.ok k1
          split
          · exact hm.err ‹_›
          · rename_i e
            exact Fit.ok ((hm.2 _ e).setIn _ _ (fun x hx => by cases hx))

end

end Fast
end Regalloc
