import Verif.Spec.FastTotal
import Verif.Proofs.FastMem
import Verif.Proofs.FastResolve

/-
The single-pass allocator does not panic: the state invariant, and the primitive operations.
-/
namespace Regalloc
namespace Fast

/-- The result is not a panic, and meets `Q` if it is a value. -/
def Safe {α : Type} (r : R α) (Q : α → Prop) : Prop := r ≠ .error .panic ∧ ∀ a, r = .ok a → Q a

theorem Safe.ok {α : Type} {a : α} {Q : α → Prop} (h : Q a) : Safe (.ok a : R α) Q :=
  ⟨by simp, fun b e => by cases e; exact h⟩

theorem Safe.many {α : Type} {Q : α → Prop} : Safe (.error .tooMany : R α) Q := ⟨by simp, fun b e => by cases e⟩

theorem Safe.err {α β : Type} {r : R α} {Q : α → Prop} {Q' : β → Prop} {x : FErr} (h : Safe r Q) (e : r = .error x) :
    Safe (.error x : R β) Q' := by
  cases x with
  | tooMany => exact Safe.many
  | panic => exact absurd e h.1

theorem Safe.mono {α : Type} {r : R α} {Q Q' : α → Prop} (h : Safe r Q) (hq : ∀ a, Q a → Q' a) : Safe r Q' :=
  ⟨h.1, fun a e => hq a (h.2 a e)⟩

theorem Safe.foldlM {α β : Type} {P : α → Prop} {g : α → β → R α} (l : List β) (hg : ∀ x ∈ l, ∀ a, P a → Safe (g a x) P) :
    ∀ {a : α}, P a → Safe (l.foldlM g a) P := by
  induction l with
  | nil => intro a h; exact Safe.ok h
  | cons x l ih =>
    intro a h
    rw [List.foldlM_cons]
    dsimp only [bind, Except.bind]
    have h1 := hg x (by simp) a h
    split
    · exact h1.err ‹_›
    · exact ih (fun y hy => hg y (List.mem_cons_of_mem _ hy)) (h1.2 _ ‹_›)

theorem Safe.cons {α β : Type} {g : α → β → R α} {x : β} {l : List β} {a : α} {Q Q' : α → Prop} (h : Safe (g a x) Q)
    (hl : ∀ a', Q a' → Safe (l.foldlM g a') Q') : Safe ((x :: l).foldlM g a) Q' := by
  rw [List.foldlM_cons]
  dsimp only [bind, Except.bind]
  split
  · exact h.err ‹_›
  · exact hl _ (h.2 _ ‹_›)

/-! ### Counting registers without slot -/

def unslotted (n : Nat) (slot : Nat → Option Nat) : Nat := (List.range n).countP (fun v => (slot v).isNone)

theorem countP_set1 {slot : Nat → Option Nat} {v m : Nat} (hv : slot v = none) :
    ∀ {l : List Nat}, l.Nodup → v ∈ l → l.countP (fun w => (set1 slot v (some m) w).isNone) + 1 = l.countP (fun w => (slot w).isNone) := by
  intro l
  induction l with
  | nil => simp
  | cons x l ih =>
    intro hn hm
    rw [List.nodup_cons] at hn
    rw [List.countP_cons, List.countP_cons]
    by_cases e : x = v
    · subst e
      have : l.countP (fun w => (set1 slot x (some m) w).isNone) = l.countP (fun w => (slot w).isNone) := by
        apply List.countP_congr
        intro w hw
        rw [set1_ne _ _ (by rintro rfl; exact hn.1 hw)]
      rw [this, set1_same, hv]
      simp
    · have := ih hn.2 ((List.mem_cons.mp hm).resolve_left (fun h => e h.symm))
      rw [set1_ne _ _ e]
      omega

theorem unslotted_set {n : Nat} {slot : Nat → Option Nat} {v m : Nat} (hv : slot v = none) (hn : v < n) :
    unslotted n (set1 slot v (some m)) + 1 = unslotted n slot :=
  countP_set1 hv List.nodup_range (List.mem_range.mpr hn)

/-! ### The invariant -/

/-- What holds beside the invariant: a budget for slots, the registers that are not mentioned any
more, the values of `reused` and `allocs`, lower bounds for `slot` and the live registers, and
registers that are not live. -/
structure Par where
  B : Nat
  P : Nat → Prop
  RE : Nat → Option Nat
  AL : Nat → Nat → Allocation
  SL : Nat → Option Nat
  LV : Nat → Prop
  NV : Nat → Prop

structure NP (cx : Cx) (C : Nat → VReg) (q : Par) (s : FS) : Prop where
  lru : LruOk cx s.lrus
  scratch : ∀ c r, s.scratch c = some r → cx.isStack (Allocation.reg r) = false ∧ ¬ (s.availE.contains r = true ∧ s.availL.contains r = true)
  avail : ∀ p, s.availE.contains p = true → cx.initAvail.contains p = true
  live : ∃ l, VRegSet.Inv cx.f.numVregs s.live l ∧ (∀ x ∈ l, x = C x.vreg ∧ s.alloc x.vreg ≠ Allocation.none) ∧
    ∀ v, s.alloc v ≠ Allocation.none → (∃ x ∈ l, x.vreg = v) ∨ q.P v
  an : ∀ v, (s.alloc v).isNone = true → s.alloc v = Allocation.none
  inC : ∀ p x, s.inPreg p = some x → x = C x.vreg ∧ x.vreg < cx.f.numVregs
  inLive : ∀ p x, s.inPreg p = some x → s.alloc x.vreg ≠ Allocation.none ∨ q.P x.vreg
  slotLt : ∀ v n, s.slot v = some n → n < s.numSlots
  slotInj : ∀ v w n, s.slot v = some n → s.slot w = some n → v = w
  pot : s.numSlots + 2 * maxSize cx * unslotted cx.f.numVregs s.slot ≤ q.B
  re : s.reused = q.RE
  al : s.allocs = q.AL
  sl : ∀ v n, q.SL v = some n → s.slot v = some n
  lv : ∀ v, q.LV v → s.alloc v ≠ Allocation.none
  nv : ∀ v, q.NV v → s.alloc v = Allocation.none ∧ ¬ q.P v

/-- Facts that do not change. -/
structure Fix (cx : Cx) (C : Nat → VReg) : Prop where
  env : EnvOk cx
  vregs : cx.f.numVregs ≤ VReg.MAX
  classes : ∀ v, v < cx.f.numVregs → ∃ p, (cx.regs (vcls (C v))).contains p = true

/-- A register in range, with its class. -/
def Known (cx : Cx) (C : Nat → VReg) (v : VReg) : Prop := v = C v.vreg ∧ v.vreg < cx.f.numVregs

section
variable {cx : Cx} {C : Nat → VReg} {q : Par} {s s' : FS}

theorem size_le (cx : Cx) (c : RegClass) : cx.size c ≤ maxSize cx := by
  unfold maxSize
  cases c <;> omega

/-- Only edits and counters differ, and fewer registers are available. -/
theorem NP.same (h : NP cx C q s) (h1 : s'.lrus = s.lrus) (h2 : s'.scratch = s.scratch)
    (h3 : ∀ p, s'.availE.contains p = true → s.availE.contains p = true) (h4 : ∀ p, s'.availL.contains p = true → s.availL.contains p = true)
    (h5 : s'.live = s.live) (h6 : s'.alloc = s.alloc) (h7 : s'.inPreg = s.inPreg) (h8 : s'.slot = s.slot) (h9 : s'.numSlots = s.numSlots)
    (h10 : s'.reused = s.reused) (h11 : s'.allocs = s.allocs) : NP cx C q s' where
  lru := by rw [h1]; exact h.lru
  scratch := fun c r hr => by
    rw [h2] at hr
    exact ⟨(h.scratch c r hr).1, fun hx => (h.scratch c r hr).2 ⟨h3 r hx.1, h4 r hx.2⟩⟩
  avail := fun p hp => h.avail p (h3 p hp)
  live := by rw [h5, h6]; exact h.live
  an := by rw [h6]; exact h.an
  inC := by rw [h7]; exact h.inC
  inLive := by rw [h7, h6]; exact h.inLive
  slotLt := by rw [h8, h9]; exact h.slotLt
  slotInj := by rw [h8]; exact h.slotInj
  pot := by rw [h8, h9]; exact h.pot
  re := h10.trans h.re
  al := h11.trans h.al
  sl := by rw [h8]; exact h.sl
  lv := by rw [h6]; exact h.lv
  nv := by rw [h6]; exact h.nv

theorem NP.counters (h : NP cx C q s) (a b : EPos → RegClass → Int) : NP cx C q { s with numAvail := a, numAny := b } :=
  h.same rfl rfl (fun _ h => h) (fun _ h => h) rfl rfl rfl rfl rfl rfl rfl

theorem NP.push (h : NP cx C q s) (i : Nat) (pos : InstPosition) (src dst : Allocation) : NP cx C q (s.push i pos src dst) :=
  h.same rfl rfl (fun _ h => h) (fun _ h => h) rfl rfl rfl rfl rfl rfl rfl

theorem NP.num29 (h : NP cx C q s) (hB : q.B ≤ SpillSlot.MAX) {v n : Nat} (hn : s.slot v = some n) : n < 2 ^ 29 := by
  have h1 := h.slotLt v n hn
  have h2 := h.pot
  have hM : SpillSlot.MAX = 2 ^ 24 - 1 := by decide
  generalize 2 * maxSize cx * unslotted cx.f.numVregs s.slot = x at h2
  omega

/-- Other bounds. -/
theorem NP.rebase (h : NP cx C q s) (SL : Nat → Option Nat) (hSL : ∀ v n, SL v = some n → s.slot v = some n) (LV : Nat → Prop)
    (hLV : ∀ v, LV v → s.alloc v ≠ Allocation.none) (NV : Nat → Prop) (hNV : ∀ v, NV v → s.alloc v = Allocation.none ∧ ¬ q.P v) :
    NP cx C { q with SL := SL, LV := LV, NV := NV } s :=
  { h with sl := hSL, lv := hLV, nv := hNV }

/-- More registers are not mentioned any more. -/
theorem NP.grow (h : NP cx C q s) (P : Nat → Prop) (hP : ∀ v, q.P v → P v) (hn : ∀ v, ¬ q.NV v) : NP cx C { q with P := P } s :=
  { h with
    live := by
      obtain ⟨l, h1, h2, h3⟩ := h.live
      exact ⟨l, h1, h2, fun v hv => (h3 v hv).imp id (hP v)⟩
    inLive := fun p x hx => (h.inLive p x hx).imp id (hP _)
    nv := fun v hv => absurd hv (hn v) }

theorem NP.budget (h : NP cx C q s) {B : Nat} (hB : q.B ≤ B) : NP cx C { q with B := B } s :=
  { h with pot := Nat.le_trans h.pot hB }

/-- A register that is still mentioned is live if it has a location. -/
theorem NP.isLive (h : NP cx C q s) {v : Nat} (hv : s.alloc v ≠ Allocation.none) (hp : ¬ q.P v) :
    ∃ l, VRegSet.Inv cx.f.numVregs s.live l ∧ v ∈ l.map VReg.vreg := by
  obtain ⟨l, h1, _, h3⟩ := h.live
  rcases h3 v hv with ⟨x, hx, rfl⟩ | hx
  · exact ⟨l, h1, List.mem_map_of_mem hx⟩
  · exact absurd hx hp

/-! ### Slots -/

theorem getSpillslot_safe (F : Fix cx C) (h : NP cx C q s) (hB : q.B ≤ SpillSlot.MAX) {v : VReg} (hv : v.vreg < cx.f.numVregs) :
    Safe (getSpillslot cx s v) (fun r => NP cx C q r.2 ∧ r.2.slot v.vreg = some r.1 ∧
      r.2 = { s with slot := r.2.slot, numSlots := r.2.numSlots } ∧ ∀ w m, s.slot w = some m → r.2.slot w = some m) := by
  unfold getSpillslot
  split
  · rename_i n hn
    exact Safe.ok ⟨h, hn, rfl, fun _ _ h => h⟩
  · rename_i hn
    have hS := size_le cx (vcls v)
    have h0 := F.env.size_pos (vcls v)
    have hpot := h.pot
    have hun := fun m => unslotted_set (m := m) hn hv
    have hn1 : slotAt cx.byLast (cx.size (vcls v)) s.numSlots < slotNext (cx.size (vcls v)) s.numSlots := slotAt_lt_next h0
    have hn2 : slotNext (cx.size (vcls v)) s.numSlots ≤ s.numSlots + 2 * cx.size (vcls v) := slotNext_le' h0
    have hn3 : s.numSlots ≤ slotAt cx.byLast (cx.size (vcls v)) s.numSlots := slotAt_ge h0
    have hmul : 2 * maxSize cx * unslotted cx.f.numVregs s.slot =
        2 * maxSize cx * unslotted cx.f.numVregs (set1 s.slot v.vreg (some (slotAt cx.byLast (cx.size (vcls v)) s.numSlots))) + 2 * maxSize cx := by
      rw [← hun (slotAt cx.byLast (cx.size (vcls v)) s.numSlots), Nat.mul_add, Nat.mul_one]
    rw [hmul] at hpot
    have hok : allocstack cx s.numSlots (vcls v) =
        .ok (slotAt cx.byLast (cx.size (vcls v)) s.numSlots, slotNext (cx.size (vcls v)) s.numSlots) := by
      unfold allocstack
      rw [if_neg (by omega), if_neg (by omega)]
    rw [hok]
    generalize slotAt cx.byLast (cx.size (vcls v)) s.numSlots = n at *
    generalize slotNext (cx.size (vcls v)) s.numSlots = k at *
    have mono : ∀ w m, s.slot w = some m → set1 s.slot v.vreg (some n) w = some m := by
      intro w m hw
      rw [set1_ne]
      · exact hw
      · rintro rfl; rw [hn] at hw; cases hw
    refine Safe.ok ⟨{ h with slotLt := ?_, slotInj := ?_, pot := ?_, sl := fun w m hw => mono w m (h.sl w m hw) }, set1_same _ _ _, rfl, mono⟩
    · intro w m hw
      dsimp only at hw ⊢
      by_cases e : w = v.vreg
      · subst e; rw [set1_same] at hw; cases hw; omega
      · rw [set1_ne _ _ e] at hw
        have := h.slotLt w m hw
        omega
    · intro w w' m hw hw'
      dsimp only at hw hw'
      by_cases e1 : w = v.vreg
      · by_cases e2 : w' = v.vreg
        · rw [e1, e2]
        · subst e1; rw [set1_same] at hw; cases hw
          rw [set1_ne _ _ e2] at hw'
          have := h.slotLt _ _ hw'
          omega
      · rw [set1_ne _ _ e1] at hw
        by_cases e2 : w' = v.vreg
        · subst e2; rw [set1_same] at hw'; cases hw'
          have := h.slotLt _ _ hw
          omega
        · rw [set1_ne _ _ e2] at hw'
          exact h.slotInj w w' m hw hw'
    · dsimp only
      omega

theorem ne_none_of {a : Allocation} (h : a.isNone = false) : a ≠ Allocation.none := by
  rintro rfl
  revert h
  decide

theorem an_set1 {g : Nat → Allocation} (h : ∀ v, (g v).isNone = true → g v = Allocation.none) {v : Nat} {a : Allocation} (ha : a.isNone = false) (w : Nat) :
    (set1 g v a w).isNone = true → set1 g v a w = Allocation.none := by
  by_cases e : w = v
  · rw [e, set1_same, ha]; simp
  · rw [set1_ne _ _ e]; exact h w

/-- A live or finished register gets another location. -/
theorem NP.setAlloc (h : NP cx C q s) {v : Nat} {a : Allocation} (ha' : a.isNone = false) (hv : s.alloc v ≠ Allocation.none ∨ q.P v) :
    NP cx C q { s with alloc := set1 s.alloc v a } := by
  have ha := ne_none_of ha'
  refine { h with live := ?_, an := an_set1 h.an ha', inLive := ?_, lv := ?_, nv := ?_ }
  · obtain ⟨l, h1, h2, h3⟩ := h.live
    refine ⟨l, h1, ?_, ?_⟩
    · intro x hx
      refine ⟨(h2 x hx).1, ?_⟩
      dsimp only
      by_cases e : x.vreg = v
      · rw [e, set1_same]; exact ha
      · rw [set1_ne _ _ e]; exact (h2 x hx).2
    · intro w hw
      dsimp only at hw
      by_cases e : w = v
      · subst e
        rcases hv with hv | hv
        · exact h3 _ hv
        · exact .inr hv
      · rw [set1_ne _ _ e] at hw; exact h3 w hw
  · intro p x hx
    dsimp only
    by_cases e : x.vreg = v
    · rw [e, set1_same]; exact .inl ha
    · rw [set1_ne _ _ e]; exact h.inLive p x hx
  · intro w hw
    dsimp only
    by_cases e : w = v
    · subst e; rw [set1_same]; exact ha
    · rw [set1_ne _ _ e]; exact h.lv w hw
  · intro w hw
    obtain ⟨h1, h2⟩ := h.nv w hw
    have : w ≠ v := by
      rintro rfl
      rcases hv with hv | hv
      · exact hv h1
      · exact h2 hv
    dsimp only
    rw [set1_ne _ _ this]
    exact ⟨h1, h2⟩

theorem toSlot_safe (F : Fix cx C) (h : NP cx C q s) (hB : q.B ≤ SpillSlot.MAX) {v : VReg} {p : PReg} (hv : s.inPreg p = some v) :
    Safe (toSlot cx s v) (fun r => NP cx C q r.2 ∧ r.2.inPreg = s.inPreg ∧ r.2.availE = s.availE ∧ r.2.availL = s.availL) := by
  unfold toSlot
  have hg := getSpillslot_safe F h hB (h.inC p v hv).2
  split
  · exact hg.err ‹_›
  · rename_i n s1 h1
    obtain ⟨k1, k2, k3, _⟩ := hg.2 _ h1
    dsimp only at k1 k2 k3
    have ei : s1.inPreg = s.inPreg := by rw [k3]
    refine Safe.ok ⟨k1.setAlloc (isNone_stk (k1.num29 hB k2)) (k1.inLive p v (by rw [ei]; exact hv)), ei, by rw [k3], by rw [k3]⟩

theorem last_safe (F : Fix cx C) (h : LruOk cx s.lrus) {v : VReg} (hv : Known cx C v) (m : PRegSet) : (s.lrus (vcls v)).last? m ≠ none := by
  obtain ⟨p, hp⟩ := F.classes v.vreg hv.2
  rw [← hv.1] at hp
  obtain ⟨o, I, _, _, h2⟩ := h (vcls v)
  have ho : o ≠ [] := by
    intro e
    have := h2 p hp
    rw [e] at this
    cases this
  unfold Lru.last?
  rw [Lru.lastSatisfying_ok I ho]
  simp

theorem ensureScratch_safe (F : Fix cx C) (h : NP cx C q s) (hB : q.B ≤ SpillSlot.MAX) {i : Nat} {v : VReg} {pos : InstPosition}
    (hv : Known cx C v) : Safe (ensureScratch cx s i (vcls v) pos) (fun s' => NP cx C q s' ∧ s'.scratch (vcls v) ≠ none ∧ s'.inPreg = s.inPreg) := by
  unfold ensureScratch
  split
  · rename_i r hr
    exact Safe.ok ⟨h, (by rw [hr]; simp), rfl⟩
  · have key : Safe (allocScratch cx s i (vcls v) pos) (fun s' => NP cx C q s' ∧ s'.scratch (vcls v) ≠ none ∧ s'.inPreg = s.inPreg) := by
      unfold allocScratch
      split
      · rename_i hl
        exact absurd hl (last_safe F h.lru hv _)
      · exact Safe.many
      · rename_i p hp
        obtain ⟨hreg, _⟩ := last_mem h.lru hp
        have hst := F.env.isStack_reg hreg
        have hev : Safe (if (s.inPreg p).isSome then evictPlain cx s i p pos else .ok s)
            (fun s' => NP cx C q s' ∧ s'.inPreg = s.inPreg) := by
          split
          · rename_i hs
            unfold evictPlain
            split
            · rename_i hn; rw [hn] at hs; cases hs
            · rename_i x hx
              have ht := toSlot_safe F h hB hx
              split
              · exact ht.err ‹_›
              · rename_i n s1 h1
                rw [hst]
                obtain ⟨k1, k2, _, _⟩ := ht.2 _ h1
                exact Safe.ok ⟨k1.push _ _ _ _, k2⟩
          · exact Safe.ok ⟨h, rfl⟩
        split
        · exact hev.err ‹_›
        · rename_i s1 h1
          obtain ⟨k1, k2⟩ := hev.2 _ h1
          refine Safe.ok ⟨{ k1 with scratch := ?_, avail := ?_ }, ?_, k2⟩
          · intro c r hr
            dsimp only at hr ⊢
            by_cases e : c = vcls v
            · subst e
              rw [set1_same] at hr
              cases hr
              exact ⟨hst, fun hx => ((cont_remove _ _ _).mp hx.1).1 rfl⟩
            · rw [set1_ne _ _ e] at hr
              obtain ⟨j1, j2⟩ := k1.scratch c r hr
              exact ⟨j1, fun hx => j2 ⟨((cont_remove _ _ _).mp hx.1).2, ((cont_remove _ _ _).mp hx.2).2⟩⟩
          · intro r hr
            exact k1.avail r ((cont_remove _ _ _).mp hr).2
          · dsimp only
            rw [set1_same]
            simp
    split
    · exact key.err ‹_›
    · rename_i s1 h1
      obtain ⟨k1, k2, k3⟩ := key.2 _ h1
      exact Safe.ok ⟨k1.same rfl rfl (fun _ h => h) (fun _ h => h) rfl rfl rfl rfl rfl rfl rfl, k2, k3⟩

theorem addMove_safe (F : Fix cx C) (h : NP cx C q s) (hB : q.B ≤ SpillSlot.MAX) {i : Nat} {src dst : Allocation} {v : VReg} {pos : InstPosition}
    (hv : Known cx C v) : Safe (addMove cx s i src dst (vcls v) pos) (fun s' => NP cx C q s' ∧ s'.inPreg = s.inPreg) := by
  unfold addMove
  split
  · have hs := ensureScratch_safe (i := i) (pos := pos) F h hB hv
    split
    · exact hs.err ‹_›
    · rename_i s1 h1
      obtain ⟨k1, k2, k3⟩ := hs.2 _ h1
      split
      · rename_i hn; exact absurd hn k2
      · exact Safe.ok ⟨(k1.push _ _ _ _).push _ _ _ _, k3⟩
  · exact Safe.ok ⟨h.push _ _ _ _, rfl⟩

theorem evict_safe (F : Fix cx C) (h : NP cx C q s) (hB : q.B ≤ SpillSlot.MAX) {i : Nat} {p : PReg} {pos : InstPosition}
    (hp : (s.inPreg p).isSome = true) : Safe (evict cx s i p pos) (fun s' => NP cx C q s' ∧ s'.inPreg = s.inPreg) := by
  unfold evict
  split
  · rename_i hn; rw [hn] at hp; cases hp
  · rename_i v hv
    have ht := toSlot_safe F h hB hv
    split
    · exact ht.err ‹_›
    · rename_i n s1 h1
      obtain ⟨k1, k2, _, _⟩ := ht.2 _ h1
      have hk : Known cx C v := h.inC p v hv
      exact (addMove_safe F k1 hB hk).mono (fun a ha => ⟨ha.1, ha.2.trans k2⟩)

theorem NP.setIn_none (h : NP cx C q s) (a : Allocation) : NP cx C q (s.setIn a none) := by
  unfold FS.setIn
  split
  · rename_i p hp
    refine { h with inC := ?_, inLive := ?_ }
    · intro r x hx
      dsimp only at hx
      by_cases e : r = p
      · subst e; rw [set1_same] at hx; cases hx
      · rw [set1_ne _ _ e] at hx; exact h.inC r x hx
    · intro r x hx
      dsimp only at hx
      by_cases e : r = p
      · subst e; rw [set1_same] at hx; cases hx
      · rw [set1_ne _ _ e] at hx; exact h.inLive r x hx
  · exact h

theorem NP.setIn_some (h : NP cx C q s) (a : Allocation) {v : VReg} (hv : Known cx C v) (hl : s.alloc v.vreg ≠ Allocation.none) :
    NP cx C q (s.setIn a (some v)) := by
  unfold FS.setIn
  split
  · rename_i p hp
    refine { h with inC := ?_, inLive := ?_ }
    · intro r x hx
      dsimp only at hx
      by_cases e : r = p
      · subst e; rw [set1_same] at hx; cases hx; exact hv
      · rw [set1_ne _ _ e] at hx; exact h.inC r x hx
    · intro r x hx
      dsimp only at hx
      by_cases e : r = p
      · subst e; rw [set1_same] at hx; cases hx; exact .inl hl
      · rw [set1_ne _ _ e] at hx; exact h.inLive r x hx
  · exact h

theorem Known.valid (F : Fix cx C) {v : VReg} (hv : Known cx C v) : v ≠ VReg.invalid := by
  intro e
  have h1 := hv.2
  have h2 := F.vregs
  have h3 : VReg.invalid.vreg = VReg.MAX := by decide
  rw [e, h3] at h1
  omega

/-- A register becomes live. -/
theorem insert_safe (F : Fix cx C) (h : NP cx C q s) {v : VReg} {a : Allocation} (ha' : a.isNone = false) (hv : Known cx C v)
    (hn : s.alloc v.vreg = Allocation.none) :
    ∃ lv, s.live.insert? v = some lv ∧ NP cx C { q with NV := fun _ => False } { s with live := lv, alloc := set1 s.alloc v.vreg a } := by
  have ha := ne_none_of ha'
  obtain ⟨l, h1, h2, h3⟩ := h.live
  obtain ⟨lv, e, I⟩ := VRegSet.insert_ok (v := v) h1 ⟨hv.2, hv.valid F, by
    intro hm
    obtain ⟨x, hx, e⟩ := List.mem_map.mp hm
    exact (h2 x hx).2 (by rw [e]; exact hn)⟩
  refine ⟨lv, e, { h with live := ⟨v :: l, I, ?_, ?_⟩, an := an_set1 h.an ha', inLive := ?_, lv := ?_, nv := fun _ h => h.elim }⟩
  · intro x hx
    dsimp only
    rcases List.mem_cons.mp hx with rfl | hx
    · rw [set1_same]; exact ⟨hv.1, ha⟩
    · refine ⟨(h2 x hx).1, ?_⟩
      by_cases e : x.vreg = v.vreg
      · rw [e, set1_same]; exact ha
      · rw [set1_ne _ _ e]; exact (h2 x hx).2
  · intro w hw
    dsimp only at hw
    by_cases e : w = v.vreg
    · subst e; exact .inl ⟨v, by simp, rfl⟩
    · rw [set1_ne _ _ e] at hw
      rcases h3 w hw with ⟨x, hx, h⟩ | h
      · exact .inl ⟨x, by simp [hx], h⟩
      · exact .inr h
  · intro p x hx
    dsimp only
    by_cases e : x.vreg = v.vreg
    · rw [e, set1_same]; exact .inl ha
    · rw [set1_ne _ _ e]; exact h.inLive p x hx
  · intro w hw
    dsimp only
    by_cases e : w = v.vreg
    · subst e; rw [set1_same]; exact ha
    · rw [set1_ne _ _ e]; exact h.lv w hw

/-- A register is released; it is not mentioned any more. -/
theorem freealloc_safe (h : NP cx C q s) {v : VReg} (ha : s.alloc v.vreg ≠ Allocation.none) (hp : ¬ q.P v.vreg) (hNV : ∀ w, ¬ q.NV w) :
    Safe (freealloc s v) (fun s' => NP cx C { q with P := fun w => q.P w ∨ w = v.vreg, LV := fun w => w ≠ v.vreg ∧ q.LV w } s' ∧ s'.slot = s.slot) := by
  obtain ⟨l, h1, h2, h3⟩ := h.live
  have hm : v.vreg ∈ l.map VReg.vreg := by
    rcases h3 _ ha with ⟨x, hx, e⟩ | hx
    · exact List.mem_map.mpr ⟨x, hx, e⟩
    · exact absurd hx hp
  obtain ⟨lv, e, I⟩ := VRegSet.remove_ok h1 hm
  unfold freealloc
  dsimp only
  split
  · rename_i hn
    exact absurd (h.an _ hn) ha
  · rw [e]
    dsimp only
    have hin : ∀ g, (g = s.inPreg ∨ ∃ p, g = set1 s.inPreg p none) → ∀ r x, g r = some x → s.inPreg r = some x := by
      rintro g (rfl | ⟨p, rfl⟩) r x hx
      · exact hx
      · by_cases e : r = p
        · subst e; rw [set1_same] at hx; cases hx
        · rw [set1_ne _ _ e] at hx; exact hx
    have hg : ∀ r x, (match (s.alloc v.vreg).asReg with
        | some p => set1 s.inPreg p none
        | none => s.inPreg) r = some x → s.inPreg r = some x := by
      apply hin
      cases (s.alloc v.vreg).asReg with
      | none => exact .inl rfl
      | some p => exact .inr ⟨p, rfl⟩
    refine Safe.ok ⟨{ h with live := ⟨_, I, ?_, ?_⟩, an := ?_, inC := ?_, inLive := ?_, lv := ?_, nv := fun w hw => absurd hw (hNV w) }, rfl⟩
    · intro x hx
      rw [List.mem_filter] at hx
      have hne : x.vreg ≠ v.vreg := by simpa using hx.2
      dsimp only
      rw [set1_ne _ _ hne]
      exact h2 x hx.1
    · intro w hw
      dsimp only at hw
      by_cases e : w = v.vreg
      · exact .inr (.inr e)
      · rw [set1_ne _ _ e] at hw
        rcases h3 w hw with ⟨x, hx, h⟩ | h
        · exact .inl ⟨x, List.mem_filter.mpr ⟨hx, by simp [h, e]⟩, h⟩
        · exact .inr (.inl h)
    · intro w
      dsimp only
      by_cases e : w = v.vreg
      · rw [e, set1_same]; simp
      · rw [set1_ne _ _ e]; exact h.an w
    · intro r x hx
      exact h.inC r x (hg r x hx)
    · intro r x hx
      have := h.inLive r x (hg r x hx)
      dsimp only
      by_cases e : x.vreg = v.vreg
      · exact .inr (.inr e)
      · rw [set1_ne _ _ e]; exact this.imp id .inl
    · intro w hw
      dsimp only
      rw [set1_ne _ _ hw.1]
      exact h.lv w hw.2

theorem poke_safe (h : NP cx C q s) {c : RegClass} {p : PReg} (hp : (cx.regs c).contains p = true) : Safe (poke s c p) (fun s' => NP cx C q s' ∧ s'.alloc = s.alloc ∧ s'.inPreg = s.inPreg) := by
  obtain ⟨o, I, _, _, h2⟩ := h.lru c
  obtain ⟨l', e', _, _⟩ := Lru.poke_ok I (h2 p hp)
  unfold poke
  rw [e']
  exact Safe.ok ⟨{ h with lru := lruOk_poke h.lru hp e' }, rfl, rfl⟩

theorem NP.unavail (h : NP cx C q s) (pos : OperandPos) (p : PReg) : NP cx C q (s.unavail pos p) := by
  cases pos
  · exact h.same rfl rfl (fun r hr => ((cont_remove _ _ _).mp hr).2) (fun _ h => h) rfl rfl rfl rfl rfl rfl rfl
  · exact h.same rfl rfl (fun _ h => h) (fun r hr => ((cont_remove _ _ _).mp hr).2) rfl rfl rfl rfl rfl rfl rfl

theorem NP.occupy (h : NP cx C q s) (o : Op) (p : PReg) : NP cx C q (occupy s o p) := by
  unfold Fast.occupy
  dsimp only
  split
  · exact (h.unavail _ _).unavail _ _
  · exact (h.unavail _ _).unavail _ _
  · split
    · exact (h.unavail _ _).unavail _ _
    · exact h.unavail _ _
  · exact h.unavail _ _

end

end Fast
end Regalloc
