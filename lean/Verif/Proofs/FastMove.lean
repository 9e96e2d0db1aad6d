import Verif.Proofs.FastBasic
import Verif.Proofs.VRegSet

/-
Single-pass allocator: the state invariant, and the effect of the primitive
operations `get_spillslot`, `add_move` and `evict_vreg_in_preg` on the state and,
through the edits they emit, on what executions guarantee.
-/
namespace Regalloc
namespace Fast
open Exec

/-- Bound on the number of slots. -/
def slotBound : Nat := 2 ^ 24 + 2 ^ 20

/-- The state invariant. `C v` is the register numbered `v`; `P v` holds once the
definition of `v` has been processed. -/
structure Inv (cx : Cx) (C : Nat → VReg) (P : Nat → Prop) (s : FS) : Prop where
  alloc : ∀ v, s.alloc v = Allocation.none ∨
    (∃ p x, s.alloc v = Allocation.reg p ∧ s.inPreg p = some x ∧ x.vreg = v) ∨
    (∃ n, s.slot v = some n ∧ s.alloc v = stk n)
  inAvail : ∀ v p, s.alloc v = Allocation.reg p → cx.initAvail.contains p = true
  inReg : ∀ p x, s.inPreg p = some x → ∀ q, s.alloc x.vreg = Allocation.reg q → q = p
  inLive : ∀ p x, s.inPreg p = some x → s.alloc x.vreg ≠ Allocation.none ∨ P x.vreg
  noReg : ∀ v, P v → ∀ p, s.alloc v ≠ Allocation.reg p
  inC : ∀ p x, s.inPreg p = some x → x = C x.vreg
  inCls : ∀ p x, s.inPreg p = some x → pcls p = vcls x
  slotLt : ∀ v n, s.slot v = some n → n < s.numSlots
  slotInj : ∀ v w n, s.slot v = some n → s.slot w = some n → v = w
  numLe : s.numSlots ≤ slotBound
  live : ∃ l, VRegSet.Inv cx.f.numVregs s.live l ∧ (∀ x ∈ l, x = C x.vreg ∧ s.alloc x.vreg ≠ Allocation.none) ∧
    ∀ v, s.alloc v ≠ Allocation.none → (∃ x ∈ l, x.vreg = v) ∨ P v
  lru : LruOk cx s.lrus

/-- Scratch registers are free and real. -/
def ScrOk (cx : Cx) (s : FS) : Prop :=
  ∀ c r, s.scratch c = some r → ¬ s.availE.contains r = true ∧ ¬ s.availL.contains r = true ∧
    cx.isStack (Allocation.reg r) = false ∧ ∀ w, s.alloc w ≠ Allocation.reg r

theorem Inv.slot29 {cx C P s} (I : Inv cx C P s) {v n : Nat} (h : s.slot v = some n) : n < 2 ^ 29 := by
  have := I.slotLt v n h
  have := I.numLe
  unfold slotBound at this
  omega

theorem Inv.reg_in {cx C P s} (I : Inv cx C P s) {v : Nat} {p : PReg} (h : s.alloc v = Allocation.reg p) :
    ∃ x, s.inPreg p = some x ∧ x.vreg = v := by
  rcases I.alloc v with h' | ⟨q, x, h', hx⟩ | ⟨n, hn, h'⟩
  · rw [h] at h'; exact absurd h' (reg_ne_none p)
  · rw [h] at h'; cases reg_inj h'; exact ⟨x, hx⟩
  · rw [h] at h'; exact absurd h' (reg_ne_stk (I.slot29 hn))

/-- Two registers do not share a physical register. -/
theorem Inv.reg_uniq {cx C P s} (I : Inv cx C P s) {v w : Nat} {p : PReg} (hv : s.alloc v = Allocation.reg p)
    (hw : s.alloc w = Allocation.reg p) : v = w := by
  obtain ⟨x, hx, rfl⟩ := I.reg_in hv
  obtain ⟨y, hy, rfl⟩ := I.reg_in hw
  rw [hx] at hy; cases hy; rfl

theorem Inv.stk_slot {cx C P s} (I : Inv cx C P s) {v n : Nat} (hn : n < 2 ^ 29) (h : s.alloc v = stk n) :
    s.slot v = some n := by
  rcases I.alloc v with h' | ⟨q, x, h', hx⟩ | ⟨m, hm, h'⟩
  · rw [h] at h'; exact absurd h' (stk_ne_none hn)
  · rw [h] at h'; exact absurd h'.symm (reg_ne_stk hn)
  · rw [h] at h'; rw [stk_inj hn (I.slot29 hm) h']; exact hm

/-- Executing edits, first to last. -/
def execE {Val : Type} (E : List Edit) (A : Allocation → Val) : Allocation → Val :=
  E.foldl (fun A e => upd A e.dst (A e.src)) A

@[simp] theorem execE_nil {Val : Type} (A : Allocation → Val) : execE [] A = A := rfl

theorem execE_append {Val : Type} (E1 E2 : List Edit) (A : Allocation → Val) :
    execE (E1 ++ E2) A = execE E2 (execE E1 A) := by simp [execE, List.foldl_append]

theorem execE_cons {Val : Type} (e : Edit) (E : List Edit) (A : Allocation → Val) :
    execE (e :: E) A = execE E (upd A e.dst (A e.src)) := rfl

/-- Slots numbered by `F`, the final slot map. -/
structure FOk (F : Nat → Option Nat) (s : FS) : Prop where
  ext : ∀ v n, s.slot v = some n → F v = some n
  inj : ∀ v w n, F v = some n → F w = some n → v = w
  lt : ∀ v n, F v = some n → n < 2 ^ 29

/-- What the code after a point relies on: registers in `L1` are in their current
location, those in `L2` in their slot, and `X` lists further requirements. -/
structure Sat {Val : Type} (F : Nat → Option Nat) (s : FS) (L1 L2 : Nat → Prop) (X : Allocation → Nat → Prop)
    (V : Nat → Val) (A : Allocation → Val) : Prop where
  here : ∀ w, L1 w → s.alloc w ≠ Allocation.none → A (s.alloc w) = V w
  slot : ∀ w n, L2 w → F w = some n → A (stk n) = V w
  extra : ∀ l w, X l w → A l = V w

/-- What operations emitting edits leave alone. -/
structure Fr (s s' : FS) : Prop where
  alloc : ∀ w, s'.alloc w = s.alloc w ∨
    ((∃ p x, s.inPreg p = some x ∧ x.vreg = w) ∧ ∃ n, s'.slot w = some n ∧ s'.alloc w = stk n)
  slot : ∀ v n, s.slot v = some n → s'.slot v = some n
  inPreg : s'.inPreg = s.inPreg
  availE : ∀ p, s'.availE.contains p = true → s.availE.contains p = true
  availL : ∀ p, s'.availL.contains p = true → s.availL.contains p = true
  live : s'.live = s.live
  lrus : s'.lrus = s.lrus
  allocs : s'.allocs = s.allocs
  reused : s'.reused = s.reused
  scratch : ∀ c, s'.scratch c = s.scratch c ∨
    ∃ r, s'.scratch c = some r ∧ s.availE.contains r = true ∧ s.availL.contains r = true

theorem Fr.refl (s : FS) : Fr s s :=
  ⟨fun _ => .inl rfl, fun _ _ h => h, rfl, fun _ h => h, fun _ h => h, rfl, rfl, rfl, rfl, fun _ => .inl rfl⟩

theorem Fr.trans {s1 s2 s3 : FS} (h : Fr s1 s2) (g : Fr s2 s3) : Fr s1 s3 := by
  refine ⟨?_, fun v n e => g.slot v n (h.slot v n e), g.inPreg.trans h.inPreg, fun p e => h.availE p (g.availE p e),
    fun p e => h.availL p (g.availL p e), g.live.trans h.live, g.lrus.trans h.lrus, g.allocs.trans h.allocs,
    g.reused.trans h.reused, ?_⟩
  · intro w
    rcases g.alloc w with e | ⟨hp, n, e1, e2⟩
    · rcases h.alloc w with e' | ⟨hp, n, e1, e2⟩
      · exact .inl (e.trans e')
      · exact .inr ⟨hp, n, g.slot _ _ e1, e.trans e2⟩
    · rw [h.inPreg] at hp
      exact .inr ⟨hp, n, e1, e2⟩
  · intro c
    rcases g.scratch c with e | ⟨r, e1, e2, e3⟩
    · rcases h.scratch c with e' | ⟨r, e1, e2, e3⟩
      · exact .inl (e.trans e')
      · exact .inr ⟨r, e.trans e1, e2, e3⟩
    · exact .inr ⟨r, e1, h.availE _ e2, h.availL _ e3⟩

/-! ### `get_spillslot` -/

theorem getSpillslot_spec {cx C P} {s s' : FS} {v : VReg} {n : Nat} (he : EnvOk cx)
    (h : getSpillslot cx s v = .ok (n, s')) (I : Inv cx C P s) :
    Inv cx C P s' ∧ s'.slot v.vreg = some n ∧ s' = { s with slot := s'.slot, numSlots := s'.numSlots } ∧
      (∀ w m, s.slot w = some m → s'.slot w = some m) ∧ (∀ w, w ≠ v.vreg → s'.slot w = s.slot w) := by
  unfold getSpillslot at h
  split at h
  · next m hm =>
    cases h
    exact ⟨I, hm, rfl, fun _ _ h => h, fun _ _ => rfl⟩
  · next hm =>
    split at h
    · cases h
    · next m k ha =>
      cases h
      unfold allocstack at ha
      split at ha
      · cases ha
      · next hs =>
        split at ha
        · cases ha
        · next hmax =>
          have ha := Except.ok.inj ha
          have hmk : slotAt cx.byLast (cx.size (vcls v)) s.numSlots = n ∧
              slotNext (cx.size (vcls v)) s.numSlots = k := by
            simpa using ha
          have hs0 : 0 < cx.size (vcls v) := by omega
          have hge := slotAt_ge (bl := cx.byLast) (n := s.numSlots) hs0
          have hlt := slotAt_lt_next (bl := cx.byLast) (n := s.numSlots) hs0
          have hle := slotNext_le (bl := cx.byLast) (n := s.numSlots) hs0
          have hsz := he.size_le (vcls v)
          have hM : SpillSlot.MAX = 2 ^ 24 - 1 := by decide
          obtain ⟨h1, h2⟩ := hmk
          rw [h1] at hge hlt hle hmax
          rw [h2] at hlt hle
          have mono : ∀ w m, s.slot w = some m → set1 s.slot v.vreg (some n) w = some m := by
            intro w m hw
            rw [set1_ne]
            · exact hw
            · rintro rfl; rw [hm] at hw; cases hw
          refine ⟨⟨?_, I.inAvail, I.inReg, I.inLive, I.noReg, I.inC, I.inCls, ?_, ?_, ?_, I.live, I.lru⟩, set1_same _ _ _, rfl, mono,
            fun w hw => set1_ne _ _ hw⟩
          · intro w
            rcases I.alloc w with h' | h' | ⟨m, hm', h'⟩
            · exact .inl h'
            · exact .inr (.inl h')
            · exact .inr (.inr ⟨m, mono w m hm', h'⟩)
          · intro w m hw
            dsimp only at hw ⊢
            by_cases hwv : w = v.vreg
            · subst hwv; rw [set1_same] at hw; cases hw; exact hlt
            · rw [set1_ne _ _ hwv] at hw
              have := I.slotLt w m hw
              omega
          · intro w w' m hw hw'
            dsimp only at hw hw'
            by_cases e1 : w = v.vreg
            · by_cases e2 : w' = v.vreg
              · rw [e1, e2]
              · subst e1; rw [set1_same] at hw; cases hw
                rw [set1_ne _ _ e2] at hw'
                have := I.slotLt _ _ hw'
                omega
            · rw [set1_ne _ _ e1] at hw
              by_cases e2 : w' = v.vreg
              · subst e2; rw [set1_same] at hw'; cases hw'
                have := I.slotLt _ _ hw
                omega
              · rw [set1_ne _ _ e2] at hw'
                exact I.slotInj w w' m hw hw'
          · dsimp only; unfold slotBound; omega

/-! ### Moving an occupant to its slot -/

theorem toSlot_spec {cx C P} {s s' : FS} {v : VReg} {n : Nat} {p : PReg} (he : EnvOk cx)
    (h : toSlot cx s v = .ok (n, s')) (hp : s.inPreg p = some v) (I : Inv cx C P s) :
    Inv cx C P s' ∧ s'.slot v.vreg = some n ∧
      s' = { s with slot := s'.slot, numSlots := s'.numSlots, alloc := set1 s.alloc v.vreg (stk n) } ∧
      (∀ w m, s.slot w = some m → s'.slot w = some m) := by
  unfold toSlot at h
  split at h
  · cases h
  · next m s1 hg =>
    cases h
    obtain ⟨I1, hs, heq, mono, _⟩ := getSpillslot_spec he hg I
    have hn29 : n < 2 ^ 29 := I1.slot29 hs
    have ealloc : s1.alloc = s.alloc := by rw [heq]
    have ein : s1.inPreg = s.inPreg := by rw [heq]
    have hstk := stk_ne_none hn29
    refine ⟨⟨?_, ?_, ?_, ?_, ?_, I1.inC, I1.inCls, I1.slotLt, I1.slotInj, I1.numLe, ?_, I1.lru⟩, ?_, ?_, ?_⟩
    · intro w
      dsimp only
      by_cases e : w = v.vreg
      · subst e; rw [set1_same]; exact .inr (.inr ⟨n, hs, rfl⟩)
      · rw [set1_ne _ _ e]; exact I1.alloc w
    · intro w q
      dsimp only
      by_cases e : w = v.vreg
      · subst e; rw [set1_same]; intro h; exact absurd h.symm (reg_ne_stk hn29)
      · rw [set1_ne _ _ e]; exact I1.inAvail w q
    · intro q x hq r
      dsimp only
      by_cases e : x.vreg = v.vreg
      · rw [e, set1_same]; intro h; exact absurd h.symm (reg_ne_stk hn29)
      · rw [set1_ne _ _ e]; exact I1.inReg q x hq r
    · intro q x hq
      dsimp only
      by_cases e : x.vreg = v.vreg
      · rw [e, set1_same]; exact .inl hstk
      · rw [set1_ne _ _ e]; exact I1.inLive q x hq
    · intro w hw q
      dsimp only
      by_cases e : w = v.vreg
      · subst e; rw [set1_same]; intro h; exact absurd h.symm (reg_ne_stk hn29)
      · rw [set1_ne _ _ e]; exact I1.noReg w hw q
    · obtain ⟨l, h1, h2, h3⟩ := I1.live
      refine ⟨l, h1, ?_, ?_⟩
      · intro x hx
        dsimp only
        by_cases e : x.vreg = v.vreg
        · rw [e, set1_same]; exact ⟨by rw [← e]; exact (h2 x hx).1, hstk⟩
        · rw [set1_ne _ _ e]; exact h2 x hx
      · intro w
        dsimp only
        by_cases e : w = v.vreg
        · intro _
          subst e
          rcases I1.inLive p v (by rw [ein]; exact hp) with h | h
          · exact h3 _ h
          · exact .inr h
        · rw [set1_ne _ _ e]; exact h3 w
    · exact hs
    · show _ = _
      rw [heq]
    · exact mono

/-! ### The scratch register -/

theorem ensureScratch_spec {cx C P} {s s' : FS} {i : Nat} {c : RegClass} {pos : InstPosition} (he : EnvOk cx)
    (h : ensureScratch cx s i c pos = .ok s') (I : Inv cx C P s) (S : ScrOk cx s) :
    Inv cx C P s' ∧ ScrOk cx s' ∧ Fr s s' ∧
      ∃ r, s'.scratch c = some r ∧
        ((s'.edits = s.edits ∧ s'.alloc = s.alloc) ∨
         ∃ v n, s'.edits = (pt i pos, ⟨stk n, Allocation.reg r⟩) :: s.edits ∧ s.inPreg r = some v ∧
           s'.slot v.vreg = some n ∧ s'.alloc = set1 s.alloc v.vreg (stk n)) := by
  unfold ensureScratch at h
  split at h
  · next r hr =>
    cases h
    exact ⟨I, S, Fr.refl s, r, hr, .inl ⟨rfl, rfl⟩⟩
  · next hsc =>
    split at h
    · cases h
    · next s1 ha =>
      cases h
      unfold allocScratch at ha
      split at ha
      · cases ha
      · cases ha
      · next r hl =>
        obtain ⟨hreg, hav⟩ := last_mem I.lru hl
        obtain ⟨hL, hE⟩ := (cont_inter _ _ _).mp hav
        have hst := he.isStack_reg hreg
        split at ha
        · cases ha
        · next s2 h2 =>
          cases ha
          have key : Inv cx C P s2 ∧ s2.scratch = s.scratch ∧ s2.availE = s.availE ∧ s2.availL = s.availL ∧
              Fr s s2 ∧ (∀ w, s2.alloc w ≠ Allocation.reg r) ∧
              ((s2.edits = s.edits ∧ s2.alloc = s.alloc) ∨
               ∃ v n, s2.edits = (pt i pos, ⟨stk n, Allocation.reg r⟩) :: s.edits ∧ s.inPreg r = some v ∧
                 s2.slot v.vreg = some n ∧ s2.alloc = set1 s.alloc v.vreg (stk n)) := by
            split at h2
            · next hsome =>
              unfold evictPlain at h2
              split at h2
              · cases h2
              · next v hv =>
                split at h2
                · cases h2
                · next n s3 h3 =>
                  rw [if_neg (by rw [hst]; simp)] at h2
                  cases h2
                  obtain ⟨I3, hsl, heq, mono⟩ := toSlot_spec he h3 hv I
                  have hn29 := I3.slot29 hsl
                  have ea : s3.alloc = set1 s.alloc v.vreg (stk n) := by rw [heq]
                  refine ⟨⟨I3.alloc, I3.inAvail, I3.inReg, I3.inLive, I3.noReg, I3.inC, I3.inCls, I3.slotLt, I3.slotInj, I3.numLe,
                    I3.live, I3.lru⟩, by rw [heq]; rfl, by rw [heq]; rfl, by rw [heq]; rfl, ?_, ?_, .inr ⟨v, n, by rw [heq]; rfl, hv, hsl, ea⟩⟩
                  · refine ⟨?_, mono, by rw [heq]; rfl, by rw [heq]; exact fun _ h => h,
                      by rw [heq]; exact fun _ h => h, by rw [heq]; rfl, by rw [heq]; rfl, by rw [heq]; rfl,
                      by rw [heq]; rfl, fun c => .inl (by rw [heq]; rfl)⟩
                    intro w
                    have : (s3.push i pos (stk n) (Allocation.reg r)).alloc = s3.alloc := rfl
                    rw [this, ea]
                    by_cases e : w = v.vreg
                    · subst e; rw [set1_same]; exact .inr ⟨⟨r, v, hv, rfl⟩, n, hsl, rfl⟩
                    · rw [set1_ne _ _ e]; exact .inl rfl
                  · intro w
                    have : (s3.push i pos (stk n) (Allocation.reg r)).alloc = s3.alloc := rfl
                    rw [this, ea]
                    by_cases e : w = v.vreg
                    · subst e; rw [set1_same]; intro h; exact absurd h.symm (reg_ne_stk hn29)
                    · rw [set1_ne _ _ e]
                      intro h
                      obtain ⟨x, hx, hxv⟩ := I.reg_in h
                      rw [hv] at hx; cases hx; exact e hxv.symm
            · next hnone =>
              cases h2
              refine ⟨I, rfl, rfl, rfl, Fr.refl _, ?_, .inl ⟨rfl, rfl⟩⟩
              intro w h
              obtain ⟨x, hx, _⟩ := I.reg_in h
              rw [hx] at hnone; simp at hnone
          obtain ⟨I2, e1, e2, e3, fr, hno, hed⟩ := key
          refine ⟨⟨I2.alloc, I2.inAvail, I2.inReg, I2.inLive, I2.noReg, I2.inC, I2.inCls, I2.slotLt, I2.slotInj, I2.numLe,
            I2.live, I2.lru⟩, ?_, ?_, r, ?_, hed⟩
          · intro c' r' hr'
            have hr' : set1 s2.scratch c (some r) c' = some r' := hr'
            by_cases hc : c' = c
            · subst hc
              rw [set1_same] at hr'; cases hr'
              refine ⟨?_, ?_, hst, hno⟩
              · intro hc; exact ((cont_remove _ _ _).mp hc).1 rfl
              · intro hc; exact ((cont_remove _ _ _).mp hc).1 rfl
            · rw [set1_ne _ _ hc, e1] at hr'
              obtain ⟨q1, q2, q3, q4⟩ := S c' r' hr'
              refine ⟨?_, ?_, q3, ?_⟩
              · intro hc; have := ((cont_remove _ _ _).mp hc).2; rw [e2] at this; exact q1 this
              · intro hc; have := ((cont_remove _ _ _).mp hc).2; rw [e3] at this; exact q2 this
              · intro w hw
                rcases fr.alloc w with h | ⟨_, n, hn, h⟩
                · exact q4 w (h ▸ hw)
                · have hw : s2.alloc w = _ := hw
                  rw [h] at hw; exact absurd hw.symm (reg_ne_stk (I2.slot29 hn))
          · refine ⟨fr.alloc, fr.slot, fr.inPreg, ?_, ?_, fr.live, fr.lrus, fr.allocs, fr.reused, ?_⟩
            · intro q hq; exact fr.availE q ((cont_remove _ _ _).mp hq).2
            · intro q hq; exact fr.availL q ((cont_remove _ _ _).mp hq).2
            · intro c'
              by_cases hc : c' = c
              · subst hc; exact .inr ⟨r, set1_same _ _ _, hE, hL⟩
              · left
                show set1 s2.scratch c (some r) c' = _
                rw [set1_ne _ _ hc, e1]
          · exact set1_same _ _ _

/-! ### `add_move` -/

/-- The destination of a move is a register, or the slot of a register that is not
held in a real register. -/
def DstOk (cx : Cx) (s : FS) (dst : Allocation) : Prop :=
  (∃ p, dst = Allocation.reg p) ∨ ∃ w m, s.slot w = some m ∧ dst = stk m ∧
    ∀ r, cx.isStack (Allocation.reg r) = false → s.alloc w ≠ Allocation.reg r

/-- The pure effect of a segment of edits: from what is required after it to what is
required before it, when it is a move from `src` to `dst`. -/
def MoveSat (s s' : FS) (src dst : Allocation) (E : List Edit) : Prop :=
  ∀ {Val : Type} (F : Nat → Option Nat) (L1 L2 : Nat → Prop) (X : Allocation → Nat → Prop) (V : Nat → Val)
    (A : Allocation → Val), FOk F s' → Sat F s' L1 L2 X V A →
    (∀ l w, X l w → ∀ c r, s'.scratch c = some r → l ≠ Allocation.reg r) →
    (∀ w, L1 w → s.alloc w = dst → V w = A src) → (∀ w n, L2 w → F w = some n → stk n = dst → V w = A src) →
    (∀ l w, X l w → l = dst → V w = A src) →
    Sat F s L1 L2 X V (execE E A) ∧ execE E A dst = A src

theorem addMove_spec {cx C P} {s s' : FS} {i : Nat} {src dst : Allocation} {c : RegClass} {pos : InstPosition}
    (he : EnvOk cx) (h : addMove cx s i src dst c pos = .ok s') (I : Inv cx C P s) (S : ScrOk cx s)
    (hd : cx.isStack src = true → cx.isStack dst = true → DstOk cx s dst) :
    Inv cx C P s' ∧ ScrOk cx s' ∧ Fr s s' ∧
      ((cx.isStack src && cx.isStack dst) = false → s'.alloc = s.alloc ∧ s'.scratch = s.scratch) ∧
      (∀ w, s'.alloc w = s.alloc w ∨ ∃ r x, cx.isStack (Allocation.reg r) = false ∧ s.inPreg r = some x ∧ x.vreg = w) ∧
      ∃ E : List Edit, s'.edits = E.map (fun e => (pt i pos, e)) ++ s.edits ∧ MoveSat s s' src dst E := by
  unfold addMove at h
  split at h
  · next hst =>
    rw [Bool.and_eq_true] at hst
    split at h
    · cases h
    · next s1 h1 =>
      split at h
      · cases h
      · next r hr =>
        cases h
        obtain ⟨I1, S1, fr, r', hr', hcase⟩ := ensureScratch_spec he h1 I S
        rw [hr] at hr'; cases hr'
        obtain ⟨_, _, hrs, hrno⟩ := S1 c r hr
        have hsr : src ≠ Allocation.reg r := by rintro rfl; rw [hrs] at hst; simp at hst
        have hdr : dst ≠ Allocation.reg r := by rintro rfl; rw [hrs] at hst; simp at hst
        refine ⟨⟨I1.alloc, I1.inAvail, I1.inReg, I1.inLive, I1.noReg, I1.inC, I1.inCls, I1.slotLt, I1.slotInj, I1.numLe,
            I1.live, I1.lru⟩, S1, ⟨fr.alloc, fr.slot, fr.inPreg, fr.availE, fr.availL, fr.live, fr.lrus, fr.allocs,
            fr.reused, fr.scratch⟩, (fun hf => by rw [hst.1, hst.2] at hf; cases hf), ?_, ?_⟩
        · intro w
          rcases hcase with ⟨_, hal⟩ | ⟨v, n, _, hv, _, hal⟩
          · exact .inl (congrFun hal w)
          · by_cases e : w = v.vreg
            · exact .inr ⟨r, v, hrs, hv, e.symm⟩
            · left
              show s1.alloc w = _
              rw [hal, set1_ne _ _ e]
        replace hd := hd hst.1 hst.2
        rcases hcase with ⟨he1, hal⟩ | ⟨v, n, he1, hv, hsl, hal⟩
        · refine ⟨[⟨src, Allocation.reg r⟩, ⟨Allocation.reg r, dst⟩], ?_, ?_⟩
          · simp only [FS.push, he1]; rfl
          · intro Val F L1 L2 X V A hF hS hX c1 c2 c3
            have hS' : Sat F s1 L1 L2 X V A := ⟨hS.here, hS.slot, hS.extra⟩
            have hF' : FOk F s1 := ⟨hF.ext, hF.inj, hF.lt⟩
            have hX' : ∀ l w, X l w → l ≠ Allocation.reg r := fun l w h => hX l w h c r hr
            clear hS hF hX
            have hB : ∀ l, execE [⟨src, Allocation.reg r⟩, ⟨Allocation.reg r, dst⟩] A l =
                if l = dst then A src else if l = Allocation.reg r then A src else A l := by
              intro l
              simp only [execE, List.foldl, upd]
              split
              · simp
              · rfl
            generalize execE [⟨src, Allocation.reg r⟩, ⟨Allocation.reg r, dst⟩] A = B at hB
            refine ⟨⟨?_, ?_, ?_⟩, by rw [hB, if_pos rfl]⟩
            · intro w hw hn
              rw [hB]
              split
              · next e => exact (c1 w hw e).symm
              · rw [if_neg (by rw [← hal]; exact hrno w), ← hal]
                exact hS'.here w hw (by rw [hal]; exact hn)
            · intro w m hw hm
              rw [hB]
              split
              · next e => exact (c2 w m hw hm e).symm
              · rw [if_neg (fun e => reg_ne_stk (hF'.lt _ _ hm) e.symm)]
                exact hS'.slot w m hw hm
            · intro l w hx
              rw [hB]
              split
              · next e => exact (c3 l w hx e).symm
              · rw [if_neg (hX' l w hx)]
                exact hS'.extra l w hx
        · have hn29 := I1.slot29 hsl
          have hin := I.inReg r v hv
          refine ⟨[⟨src, Allocation.reg r⟩, ⟨Allocation.reg r, dst⟩, ⟨stk n, Allocation.reg r⟩], ?_, ?_⟩
          · simp only [FS.push, he1]; rfl
          · intro Val F L1 L2 X V A hF hS hX c1 c2 c3
            have hS' : Sat F s1 L1 L2 X V A := ⟨hS.here, hS.slot, hS.extra⟩
            have hF' : FOk F s1 := ⟨hF.ext, hF.inj, hF.lt⟩
            have hX' : ∀ l w, X l w → l ≠ Allocation.reg r := fun l w h => hX l w h c r hr
            clear hS hF hX
            have hB : ∀ l, execE [⟨src, Allocation.reg r⟩, ⟨Allocation.reg r, dst⟩, ⟨stk n, Allocation.reg r⟩] A l =
                if l = Allocation.reg r then (if stk n = dst then A src else A (stk n))
                else if l = dst then A src else A l := by
              intro l
              have hnr : stk n ≠ Allocation.reg r := fun e => reg_ne_stk hn29 e.symm
              simp only [execE, List.foldl, upd]
              by_cases e1 : l = Allocation.reg r
              · subst e1; simp [hnr]
              · simp only [if_neg e1]
                split <;> simp
            generalize execE [⟨src, Allocation.reg r⟩, ⟨Allocation.reg r, dst⟩, ⟨stk n, Allocation.reg r⟩] A = B at hB
            have here1 : ∀ w, L1 w → s1.alloc w ≠ Allocation.none → A (s1.alloc w) = V w := hS'.here
            rw [hal] at here1
            refine ⟨⟨?_, ?_, ?_⟩, by rw [hB, if_neg hdr, if_pos rfl]⟩
            · intro w hw hn
              by_cases ewv : w = v.vreg
              · subst ewv
                have hA := here1 _ hw (by rw [set1_same]; exact stk_ne_none hn29)
                rw [set1_same] at hA
                rcases I.alloc v.vreg with h' | ⟨q, x, h', _⟩ | ⟨m, hm, h'⟩
                · exact absurd h' hn
                · cases hin q h'
                  rw [h', hB, if_pos rfl]
                  split
                  · next e =>
                    exfalso
                    rcases hd with ⟨p, hp⟩ | ⟨w', m, hm, hdm, hno⟩
                    · rw [hp] at e; exact reg_ne_stk hn29 e.symm
                    · have hm1 := fr.slot _ _ hm
                      rw [hdm] at e
                      have := stk_inj hn29 (I1.slot29 hm1) e
                      subst this
                      have := I1.slotInj _ _ _ hsl hm1
                      subst this
                      exact hno r hrs h'
                  · exact hA
                · have hm1 := fr.slot _ _ hm
                  rw [hsl] at hm1
                  cases hm1
                  rw [h', hB, if_neg (fun e => reg_ne_stk hn29 e.symm)]
                  split
                  · next e => exact (c1 _ hw (h'.trans e)).symm
                  · exact hA
              · have hA := here1 w hw (by rw [set1_ne _ _ ewv]; exact hn)
                rw [set1_ne _ _ ewv] at hA
                have hwr : s.alloc w ≠ Allocation.reg r := by
                  intro h
                  obtain ⟨x, hx, hxv⟩ := I.reg_in h
                  rw [hv] at hx; cases hx; exact ewv hxv.symm
                rw [hB, if_neg hwr]
                split
                · next e => exact (c1 _ hw e).symm
                · exact hA
            · intro w m hw hm
              rw [hB, if_neg (fun e => reg_ne_stk (hF'.lt _ _ hm) e.symm)]
              split
              · next e => exact (c2 w m hw hm e).symm
              · exact hS'.slot w m hw hm
            · intro l w hx
              rw [hB, if_neg (hX' l w hx)]
              split
              · next e => exact (c3 l w hx e).symm
              · exact hS'.extra l w hx
  · cases h
    refine ⟨⟨I.alloc, I.inAvail, I.inReg, I.inLive, I.noReg, I.inC, I.inCls, I.slotLt, I.slotInj, I.numLe,
            I.live, I.lru⟩, S, ⟨fun _ => .inl rfl, fun _ _ h => h, rfl, fun _ h => h, fun _ h => h, rfl, rfl, rfl, rfl,
            fun _ => .inl rfl⟩, fun _ => ⟨rfl, rfl⟩, fun _ => .inl rfl, [⟨src, dst⟩], rfl, ?_⟩
    intro Val F L1 L2 X V A hF hS hX c1 c2 c3
    have hB : ∀ l, execE [⟨src, dst⟩] A l = if l = dst then A src else A l := by
      intro l; simp only [execE, List.foldl, upd]
    generalize execE [⟨src, dst⟩] A = B at hB
    refine ⟨⟨?_, ?_, ?_⟩, by rw [hB, if_pos rfl]⟩
    · intro w hw hn
      rw [hB]
      split
      · next e => exact (c1 w hw e).symm
      · exact hS.here w hw hn
    · intro w m hw hm
      rw [hB]
      split
      · next e => exact (c2 w m hw hm e).symm
      · exact hS.slot w m hw hm
    · intro l w hx
      rw [hB]
      split
      · next e => exact (c3 l w hx e).symm
      · exact hS.extra l w hx

/-! ### `evict_vreg_in_preg` -/

/-- The effect of a segment of edits that leaves the requirements `X` alone. -/
def SegSat (s s' : FS) (E : List Edit) (ok : Allocation → Prop) : Prop :=
  ∀ {Val : Type} (F : Nat → Option Nat) (L1 L2 : Nat → Prop) (X : Allocation → Nat → Prop) (V : Nat → Val)
    (A : Allocation → Val), FOk F s' → Sat F s' L1 L2 X V A →
    (∀ l w, X l w → ok l ∧ ∀ c r, s'.scratch c = some r → l ≠ Allocation.reg r) →
    Sat F s L1 L2 X V (execE E A)

theorem evict_spec {cx C P} {s s' : FS} {i : Nat} {p : PReg} {pos : InstPosition}
    (he : EnvOk cx) (h : evict cx s i p pos = .ok s') (I : Inv cx C P s) (S : ScrOk cx s) :
    Inv cx C P s' ∧ ScrOk cx s' ∧ Fr s s' ∧ (∀ w, s'.alloc w ≠ Allocation.reg p) ∧
      ∃ E : List Edit, s'.edits = E.map (fun e => (pt i pos, e)) ++ s.edits ∧
        SegSat s s' E (fun l => l ≠ Allocation.reg p) := by
  unfold evict at h
  split at h
  · cases h
  · next v hv =>
    split at h
    · cases h
    · next n s1 h1 =>
      obtain ⟨I1, hsl, heq, mono⟩ := toSlot_spec he h1 hv I
      have hn29 := I1.slot29 hsl
      have ea : s1.alloc = set1 s.alloc v.vreg (stk n) := by rw [heq]
      have hno : ∀ w, s1.alloc w ≠ Allocation.reg p := by
        intro w
        rw [ea]
        by_cases e : w = v.vreg
        · subst e; rw [set1_same]; intro h; exact absurd h.symm (reg_ne_stk hn29)
        · rw [set1_ne _ _ e]
          intro h
          obtain ⟨x, hx, hxv⟩ := I.reg_in h
          rw [hv] at hx; cases hx; exact e hxv.symm
      have S1 : ScrOk cx s1 := by
        intro c r hr
        have hr : s.scratch c = some r := by rw [heq] at hr; exact hr
        obtain ⟨q1, q2, q3, q4⟩ := S c r hr
        refine ⟨by rw [heq]; exact q1, by rw [heq]; exact q2, q3, ?_⟩
        intro w
        rw [ea]
        by_cases e : w = v.vreg
        · subst e; rw [set1_same]; intro h; exact absurd h.symm (reg_ne_stk hn29)
        · rw [set1_ne _ _ e]; exact q4 w
      have fr1 : Fr s s1 := by
        refine ⟨?_, mono, by rw [heq], by rw [heq]; exact fun _ h => h,
          by rw [heq]; exact fun _ h => h, by rw [heq], by rw [heq], by rw [heq],
          by rw [heq], fun c => .inl (by rw [heq])⟩
        intro w
        rw [ea]
        by_cases e : w = v.vreg
        · subst e; rw [set1_same]; exact .inr ⟨⟨p, v, hv, rfl⟩, n, hsl, rfl⟩
        · rw [set1_ne _ _ e]; exact .inl rfl
      have eed : s1.edits = s.edits := by rw [heq]
      obtain ⟨I2, S2, fr2, _, _, E, hE, hM⟩ := addMove_spec he h I1 S1 (fun _ _ => .inl ⟨p, rfl⟩)
      refine ⟨I2, S2, fr1.trans fr2, ?_, E, by rw [hE, eed], ?_⟩
      · intro w hw
        rcases fr2.alloc w with h | ⟨_, m, hm, h⟩
        · exact hno w (h ▸ hw)
        · rw [h] at hw; exact absurd hw.symm (reg_ne_stk (I2.slot29 hm))
      · intro Val F L1 L2 X V A hF hS hX
        have hvs : s'.alloc v.vreg = stk n := by
          rcases fr2.alloc v.vreg with h | ⟨_, m, hm, h⟩
          · rw [h, ea, set1_same]
          · rw [h]; rw [fr2.slot _ _ hsl] at hm; cases hm; rfl
        obtain ⟨hS1, hd⟩ := hM F L1 L2 X V A hF hS (fun l w hx => (hX l w hx).2)
          (fun w _ h => absurd h (hno w)) (fun w m _ hm h => absurd h.symm (reg_ne_stk (hF.lt _ _ hm)))
          (fun l w hx h => absurd h (hX l w hx).1)
        refine ⟨?_, hS1.slot, hS1.extra⟩
        intro w hw hn
        by_cases e : w = v.vreg
        · subst e
          have hA1 := hS.here _ hw (by rw [hvs]; exact stk_ne_none hn29)
          have hA2 := hS1.here _ hw (by rw [ea, set1_same]; exact stk_ne_none hn29)
          rw [hvs] at hA1
          rw [ea, set1_same] at hA2
          rcases I.alloc v.vreg with h' | ⟨q, x, h', _⟩ | ⟨m, hm, h'⟩
          · exact absurd h' hn
          · cases I.inReg p v hv q h'
            rw [h', hd]; exact hA1
          · have := mono _ _ hm
            rw [hsl] at this; cases this
            rw [h']; exact hA2
        · have := hS1.here w hw (by rw [ea, set1_ne _ _ e]; exact hn)
          rw [ea, set1_ne _ _ e] at this
          exact this

end Fast
end Regalloc
