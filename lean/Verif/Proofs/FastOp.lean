import Verif.Proofs.FastMove

/-
Single-pass allocator: allocation of the operands of one instruction.
-/
namespace Regalloc
namespace Fast
open Exec

/-- The phases in which an operand's register is reserved. -/
def occE (o : Op) : Prop := o.kind = .Use ∨ o.pos = .Early ∨ ∃ j, o.constraint = .Reuse j
def occL (o : Op) : Prop := o.kind = .Def ∨ o.pos = .Late

/-- `o` is an early use of the register that `o'` reuses. -/
def ReuseRel (ops : List Op) (o o' : Op) : Prop :=
  ∃ (j : Nat) (oj : Op), o'.constraint = .Reuse j ∧ ops[j]? = some oj ∧ o.kind = .Use ∧ o.pos = .Early ∧ o.vreg = oj.vreg

/-- Two operands may share a register. -/
def Compat (ops : List Op) (o o' : Op) : Prop :=
  (o.kind = .Use ∧ o'.kind = .Use ∧ o.vreg.vreg = o'.vreg.vreg) ∨ (¬ (occE o ∧ occE o') ∧ ¬ (occL o ∧ occL o')) ∨
    ReuseRel ops o o' ∨ ReuseRel ops o' o

theorem Compat.symm {ops : List Op} {o o' : Op} (h : Compat ops o o') : Compat ops o' o := by
  rcases h with ⟨a, b, c⟩ | ⟨a, b⟩ | h | h
  · exact .inl ⟨b, a, c.symm⟩
  · exact .inr (.inl ⟨fun h => a h.symm, fun h => b h.symm⟩)
  · exact .inr (.inr (.inr h))
  · exact .inr (.inr (.inl h))

/-- What is asked of the operands of an instruction. -/
structure IOk (cx : Cx) (C : Nat → VReg) (i : Nat) : Prop where
  vreg : ∀ (k : Nat) o, (cx.f.operands i)[k]? = some o → o.asFixedNonallocatable = none →
    o.vreg = C o.vreg.vreg ∧ o.vreg.vreg < cx.f.numVregs
  max : cx.f.numVregs ≤ VReg.MAX
  defNa : ∀ (k : Nat) o, (cx.f.operands i)[k]? = some o → o.kind = .Def → o.asFixedNonallocatable = none
  defC : ∀ (k : Nat) o, (cx.f.operands i)[k]? = some o → o.kind = .Def →
    o.constraint = .Reg ∨ (∃ p, o.constraint = .FixedReg p ∧ ¬ (cx.clob i).contains p = true) ∨
    ∃ (j : Nat) (oj : Op), o.constraint = .Reuse j ∧ (cx.f.operands i)[j]? = some oj ∧ oj.kind = .Use ∧ oj.pos = .Early ∧
      oj.constraint = .Reg ∧ vcls oj.vreg = vcls o.vreg ∧ o.pos = .Late
  reuseUniq : ∀ (k k' : Nat) o o' j, (cx.f.operands i)[k]? = some o → (cx.f.operands i)[k']? = some o' →
    o.constraint = .Reuse j → o'.constraint = .Reuse j → k = k'
  useC : ∀ (k : Nat) o, (cx.f.operands i)[k]? = some o → o.kind = .Use → ∀ j, o.constraint ≠ .Reuse j
  fixCls : ∀ (k : Nat) o p, (cx.f.operands i)[k]? = some o → o.asFixedNonallocatable = none → o.constraint = .FixedReg p →
    pcls p = vcls o.vreg
  defUniq : ∀ (k k' : Nat) o o', (cx.f.operands i)[k]? = some o → (cx.f.operands i)[k']? = some o' → k ≠ k' →
    o.kind = .Def → o'.asFixedNonallocatable = none → o.vreg.vreg ≠ o'.vreg.vreg

/-- Definitions processed so far. -/
def PD (cx : Cx) (i : Nat) (P0 : Nat → Prop) (done : Nat → Prop) (v : Nat) : Prop :=
  P0 v ∨ ∃ (k : Nat) (o : Op), (cx.f.operands i)[k]? = some o ∧ done k ∧ o.kind = .Def ∧ o.vreg.vreg = v

/-- No late use is fixed to a register the instruction clobbers. -/
def LateFix (cx : Cx) (i : Nat) : Prop := ∀ (k : Nat) o q, (cx.f.operands i)[k]? = some o → o.kind = .Use → o.pos = .Late →
  o.constraint = .FixedReg q → ¬ (cx.clob i).contains q = true

/-- Invariant while the operands of instruction `i` are allocated. `W` holds of the
registers live after the instruction, `loc` gives the operands' locations as far as
decided, `done` the operands processed, `ex` exempts the register being processed. -/
structure J (cx : Cx) (i : Nat) (W : Nat → Prop) (P : Nat → Prop) (s : FS) (loc : Nat → Option Allocation)
    (done : Nat → Prop) (ex : Nat → Prop) : Prop where
  phase : ∀ (k : Nat) o p, (cx.f.operands i)[k]? = some o → loc k = some (Allocation.reg p) →
    (occE o → ¬ s.availE.contains p = true) ∧ (occL o → ¬ s.availL.contains p = true)
  real : ∀ (k : Nat) o a, (cx.f.operands i)[k]? = some o → loc k = some a →
    (∃ p, a = Allocation.reg p ∧ cx.initAvail.contains p = true ∧ pcls p = vcls o.vreg) ∨
    ∃ n, a = stk n ∧ s.slot o.vreg.vreg = some n
  compat : ∀ (k k' : Nat) o o' p, (cx.f.operands i)[k]? = some o → (cx.f.operands i)[k']? = some o' → k ≠ k' →
    loc k = some (Allocation.reg p) → loc k' = some (Allocation.reg p) → Compat (cx.f.operands i) o o'
  through : ∀ w p (k : Nat) o, W w → s.alloc w = Allocation.reg p → (cx.f.operands i)[k]? = some o →
    loc k = some (Allocation.reg p) → o.vreg.vreg = w
  fresh : ∀ w p, ¬ W w → ¬ ex w → s.alloc w = Allocation.reg p → ∃ (k : Nat) (o : Op), (cx.f.operands i)[k]? = some o ∧
    done k ∧ o.kind = .Use ∧ o.vreg.vreg = w ∧ loc k = some (Allocation.reg p)
  defFree : ∀ (k : Nat) o p, (cx.f.operands i)[k]? = some o → done k → o.kind = .Def → ¬ ex o.vreg.vreg →
    loc k = some (Allocation.reg p) → s.availE.contains p = true → s.inPreg p = none
  scr : ∀ c r, s.scratch c = some r → ∀ (k : Nat), loc k ≠ some (Allocation.reg r)
  clobL : ∀ p, s.availL.contains p = true → ¬ (cx.clob i).contains p = true
  initE : ∀ p, s.availE.contains p = true → cx.initAvail.contains p = true
  initL : ∀ p, s.availL.contains p = true → cx.initAvail.contains p = true
  clobW : ∀ w p, W w → s.alloc w = Allocation.reg p → ¬ (cx.clob i).contains p = true
  locDone : ∀ k a, done k → loc k = some a → s.allocs i k = a
  undone : ∀ k, ¬ done k → (∀ a, loc k = some a → ∃ o p, (cx.f.operands i)[k]? = some o ∧ o.constraint = .FixedReg p) ∧
    s.allocs i k = Allocation.none
  hasLoc : ∀ (k : Nat) o, done k → (cx.f.operands i)[k]? = some o → o.asFixedNonallocatable = none → ∃ a, loc k = some a
  useLive : ∀ (k : Nat) o, done k → (cx.f.operands i)[k]? = some o → o.kind = .Use → o.asFixedNonallocatable = none →
    s.alloc o.vreg.vreg ≠ Allocation.none
  wLive : ∀ w, W w → s.alloc w ≠ Allocation.none ∨ P w
  fixedLoc : ∀ (k : Nat) o p, (cx.f.operands i)[k]? = some o → o.asFixedNonallocatable = none →
    o.constraint = .FixedReg p → loc k = some (Allocation.reg p)
  reused : ∀ j k, s.reused j = some k ↔ ∃ o, (cx.f.operands i)[k]? = some o ∧ o.constraint = .Reuse j
  defReg : ∀ (k : Nat) o a, (cx.f.operands i)[k]? = some o → o.kind = .Def → loc k = some a →
    ∃ p, a = Allocation.reg p ∧ ¬ (cx.clob i).contains p = true
  lateClob : LateFix cx i → ∀ (k : Nat) o p, (cx.f.operands i)[k]? = some o → o.kind = .Use → o.pos = .Late →
    loc k = some (Allocation.reg p) → ¬ (cx.clob i).contains p = true
  locOp : ∀ k a, loc k = some a → ∃ o, (cx.f.operands i)[k]? = some o
  na : ∀ (k : Nat) o p, (cx.f.operands i)[k]? = some o → o.asFixedNonallocatable = some p →
    loc k = none ∧ (done k → s.allocs i k = Allocation.reg p)

/-- Effective operand: what is allocated in place of operand `o`. -/
structure Eff (cx : Cx) (i : Nat) (loc : Nat → Option Allocation) (done : Nat → Prop) (k : Nat) (o eo : Op) : Prop where
  vreg : eo.vreg = o.vreg
  kind : eo.kind = o.kind
  phE : occE o ↔ (eo.kind = .Use ∨ eo.pos = .Early)
  phL : occL o ↔ (eo.kind = .Def ∨ eo.pos = .Late)
  pos : o.pos = .Early → eo.pos = .Early
  cons : (eo.constraint = o.constraint) ∨ (eo.constraint = .Reg ∧ ∃ j, o.constraint = .Reuse j) ∨
    (∃ p kd od, eo.constraint = .FixedReg p ∧ o.kind = .Use ∧ o.pos = .Early ∧ o.constraint = .Reg ∧
      (cx.f.operands i)[kd]? = some od ∧ od.constraint = .Reuse k ∧ done kd ∧ loc kd = some (Allocation.reg p))

/-- Result of choosing a location `a` for operand `k`. -/
structure Ch (cx : Cx) (C : Nat → VReg) (P : Nat → Prop) (i k : Nat) (o : Op) (loc : Nat → Option Allocation)
    (done : Nat → Prop) (s : FS) (a : Allocation) (s' : FS) : Prop where
  inv : Inv cx C P s'
  scrOk : ScrOk cx s'
  alloc : ∀ w, s'.alloc w = s.alloc w ∨
    ((∃ p x, s.inPreg p = some x ∧ x.vreg = w) ∧ ∃ n, s'.slot w = some n ∧ s'.alloc w = stk n)
  allocV : s'.alloc o.vreg.vreg = s.alloc o.vreg.vreg
  slot : ∀ v n, s.slot v = some n → s'.slot v = some n
  inPreg : s'.inPreg = s.inPreg
  availE : ∀ p, s'.availE.contains p = true → s.availE.contains p = true
  availL : ∀ p, s'.availL.contains p = true → s.availL.contains p = true
  live : s'.live = s.live
  allocs : s'.allocs = s.allocs
  reused : s'.reused = s.reused
  scratch : s'.scratch = s.scratch
  phase : ∀ p, a = Allocation.reg p → (occE o → ¬ s'.availE.contains p = true) ∧ (occL o → ¬ s'.availL.contains p = true)
  real : (∃ p, a = Allocation.reg p ∧ cx.initAvail.contains p = true ∧ pcls p = vcls o.vreg) ∨
    ∃ n, a = stk n ∧ s'.slot o.vreg.vreg = some n
  free : ∀ p, a = Allocation.reg p → ∀ w, s'.alloc w ≠ Allocation.reg p
  compat : ∀ p, a = Allocation.reg p → ∀ (k' : Nat) o', (cx.f.operands i)[k']? = some o' → k' ≠ k →
    loc k' = some (Allocation.reg p) → Compat (cx.f.operands i) o o'
  fixed : ∀ a', loc k = some a' → a = a'
  noScr : ∀ c r, s.scratch c = some r → a ≠ Allocation.reg r
  defReg : o.kind = .Def → ∃ p, a = Allocation.reg p ∧ ¬ (cx.clob i).contains p = true
  lateClob : LateFix cx i → o.kind = .Use → o.pos = .Late → ∀ p, a = Allocation.reg p → ¬ (cx.clob i).contains p = true
  sat : ∃ E : List Edit, s'.edits = E.map (fun e => (pt i .After, e)) ++ s.edits ∧
    ∀ {Val : Type} (F : Nat → Option Nat) (L1 L2 : Nat → Prop) (X : Allocation → Nat → Prop) (V : Nat → Val)
      (A : Allocation → Val), FOk F s' →
      (∀ l w, X l w → ∃ k' o', (cx.f.operands i)[k']? = some o' ∧ done k' ∧ o'.kind = .Def ∧ loc k' = some l) →
      Sat F s' L1 L2 X V A → Sat F s L1 L2 X V (execE E A)

theorem Inv.of_eq {cx C P} {s s' : FS} (I : Inv cx C P s) (h1 : s'.alloc = s.alloc) (h2 : s'.inPreg = s.inPreg)
    (h3 : s'.slot = s.slot) (h4 : s'.numSlots = s.numSlots) (h5 : s'.live = s.live) (h6 : LruOk cx s'.lrus) :
    Inv cx C P s' := by
  obtain ⟨a1, a2, a3, a4, a5, a6, a7, a8, a9, a10, a11, a12⟩ := I
  rw [← h1, ← h2, ← h3] at a1
  rw [← h1] at a2 a3 a4 a5 a11
  rw [← h2] at a3 a4 a6 a7
  rw [← h3] at a8 a9
  rw [← h4] at a8 a10
  rw [← h5] at a11
  exact ⟨a1, a2, a3, a4, a5, a6, a7, a8, a9, a10, a11, h6⟩

theorem ScrOk.mono {cx} {s s' : FS} (S : ScrOk cx s) (h1 : s'.scratch = s.scratch)
    (h2 : ∀ p, s'.availE.contains p = true → s.availE.contains p = true)
    (h3 : ∀ p, s'.availL.contains p = true → s.availL.contains p = true)
    (h4 : ∀ w r, s'.alloc w = Allocation.reg r → s.alloc w = Allocation.reg r) : ScrOk cx s' := by
  intro c r hr
  rw [h1] at hr
  obtain ⟨a, b, d, e⟩ := S c r hr
  exact ⟨fun h => a (h2 _ h), fun h => b (h3 _ h), d, fun w h => e w (h4 w r h)⟩

theorem FOk.of_eq {F} {s s' : FS} (h : FOk F s) (e : s'.slot = s.slot) : FOk F s' := by
  refine ⟨?_, h.inj, h.lt⟩
  rw [e]; exact h.ext

theorem FOk.of_mono {F} {s s' : FS} (h : FOk F s) (e : ∀ v n, s'.slot v = some n → s.slot v = some n) : FOk F s' :=
  ⟨fun v n hv => h.ext v n (e v n hv), h.inj, h.lt⟩

theorem Sat.of_eq {Val : Type} {F} {s s' : FS} {L1 L2 X} {V : Nat → Val} {A} (h : Sat F s L1 L2 X V A)
    (e : s'.alloc = s.alloc) : Sat F s' L1 L2 X V A := by
  refine ⟨?_, h.slot, h.extra⟩
  rw [e]; exact h.here

theorem select_spec {cx} {s : FS} {eo : Op} {p : PReg} (hl : LruOk cx s.lrus) (h : select s eo = .ok p) :
    (cx.regs (vcls eo.vreg)).contains p = true ∧ (eo.kind = .Use ∨ eo.pos = .Early → s.availE.contains p = true) ∧
      (eo.kind = .Def ∨ eo.pos = .Late → s.availL.contains p = true) := by
  unfold select at h
  dsimp only at h
  split at h
  · cases h
  · split at h
    · cases h
    · cases h
    · next q hq =>
      cases h
      obtain ⟨h1, h2⟩ := last_mem hl hq
      refine ⟨h1, ?_⟩
      unfold drawFrom at h2
      cases hp : eo.pos <;> cases hk : eo.kind <;> rw [hp, hk] at h2 <;>
        simp only [cont_inter, FS.avail] at h2 <;> simp [h2]

theorem occupy_spec {s : FS} {eo : Op} {p : PReg} :
    ∃ e l, occupy s eo p = { s with availE := e, availL := l } ∧
      (∀ q, e.contains q = true → s.availE.contains q = true) ∧ (∀ q, l.contains q = true → s.availL.contains q = true) ∧
      (eo.kind = .Use ∨ eo.pos = .Early → ¬ e.contains p = true) ∧
      (eo.kind = .Def ∨ eo.pos = .Late → ¬ l.contains p = true) := by
  have r1 : ∀ (t : PRegSet) q, (t.remove p).contains q = true → t.contains q = true :=
    fun t q h => ((cont_remove t q p).mp h).2
  have r2 : ∀ (t : PRegSet), ¬ (t.remove p).contains p = true := fun t h => ((cont_remove t p p).mp h).1 rfl
  unfold occupy
  cases hp : eo.pos <;> cases hk : eo.kind <;> simp only [FS.unavail]
  · exact ⟨_, _, rfl, r1 _, r1 _, fun _ => r2 _, fun _ => r2 _⟩
  · exact ⟨_, _, rfl, r1 _, fun _ h => h, fun _ => r2 _, by simp⟩
  · split
    · exact ⟨_, _, rfl, r1 _, r1 _, fun _ => r2 _, fun _ => r2 _⟩
    · exact ⟨_, _, rfl, fun _ h => h, r1 _, by simp, fun _ => r2 _⟩
  · exact ⟨_, _, rfl, r1 _, r1 _, fun _ => r2 _, fun _ => r2 _⟩

theorem evict_real {cx} {s s' : FS} {i : Nat} {p : PReg} {pos : InstPosition} (h : evict cx s i p pos = .ok s')
    (hp : cx.isStack (Allocation.reg p) = false) :
    ∃ v n s1, s.inPreg p = some v ∧ toSlot cx s v = .ok (n, s1) ∧ s' = s1.push i pos (stk n) (Allocation.reg p) := by
  unfold evict at h
  split at h
  · cases h
  · next v hv =>
    split at h
    · cases h
    · next n s1 h1 =>
      unfold addMove at h
      rw [hp, Bool.and_false, if_neg (by simp)] at h
      cases h
      exact ⟨v, n, s1, hv, h1, rfl⟩

section
variable {cx : Cx} {C : Nat → VReg} {P : Nat → Prop} {i k : Nat} {W : Nat → Prop} {s : FS}
  {loc : Nat → Option Allocation} {done : Nat → Prop} {o eo : Op}

/-- Taking a register that is available in the operand's phases. -/
theorem takeReg_spec (he : EnvOk cx) (I : Inv cx C P s) (S : ScrOk cx s)
    (j : J cx i W P s loc done (fun _ => False)) (hef : Eff cx i loc done k o eo) {p : PReg} {a : Allocation} {s' : FS}
    (hreg : (cx.regs (vcls eo.vreg)).contains p = true) (hE : occE o → s.availE.contains p = true)
    (hL : occL o → s.availL.contains p = true) (hv : s.alloc o.vreg.vreg ≠ Allocation.reg p)
    (hnP : ¬ P o.vreg.vreg) (hloc : loc k = none) (h : takeReg cx s i eo p = .ok (a, s')) :
    Ch cx C P i k o loc done s a s' := by
  have hst := he.isStack_reg hreg
  have hcls : pcls p = vcls o.vreg := by rw [he.pcls_reg hreg, hef.vreg]
  have hEL : occE o ∨ occL o := by
    unfold occE occL
    cases o.kind <;> simp
  have hcompat : ∀ (k' : Nat) o', (cx.f.operands i)[k']? = some o' → loc k' = some (Allocation.reg p) →
      Compat (cx.f.operands i) o o' := by
    intro k' o' ho' hl'
    obtain ⟨q1, q2⟩ := j.phase k' o' p ho' hl'
    exact .inr (.inl ⟨fun ⟨a, b⟩ => q1 b (hE a), fun ⟨a, b⟩ => q2 b (hL a)⟩)
  have hnoscr : ∀ c r, s.scratch c = some r → r ≠ p := by
    rintro c r hr rfl
    obtain ⟨q1, q2, _⟩ := S c r hr
    rcases hEL with h | h
    · exact q1 (hE h)
    · exact q2 (hL h)
  have hinit : cx.initAvail.contains p = true := regs_init hreg
  have hclob : o.kind = .Def → ¬ (cx.clob i).contains p = true := fun hk => j.clobL p (hL (.inl hk))
  unfold takeReg at h
  split at h
  · cases h
  · next s1 h1 =>
    have key : Inv cx C P s1 ∧ ScrOk cx s1 ∧ (∀ w, s1.alloc w = s.alloc w ∨
        ((∃ p x, s.inPreg p = some x ∧ x.vreg = w) ∧ ∃ n, s1.slot w = some n ∧ s1.alloc w = stk n)) ∧
        s1.alloc o.vreg.vreg = s.alloc o.vreg.vreg ∧ (∀ v n, s.slot v = some n → s1.slot v = some n) ∧
        s1.inPreg = s.inPreg ∧ s1.availE = s.availE ∧ s1.availL = s.availL ∧ s1.live = s.live ∧
        s1.allocs = s.allocs ∧ s1.reused = s.reused ∧ s1.scratch = s.scratch ∧ (∀ w, s1.alloc w ≠ Allocation.reg p) ∧
        ∃ E : List Edit, s1.edits = E.map (fun e => (pt i .After, e)) ++ s.edits ∧
          ∀ {Val : Type} (F : Nat → Option Nat) (L1 L2 : Nat → Prop) (X : Allocation → Nat → Prop) (V : Nat → Val)
            (A : Allocation → Val), FOk F s1 →
            (∀ l w, X l w → ∃ k' o', (cx.f.operands i)[k']? = some o' ∧ done k' ∧ o'.kind = .Def ∧ loc k' = some l) →
            Sat F s1 L1 L2 X V A → Sat F s L1 L2 X V (execE E A) := by
      split at h1
      · next hsome =>
        obtain ⟨v, n, s2, hin, ht, heq⟩ := evict_real h1 hst
        obtain ⟨I1, S1, fr, hno, E, hEd, hS⟩ := evict_spec he h1 I S
        obtain ⟨_, hsl, heq2, mono⟩ := toSlot_spec he ht hin I
        have ea : s1.alloc = set1 s.alloc v.vreg (stk n) := by rw [heq, heq2]; rfl
        have hscr : s1.scratch = s.scratch := by rw [heq, heq2]; rfl
        refine ⟨I1, S1, fr.alloc, ?_, fr.slot, fr.inPreg, by rw [heq, heq2]; rfl, by rw [heq, heq2]; rfl, fr.live,
          fr.allocs, fr.reused, hscr, hno, E, hEd, ?_⟩
        · rw [ea]
          by_cases e : o.vreg.vreg = v.vreg
          · rw [e, set1_same]
            rcases I.alloc v.vreg with h'' | ⟨q, x, h'', _⟩ | ⟨m, hm, h''⟩
            · rcases I.inLive p v hin with h' | h'
              · exact absurd h'' h'
              · rw [← e] at h'; exact absurd h' hnP
            · cases I.inReg p v hin q h''
              rw [← e] at h''; exact absurd h'' hv
            · have := mono _ _ hm
              rw [hsl] at this; cases this
              exact h''.symm
          · rw [set1_ne _ _ e]
        · intro Val F L1 L2 X V A hF hX hSat
          refine hS F L1 L2 X V A hF hSat ?_
          intro l w hx
          obtain ⟨k', o', ho', hd', hk', hl'⟩ := hX l w hx
          refine ⟨?_, ?_⟩
          · rintro rfl
            obtain ⟨q1, q2⟩ := j.phase k' o' p ho' hl'
            by_cases hoL : occL o
            · exact q2 (.inl hk') (hL hoL)
            · have hoE : occE o := by exact hEL.resolve_right hoL
              have := j.defFree k' o' p ho' hd' hk' (fun h => h) hl' (hE hoE)
              rw [this] at hsome; simp at hsome
          · intro c r hr
            rw [hscr] at hr
            rintro rfl
            exact j.scr c r hr k' hl'
      · next hnone =>
        cases h1
        refine ⟨I, S, fun _ => .inl rfl, rfl, fun _ _ h => h, rfl, rfl, rfl, rfl, rfl, rfl, rfl, ?_, [], by simp, ?_⟩
        · intro w hw
          obtain ⟨x, hx, _⟩ := I.reg_in hw
          rw [hx] at hnone; simp at hnone
        · intro Val F L1 L2 X V A hF hX hSat
          simpa using hSat
    clear h1
    obtain ⟨I1, S1, k1, k2, k3, k4, k5, k6, k7, k8, k9, k10, k11, E, hEd, hS⟩ := key
    split at h
    · cases h
    · next s2 h2 =>
      have h2' : s2 = { s1 with lrus := s2.lrus } ∧ LruOk cx s2.lrus := by
        unfold poke at h2
        split at h2
        · cases h2
        · next l hl =>
          cases h2
          exact ⟨rfl, lruOk_poke I1.lru hreg hl⟩
      obtain ⟨heq, hlru⟩ := h2'
      obtain ⟨e, l, hocc, m1, m2, m3, m4⟩ := occupy_spec (s := s2) (eo := eo) (p := p)
      rw [hocc] at h
      have hh := Prod.mk.inj (Except.ok.inj h)
      obtain ⟨rfl, rfl⟩ := hh
      have eE : s2.availE = s.availE := by rw [heq]; exact k5
      have eL : s2.availL = s.availL := by rw [heq]; exact k6
      have eA : s2.alloc = s1.alloc := by rw [heq]
      have eS : s2.scratch = s1.scratch := by rw [heq]
      have eSl : s2.slot = s1.slot := by rw [heq]
      rw [eE] at m1
      rw [eL] at m2
      refine
        { inv := I1.of_eq eA (by rw [heq]) eSl (by rw [heq]) (by rw [heq]) hlru
          scrOk := S1.mono eS (fun q h => by rw [k5]; exact m1 q h) (fun q h => by rw [k6]; exact m2 q h)
            (fun w r h => by rw [← eA]; exact h)
          alloc := by dsimp only; rw [eA, eSl]; exact k1
          allocV := by dsimp only; rw [eA]; exact k2
          slot := by dsimp only; rw [eSl]; exact k3
          inPreg := by dsimp only; rw [heq]; exact k4
          availE := m1
          availL := m2
          live := by dsimp only; rw [heq]; exact k7
          allocs := by dsimp only; rw [heq]; exact k8
          reused := by dsimp only; rw [heq]; exact k9
          scratch := by dsimp only; rw [heq]; exact k10
          phase := ?_
          real := .inl ⟨p, rfl, hinit, hcls⟩
          free := ?_
          compat := ?_
          fixed := fun a' h' => by rw [hloc] at h'; cases h'
          noScr := fun c r hr e => hnoscr c r hr (reg_inj e).symm
          defReg := fun hk => ⟨p, rfl, hclob hk⟩
          lateClob := fun _ _ hp q hq => by cases reg_inj hq; exact j.clobL p (hL (.inr hp))
          sat := ?_ }
      · intro q hq
        cases reg_inj hq
        exact ⟨fun h => m3 (hef.phE.mp h), fun h => m4 (hef.phL.mp h)⟩
      · intro q hq
        cases reg_inj hq
        dsimp only; rw [eA]; exact k11
      · intro q hq k' o' ho' _ hl'
        cases reg_inj hq
        exact hcompat k' o' ho' hl'
      · refine ⟨E, by dsimp only; rw [heq]; exact hEd, ?_⟩
        intro Val F L1 L2 X V A hF hX hSat
        refine hS F L1 L2 X V A ⟨?_, hF.inj, hF.lt⟩ hX ⟨?_, hSat.slot, hSat.extra⟩
        · rw [← eSl]; exact hF.ext
        · rw [← eA]; exact hSat.here

/-- The slot of the operand's register. -/
theorem slotAlloc_spec (he : EnvOk cx) (I : Inv cx C P s) (S : ScrOk cx s) (hef : Eff cx i loc done k o eo)
    {a : Allocation} {s' : FS} (hk : o.kind = .Use) (hloc : loc k = none)
    (h : slotAlloc cx s eo.vreg = .ok (a, s')) : Ch cx C P i k o loc done s a s' := by
  unfold slotAlloc at h
  split at h
  · cases h
  · next n s1 h1 =>
    have hh := Prod.mk.inj (Except.ok.inj h)
    obtain ⟨rfl, rfl⟩ := hh
    obtain ⟨I1, hs, heq, mono, _⟩ := getSpillslot_spec he h1 I
    have hn29 := I1.slot29 hs
    have eA : s1.alloc = s.alloc := by rw [heq]
    have eE : s1.availE = s.availE := by rw [heq]
    have eL : s1.availL = s.availL := by rw [heq]
    refine
      { inv := I1
        scrOk := S.mono (by rw [heq]) (by rw [eE]; exact fun _ h => h) (by rw [eL]; exact fun _ h => h)
          (by rw [eA]; exact fun _ _ h => h)
        alloc := fun w => .inl (by rw [eA])
        allocV := by rw [eA]
        slot := mono
        inPreg := by rw [heq]
        availE := by rw [eE]; exact fun _ h => h
        availL := by rw [eL]; exact fun _ h => h
        live := by rw [heq]
        allocs := by rw [heq]
        reused := by rw [heq]
        scratch := by rw [heq]
        phase := fun p h => absurd h.symm (reg_ne_stk hn29)
        real := .inr ⟨n, rfl, by rw [← hef.vreg]; exact hs⟩
        free := fun p h => absurd h.symm (reg_ne_stk hn29)
        compat := fun p h => absurd h.symm (reg_ne_stk hn29)
        fixed := fun a' h' => by rw [hloc] at h'; cases h'
        noScr := fun c r _ h => absurd h.symm (reg_ne_stk hn29)
        defReg := fun h => by rw [hk] at h; cases h
        lateClob := fun _ _ _ p h => absurd h.symm (reg_ne_stk hn29)
        sat := ⟨[], by rw [heq]; rfl, ?_⟩ }
    intro Val F L1 L2 X V A hF hX hSat
    refine ⟨?_, hSat.slot, hSat.extra⟩
    rw [← eA]; exact hSat.here

/-- An operand whose register does not satisfy the constraint chooses a new one. -/
theorem chooseAlloc_spec (he : EnvOk cx) (hi : IOk cx C i) (I : Inv cx C P s) (S : ScrOk cx s)
    (j : J cx i W P s loc done (fun _ => False)) (hef : Eff cx i loc done k o eo)
    (ho : (cx.f.operands i)[k]? = some o) (hna : o.asFixedNonallocatable = none) (hnd : ¬ done k)
    (ord : o.pos = .Late → ∀ (k' : Nat) o', (cx.f.operands i)[k']? = some o' → done k' → o'.pos = .Late)
    (hdP : ∀ (k' : Nat) o', (cx.f.operands i)[k']? = some o' → done k' → o'.kind = .Def → P o'.vreg.vreg)
    (hnP : ¬ P o.vreg.vreg) {a : Allocation} {s' : FS} (hw : withinConstraint cx s i eo = .ok false)
    (h : chooseAlloc cx s i eo = .ok (a, s')) : Ch cx C P i k o loc done s a s' := by
  have hlocN : (∀ p, o.constraint ≠ .FixedReg p) → loc k = none := by
    intro hc
    cases hl : loc k with
    | none => rfl
    | some a =>
      obtain ⟨o', p, ho', hp⟩ := (j.undone k hnd).1 a hl
      rw [ho] at ho'; cases ho'
      exact absurd hp (hc p)
  have take : ∀ {a s'}, allocReg cx s i eo = .ok (a, s') → (∀ p, o.constraint ≠ .FixedReg p) →
      (∀ p, s.alloc o.vreg.vreg = Allocation.reg p → regUsable cx s i eo p = false ∨
        cx.isStack (Allocation.reg p) = true) →
      Ch cx C P i k o loc done s a s' := by
    intro a s' h hc hu
    unfold allocReg at h
    split at h
    · cases h
    · next p hp =>
      obtain ⟨q1, q2, q3⟩ := select_spec I.lru hp
      refine takeReg_spec he I S j hef q1 (fun h => q2 (hef.phE.mp h)) (fun h => q3 (hef.phL.mp h)) ?_ hnP (hlocN hc) h
      intro hv
      have := (hu p hv).resolve_right (by rw [he.isStack_reg q1]; simp)
      unfold regUsable at this
      have hav : (s.avail eo.pos).contains p = true := by
        cases hpos : eo.pos
        · exact q2 (.inr hpos)
        · exact q3 (.inr hpos)
      rw [if_pos hav] at this
      cases this
  unfold withinConstraint at hw
  unfold chooseAlloc at h
  dsimp only at hw
  have hvr := hef.vreg
  cases hc : eo.constraint with
  | Any =>
    rw [hc] at hw h
    dsimp only at hw h
    have hoc : o.constraint = .Any := by
      rcases hef.cons with h | ⟨h, _⟩ | ⟨p, kd, od, h, _⟩
      · rw [← h, hc]
      · rw [hc] at h; cases h
      · rw [hc] at h; cases h
    have hok : o.kind = .Use := by
      cases hk : o.kind with
      | Use => rfl
      | Def =>
        rcases hi.defC k o ho hk with h | ⟨p, h, _⟩ | ⟨_, _, h, _⟩ <;> rw [hoc] at h <;> cases h
    have hnf : ∀ p, o.constraint ≠ .FixedReg p := by rw [hoc]; intro p h; cases h
    split at h
    · exact slotAlloc_spec he I S hef hok (hlocN hnf) h
    · next hcnt =>
      split at h
      · next r hr =>
        cases h
        refine take hr hnf ?_
        intro p hp
        rw [hvr, hp, asReg_reg] at hw
        dsimp only at hw
        split at hw
        · next hlt =>
          rw [Bool.and_eq_true] at hlt
          have := of_decide_eq_true hlt.2
          exact absurd (.inr (by rw [hvr]; omega)) hcnt
        · exact .inl (Except.ok.inj hw)
      · exact slotAlloc_spec he I S hef hok (hlocN hnf) h
      · cases h
  | Reg =>
    rw [hc] at hw h
    dsimp only at hw h
    have hnf : ∀ p, o.constraint ≠ .FixedReg p := by
      intro p hp
      rcases hef.cons with h | ⟨_, j, h⟩ | ⟨p, kd, od, h, _⟩
      · rw [hc, hp] at h; cases h
      · rw [hp] at h; cases h
      · rw [hc] at h; cases h
    split at h
    · cases h
    · next a1 s1 h1 =>
      have hh := Prod.mk.inj (Except.ok.inj h)
      obtain ⟨rfl, rfl⟩ := hh
      have c := take h1 hnf (by
        intro p hp
        rw [hvr, hp, asReg_reg] at hw
        split at hw
        · next hst => exact .inr hst
        · exact .inl (Except.ok.inj hw))
      refine ⟨c.inv.of_eq rfl rfl rfl rfl rfl c.inv.lru, c.scrOk, c.alloc, c.allocV, c.slot, c.inPreg, c.availE, c.availL,
        c.live, c.allocs, c.reused, c.scratch, c.phase, c.real, c.free, c.compat, c.fixed, c.noScr, c.defReg,
        c.lateClob, ?_⟩
      obtain ⟨E, hE, hS⟩ := c.sat
      exact ⟨E, hE, fun F L1 L2 X V A hF hX hSat => hS F L1 L2 X V A (hF.of_eq rfl) hX (hSat.of_eq rfl)⟩
  | FixedReg p =>
    rw [hc] at hw h
    have hh := Prod.mk.inj (Except.ok.inj h)
    obtain ⟨rfl, rfl⟩ := hh
    have hwv : s.alloc o.vreg.vreg ≠ Allocation.reg p := by
      intro e
      rw [hvr, e, asReg_reg] at hw
      simp at hw
    rcases hef.cons with hoc | ⟨h, _⟩ | ⟨p', kd, od, h', hk, hpos, hcr, hkd, hre, hdn, hlkd⟩
    · rw [hc] at hoc
      have hl := j.fixedLoc k o p ho hna hoc.symm
      refine
        { inv := I
          scrOk := S
          alloc := fun w => .inl rfl
          allocV := rfl
          slot := fun _ _ h => h
          inPreg := rfl
          availE := fun _ h => h
          availL := fun _ h => h
          live := rfl
          allocs := rfl
          reused := rfl
          scratch := rfl
          phase := fun q hq => by cases reg_inj hq; exact j.phase k o p ho hl
          real := j.real k o _ ho hl
          free := ?_
          compat := ?_
          fixed := fun a' h' => by rw [hl] at h'; cases h'; rfl
          noScr := fun c r hr e => j.scr c r hr k (e ▸ hl)
          defReg := fun hk => j.defReg k o _ ho hk hl
          lateClob := fun hf hk hp q hq => by cases reg_inj hq; exact j.lateClob hf k o p ho hk hp hl
          sat := ⟨[], rfl, fun F L1 L2 X V A hF hX hSat => hSat⟩ }
      · intro q hq w hwp
        cases reg_inj hq
        by_cases hW : W w
        · have := j.through w p k o hW hwp ho hl
          rw [← this] at hwp
          exact hwv hwp
        · obtain ⟨k2, o2, ho2, hd2, hk2, hv2, hl2⟩ := j.fresh w p hW (fun h => h) hwp
          have hne : k ≠ k2 := by rintro rfl; exact hnd hd2
          rcases j.compat k k2 o o2 p ho ho2 hne hl hl2 with ⟨_, _, h⟩ | ⟨h1, h2⟩ | h | h
          · rw [hv2] at h; rw [h] at hwv; exact hwv hwp
          · have hoE : ¬ occE o := fun h => h1 ⟨h, .inl hk2⟩
            have hoD : o.kind = .Def := by
              cases hk : o.kind with
              | Def => rfl
              | Use => exact absurd (.inl hk) hoE
            have hoL : o.pos = .Late := by
              cases hp : o.pos with
              | Late => rfl
              | Early => exact absurd (.inr (.inl hp)) hoE
            exact h2 ⟨.inl hoD, .inr (ord hoL k2 o2 ho2 hd2)⟩
          · obtain ⟨j', _, h, _⟩ := h
            exact hi.useC k2 o2 ho2 hk2 j' h
          · obtain ⟨j', _, h, _⟩ := h
            rw [← hoc] at h; cases h
      · intro q hq k' o' ho' hne hl'
        cases reg_inj hq
        exact j.compat k k' o o' p ho ho' (Ne.symm hne) hl hl'
    · rw [hc] at h; cases h
    · rw [hc] at h'; cases h'
      have hod : od.kind = .Def := by
        cases hk' : od.kind with
        | Def => rfl
        | Use => exact absurd hre (hi.useC kd od hkd hk' k)
      have hnf : ∀ p, o.constraint ≠ .FixedReg p := by rw [hcr]; intro p h; cases h
      have hodE : occE od := .inr (.inr ⟨k, hre⟩)
      have hodL : occL od := .inl hod
      obtain ⟨ph1, ph2⟩ := j.phase kd od p hkd hlkd
      -- another operand in the same register reads the same value
      have same : ∀ (k2 : Nat) o2, (cx.f.operands i)[k2]? = some o2 → k2 ≠ kd → loc k2 = some (Allocation.reg p) →
          o2.kind = .Use ∧ o2.vreg.vreg = o.vreg.vreg := by
        intro k2 o2 ho2 hne hl2
        rcases j.compat kd k2 od o2 p hkd ho2 (Ne.symm hne) hlkd hl2 with ⟨h, _, _⟩ | ⟨h1, h2⟩ | h | h
        · rw [hod] at h; cases h
        · exfalso
          have : occE o2 ∨ occL o2 := by unfold occE occL; cases o2.kind <;> simp
          rcases this with h | h
          · exact h1 ⟨hodE, h⟩
          · exact h2 ⟨hodL, h⟩
        · obtain ⟨_, _, _, _, h, _⟩ := h
          rw [hod] at h; cases h
        · obtain ⟨j', oj, h1, h2, h3, h4, h5⟩ := h
          rw [hre] at h1; cases h1
          rw [ho] at h2; cases h2
          exact ⟨h3, by rw [h5]⟩
      refine
        { inv := I
          scrOk := S
          alloc := fun w => .inl rfl
          allocV := rfl
          slot := fun _ _ h => h
          inPreg := rfl
          availE := fun _ h => h
          availL := fun _ h => h
          live := rfl
          allocs := rfl
          reused := rfl
          scratch := rfl
          phase := fun q hq => by
            cases reg_inj hq
            refine ⟨fun _ => ph1 hodE, fun h => ?_⟩
            rcases h with h | h
            · rw [hk] at h; cases h
            · rw [hpos] at h; cases h
          real := ?_
          free := ?_
          compat := ?_
          fixed := fun a' h' => by rw [hlocN hnf] at h'; cases h'
          noScr := fun c r hr e => j.scr c r hr kd (e ▸ hlkd)
          defReg := fun h => by rw [hk] at h; cases h
          lateClob := fun _ _ h => by rw [hpos] at h; cases h
          sat := ⟨[], rfl, fun F L1 L2 X V A hF hX hSat => hSat⟩ }
      · obtain ⟨p', hp', h1, h2⟩ | ⟨n, hn, h1⟩ := j.real kd od _ hkd hlkd
        · cases reg_inj hp'
          refine .inl ⟨p, rfl, h1, ?_⟩
          rcases hi.defC kd od hkd hod with h | ⟨q, h, _⟩ | ⟨j', oj, h, h3, _, _, _, h4, _⟩
          · rw [hre] at h; cases h
          · rw [hre] at h; cases h
          · rw [hre] at h; cases h
            rw [ho] at h3; cases h3
            rw [h2, h4]
        · exact absurd hn (reg_ne_stk (I.slot29 h1))
      · intro q hq w hwp
        cases reg_inj hq
        by_cases hW : W w
        · have := j.through w p kd od hW hwp hkd hlkd
          exact I.noReg w (this ▸ hdP kd od hkd hdn hod) p hwp
        · obtain ⟨k2, o2, ho2, hd2, hk2, hv2, hl2⟩ := j.fresh w p hW (fun h => h) hwp
          have hne : k2 ≠ kd := by rintro rfl; rw [hkd] at ho2; cases ho2; rw [hod] at hk2; cases hk2
          have := (same k2 o2 ho2 hne hl2).2
          rw [← hv2, this] at hwp
          exact hwv hwp
      · intro q hq k' o' ho' hne hl'
        cases reg_inj hq
        by_cases e : k' = kd
        · subst e
          rw [hkd] at ho'; cases ho'
          exact .inr (.inr (.inl ⟨k, o, hre, ho, hk, hpos, rfl⟩))
        · obtain ⟨h1, h2⟩ := same k' o' ho' e hl'
          exact .inl ⟨hk, h1, h2.symm⟩
  | Reuse j' => rw [hc] at h; cases h
  | Stack =>
    rw [hc] at h
    dsimp only at h
    have hoc : o.constraint = .Stack := by
      rcases hef.cons with h | ⟨h, _⟩ | ⟨p, kd, od, h, _⟩
      · rw [← h, hc]
      · rw [hc] at h; cases h
      · rw [hc] at h; cases h
    have hok : o.kind = .Use := by
      cases hk : o.kind with
      | Use => rfl
      | Def =>
        rcases hi.defC k o ho hk with h | ⟨p, h, _⟩ | ⟨_, _, h, _⟩ <;> rw [hoc] at h <;> cases h
    have hnf : ∀ p, o.constraint ≠ .FixedReg p := by rw [hoc]; intro p h; cases h
    exact slotAlloc_spec he I S hef hok (hlocN hnf) h
  | Limit n => rw [hc] at h; cases h

/-- Operand `k` has been given location `a`. -/
theorem J.step (hi : IOk cx C i) (j : J cx i W P s loc done (fun _ => False)) (ho : (cx.f.operands i)[k]? = some o)
    (hna : o.asFixedNonallocatable = none) (hnd : ¬ done k) {a : Allocation} {s' : FS}
    (hAE : ∀ p, s'.availE.contains p = true → s.availE.contains p = true)
    (hAL : ∀ p, s'.availL.contains p = true → s.availL.contains p = true)
    (hslot : ∀ v n, s.slot v = some n → s'.slot v = some n)
    (halloc : ∀ w q, s'.alloc w = Allocation.reg q → s.alloc w = Allocation.reg q ∨
      (w = o.vreg.vreg ∧ a = Allocation.reg q ∧ ¬ W w))
    (hnone : ∀ w, s.alloc w ≠ Allocation.none → s'.alloc w ≠ Allocation.none)
    (hv : s'.alloc o.vreg.vreg ≠ Allocation.none)
    (hin : ∀ q, s'.inPreg q = none ∨ s'.inPreg q = s.inPreg q ∨ a = Allocation.reg q)
    (hscr : ∀ c r, s'.scratch c = some r → a ≠ Allocation.reg r ∧ ∀ k', loc k' ≠ some (Allocation.reg r))
    (hallocs : s'.allocs = set1 s.allocs i (set1 (s.allocs i) k a)) (hreu : s'.reused = s.reused)
    (hphase : ∀ p, a = Allocation.reg p →
      (occE o → ¬ s'.availE.contains p = true) ∧ (occL o → ¬ s'.availL.contains p = true))
    (hreal : (∃ p, a = Allocation.reg p ∧ cx.initAvail.contains p = true ∧ pcls p = vcls o.vreg) ∨
      ∃ n, a = stk n ∧ s'.slot o.vreg.vreg = some n)
    (hcompat : ∀ p, a = Allocation.reg p → ∀ (k' : Nat) o', (cx.f.operands i)[k']? = some o' → k' ≠ k →
      loc k' = some (Allocation.reg p) → Compat (cx.f.operands i) o o')
    (hthr : ∀ q w, a = Allocation.reg q → W w → s'.alloc w = Allocation.reg q → o.vreg.vreg = w)
    (hfix : ∀ a', loc k = some a' → a = a')
    (hdef : o.kind = .Def → ∃ p, a = Allocation.reg p ∧ ¬ (cx.clob i).contains p = true)
    (hlate : LateFix cx i → o.kind = .Use → o.pos = .Late → ∀ p, a = Allocation.reg p → ¬ (cx.clob i).contains p = true) :
    J cx i W P s' (set1 loc k (some a)) (fun x => done x ∨ x = k) (fun w => o.kind = .Def ∧ w = o.vreg.vreg) := by
  have aat : ∀ k', s'.allocs i k' = if k' = k then a else s.allocs i k' := by
    intro k'
    rw [hallocs]
    simp only [set1, if_true]
  refine
    { phase := ?_, real := ?_, compat := ?_, through := ?_, fresh := ?_, defFree := ?_, scr := ?_,
      clobL := fun p h => j.clobL p (hAL p h), initE := fun p h => j.initE p (hAE p h),
      initL := fun p h => j.initL p (hAL p h), clobW := ?_, locDone := ?_, undone := ?_, hasLoc := ?_, useLive := ?_,
      wLive := ?_, fixedLoc := ?_, reused := by rw [hreu]; exact j.reused, defReg := ?_, lateClob := ?_, locOp := ?_, na := ?_ }
  · intro k' o' p ho' hl
    by_cases e : k' = k
    · subst e
      rw [set1_same] at hl
      rw [ho] at ho'; cases ho'
      exact hphase p (Option.some.inj hl)
    · rw [set1_ne _ _ e] at hl
      obtain ⟨h1, h2⟩ := j.phase k' o' p ho' hl
      exact ⟨fun h h' => h1 h (hAE p h'), fun h h' => h2 h (hAL p h')⟩
  · intro k' o' a' ho' hl
    by_cases e : k' = k
    · subst e
      rw [set1_same] at hl
      rw [ho] at ho'; cases ho'
      cases hl
      exact hreal
    · rw [set1_ne _ _ e] at hl
      rcases j.real k' o' a' ho' hl with h | ⟨n, h1, h2⟩
      · exact .inl h
      · exact .inr ⟨n, h1, hslot _ _ h2⟩
  · intro k1 k2 o1 o2 p ho1 ho2 hne hl1 hl2
    by_cases e : k1 = k
    · subst e
      rw [ho] at ho1; cases ho1
      rw [set1_same] at hl1
      rw [set1_ne _ _ (Ne.symm hne)] at hl2
      exact hcompat p (Option.some.inj hl1) k2 o2 ho2 (Ne.symm hne) hl2
    · rw [set1_ne _ _ e] at hl1
      by_cases e2 : k2 = k
      · subst e2
        rw [ho] at ho2; cases ho2
        rw [set1_same] at hl2
        exact (hcompat p (Option.some.inj hl2) k1 o1 ho1 e hl1).symm
      · rw [set1_ne _ _ e2] at hl2
        exact j.compat k1 k2 o1 o2 p ho1 ho2 hne hl1 hl2
  · intro w p k' o' hW ha ho' hl
    by_cases e : k' = k
    · subst e
      rw [ho] at ho'; cases ho'
      rw [set1_same] at hl
      exact hthr p w (Option.some.inj hl) hW ha
    · rw [set1_ne _ _ e] at hl
      rcases halloc w p ha with h | ⟨_, _, h⟩
      · exact j.through w p k' o' hW h ho' hl
      · exact absurd hW h
  · intro w p hW hex ha
    rcases halloc w p ha with h | ⟨h1, h2, _⟩
    · obtain ⟨k2, o2, ho2, hd2, hk2, hv2, hl2⟩ := j.fresh w p hW (fun h => h) h
      have hne : k2 ≠ k := by rintro rfl; exact hnd hd2
      exact ⟨k2, o2, ho2, .inl hd2, hk2, hv2, by rw [set1_ne _ _ hne]; exact hl2⟩
    · refine ⟨k, o, ho, .inr rfl, ?_, h1.symm, by rw [set1_same, h2]⟩
      cases hk : o.kind with
      | Use => rfl
      | Def => exact absurd ⟨hk, h1⟩ hex
  · intro k' o' p ho' hd hk hex hl hav
    by_cases e : k' = k
    · subst e
      rw [ho] at ho'; cases ho'
      exact absurd ⟨hk, rfl⟩ hex
    · rw [set1_ne _ _ e] at hl
      have hd' : done k' := hd.resolve_right e
      rcases hin p with h | h | h
      · exact h
      · rw [h]; exact j.defFree k' o' p ho' hd' hk (fun h => h) hl (hAE p hav)
      · exfalso
        have hc := hcompat p h k' o' ho' e hl
        have hph := hphase p h
        rcases hc with ⟨_, h', _⟩ | ⟨h1, h2⟩ | ⟨_, _, hr, hoj, hku, hpe, hvv⟩ | ⟨_, _, _, _, h', _⟩
        · rw [hk] at h'; cases h'
        · cases hko : o.kind with
          | Def => exact h2 ⟨.inl hko, .inl hk⟩
          | Use => exact hph.1 (.inl hko) hav
        · exact hph.1 (.inl hku) hav
        · rw [hk] at h'; cases h'
  · intro c r hr k' hl
    obtain ⟨h1, h2⟩ := hscr c r hr
    by_cases e : k' = k
    · subst e
      rw [set1_same] at hl
      exact h1 (Option.some.inj hl)
    · rw [set1_ne _ _ e] at hl
      exact h2 k' hl
  · intro w p hW ha
    rcases halloc w p ha with h | ⟨_, _, h⟩
    · exact j.clobW w p hW h
    · exact absurd hW h
  · intro k' a' hd hl
    rw [aat]
    by_cases e : k' = k
    · subst e
      rw [set1_same] at hl
      rw [if_pos rfl]; exact Option.some.inj hl
    · rw [set1_ne _ _ e] at hl
      rw [if_neg e]
      exact j.locDone k' a' (hd.resolve_right e) hl
  · intro k' hd
    have e : k' ≠ k := fun e => hd (.inr e)
    rw [set1_ne _ _ e, aat, if_neg e]
    exact j.undone k' (fun h => hd (.inl h))
  · intro k' o' hd ho' hn
    by_cases e : k' = k
    · subst e; exact ⟨a, set1_same _ _ _⟩
    · rw [set1_ne _ _ e]; exact j.hasLoc k' o' (hd.resolve_right e) ho' hn
  · intro k' o' hd ho' hk hn
    by_cases e : k' = k
    · subst e
      rw [ho] at ho'; cases ho'
      exact hv
    · exact hnone _ (j.useLive k' o' (hd.resolve_right e) ho' hk hn)
  · intro w hW
    exact (j.wLive w hW).imp_left (hnone w)
  · intro k' o' p ho' hn hc
    have := j.fixedLoc k' o' p ho' hn hc
    by_cases e : k' = k
    · subst e
      rw [set1_same, hfix _ this]
    · rw [set1_ne _ _ e]; exact this
  · intro k' o' a' ho' hk hl
    by_cases e : k' = k
    · subst e
      rw [ho] at ho'; cases ho'
      rw [set1_same] at hl
      cases hl
      exact hdef hk
    · rw [set1_ne _ _ e] at hl
      exact j.defReg k' o' a' ho' hk hl
  · intro hf k' o' p ho' hk hp hl
    by_cases e : k' = k
    · subst e
      rw [ho] at ho'; cases ho'
      rw [set1_same] at hl
      exact hlate hf hk hp p (Option.some.inj hl)
    · rw [set1_ne _ _ e] at hl
      exact j.lateClob hf k' o' p ho' hk hp hl
  · intro k' a' hl
    by_cases e : k' = k
    · subst e; exact ⟨o, ho⟩
    · rw [set1_ne _ _ e] at hl
      exact j.locOp k' a' hl
  · intro k' o' p ho' hn
    have e : k' ≠ k := by rintro rfl; rw [ho] at ho'; cases ho'; rw [hna] at hn; cases hn
    rw [set1_ne _ _ e, aat, if_neg e]
    obtain ⟨h1, h2⟩ := j.na k' o' p ho' hn
    exact ⟨h1, fun hd => h2 (hd.resolve_right e)⟩

end

end Fast
end Regalloc
