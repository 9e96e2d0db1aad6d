import Verif.Proofs.FastSlots

/-
Single-pass allocator: a register that is only read in registers keeps its location until it is
given a slot, and from then on the slot is its location.
-/
namespace Regalloc
namespace Fast

/-- The constraint asks for a register. -/
def RegC (c : OperandConstraint) : Prop := c = .Reg ∨ ∃ p, c = .FixedReg p

/-- If the register has a slot, it is there; and it is in no register when it is nowhere. -/
structure Qw (w : Nat) (s : FS) : Prop where
  at' : ∀ n, s.slot w = some n → s.alloc w = stk n ∧ (s.alloc w).isNone = false
  val : (s.alloc w).isNone = true → s.alloc w = Allocation.none
  out : s.alloc w = Allocation.none → ∀ p x, s.inPreg p = some x → x.vreg ≠ w

/-- What a step does to one register; `B` is that the step names it, `C` that it may be given a
slot without having been in a register. -/
structure Wk (w : Nat) (B C : Prop) (s s' : FS) : Prop where
  q : Qw w s → Qw w s'
  slot : Qw w s → ∀ n, s.slot w = some n → s'.slot w = some n
  keep : Qw w s → s.alloc w ≠ Allocation.none → s'.alloc w ≠ Allocation.none ∧ (s'.slot w = none → s'.alloc w = s.alloc w)
  none : Qw w s → s.alloc w = Allocation.none → s'.slot w = none → ¬ B → s'.alloc w = Allocation.none
  quiet : Qw w s → s.alloc w = Allocation.none → ¬ B → ¬ C → s'.slot w = Option.none

theorem Qw.slotNone {w : Nat} {s : FS} (q : Qw w s) (h : s.alloc w = Allocation.none) : s.slot w = none := by
  cases e : s.slot w with
  | none => rfl
  | some n => have := (q.at' n e).2; rw [h, isNone_none] at this; cases this

theorem ne_none_of {a : Allocation} (h : a.isNone = false) : a ≠ Allocation.none := by
  rintro rfl; rw [isNone_none] at h; cases h

theorem Wk.refl (w : Nat) (B C : Prop) (s : FS) : Wk w B C s s :=
  ⟨fun h => h, fun _ _ h => h, fun _ h => ⟨h, fun _ => rfl⟩, fun _ h _ _ => h, fun q h _ _ => q.slotNone h⟩

variable {w : Nat} {B C : Prop}

theorem Wk.ofQ {s s' : FS} (h : Qw w s → Wk w B C s s') : Wk w B C s s' :=
  ⟨fun q => (h q).q q, fun q => (h q).slot q, fun q => (h q).keep q, fun q => (h q).none q, fun q => (h q).quiet q⟩

theorem Wk.slotNone {s s' : FS} (h : Wk w B C s s') (q : Qw w s) (hn : s'.slot w = Option.none) :
    s.slot w = Option.none := by
  cases e : s.slot w with
  | none => rfl
  | some n => rw [h.slot q n e] at hn; cases hn

theorem Wk.trans {s1 s2 s3 : FS} (h : Wk w B C s1 s2) (g : Wk w B C s2 s3) : Wk w B C s1 s3 := by
  refine ⟨fun q => g.q (h.q q), fun q n hn => g.slot (h.q q) n (h.slot q n hn), ?_, ?_, ?_⟩
  · intro q ha
    obtain ⟨h1, h2⟩ := h.keep q ha
    obtain ⟨g1, g2⟩ := g.keep (h.q q) h1
    exact ⟨g1, fun hn => by rw [g2 hn, h2 (g.slotNone (h.q q) hn)]⟩
  · intro q ha hn hb
    exact g.none (h.q q) (h.none q ha (g.slotNone (h.q q) hn) hb) hn hb
  · intro q ha hb hc
    exact g.quiet (h.q q) (h.none q ha (h.quiet q ha hb hc) hb) hb hc

theorem Wk.mono {B' C' : Prop} {s s' : FS} (h : Wk w B C s s') (hb : B → B') (hc : C → C') : Wk w B' C' s s' :=
  ⟨h.q, h.slot, h.keep, fun q ha hn hb' => h.none q ha hn (fun x => hb' (hb x)),
    fun q ha hb' hc' => h.quiet q ha (fun x => hb' (hb x)) (fun x => hc' (hc x))⟩

/-- Nothing is done to the register. -/
theorem Wk.frame {s s' : FS} (h1 : s'.slot w = s.slot w) (h2 : s'.alloc w = s.alloc w)
    (h3 : ∀ p x, s'.inPreg p = some x → x.vreg = w → ∃ q y, s.inPreg q = some y ∧ y.vreg = w) : Wk w B C s s' := by
  refine ⟨?_, fun _ n hn => by rw [h1]; exact hn, fun _ ha => ⟨by rw [h2]; exact ha, fun _ => h2⟩,
    fun _ ha _ _ => by rw [h2]; exact ha, fun q ha _ _ => by rw [h1]; exact q.slotNone ha⟩
  intro q
  refine ⟨?_, by rw [h2]; exact q.val, ?_⟩
  · rw [h1, h2]; exact q.at'
  · rw [h2]
    intro ha p x hx e
    obtain ⟨p', y, hy, e'⟩ := h3 p x hx e
    exact q.out ha p' y hy e'

theorem Wk.of_eq {s s' : FS} (h1 : s'.slot = s.slot) (h2 : s'.alloc = s.alloc) (h3 : s'.inPreg = s.inPreg) :
    Wk w B C s s' :=
  Wk.frame (by rw [h1]) (by rw [h2]) (fun p x hx e => ⟨p, x, by rw [← h3]; exact hx, e⟩)

/-- The register is given its slot. -/
theorem Wk.toSlot {s s' : FS} {n : Nat} (h0 : ∀ m, s.slot w = some m → m = n) (h1 : s'.slot w = some n)
    (h2 : s'.alloc w = stk n) (h3 : s.slot w = Option.none → (stk n).isNone = false)
    (h5 : s.alloc w = Allocation.none → Qw w s → C) : Wk w B C s s' := by
  have h6 : Qw w s → (stk n).isNone = false := by
    intro q
    cases e : s.slot w with
    | none => exact h3 e
    | some m =>
      have := h0 m e; subst this
      rw [← (q.at' m e).1]; exact (q.at' m e).2
  have h4 : Qw w s → stk n ≠ Allocation.none := fun q => ne_none_of (h6 q)
  refine ⟨?_, ?_, ?_, ?_, ?_⟩
  · intro q
    refine ⟨?_, by (rw [h2, h6 q]; intro h; cases h), ?_⟩
    · intro m hm
      rw [h1] at hm; cases hm
      exact ⟨h2, by rw [h2]; exact h6 q⟩
    · intro ha; rw [h2] at ha; exact absurd ha (h4 q)
  · intro _ m hm; rw [h1, h0 m hm]
  · intro q _
    exact ⟨by rw [h2]; exact h4 q, fun hn => by rw [h1] at hn; cases hn⟩
  · intro _ _ hn; rw [h1] at hn; cases hn
  · intro q ha _ hc; exact absurd (h5 ha q) hc

theorem foldlM_wk {α : Type} {f : FS → α → R FS} {l : List α} {s s' : FS}
    (hs : ∀ x ∈ l, ∀ t t', f t x = .ok t' → Wk w B C t t') (h : l.foldlM f s = .ok s') : Wk w B C s s' :=
  foldlM_inv (fun _ t => Wk w B C s t) (Wk.refl w B C s)
    (fun pre x post t t' hl ht hf => ht.trans (hs x (by rw [hl]; simp) t t' hf)) h

variable {cx : Cx}

theorem getSpillslot_out {s s' : FS} {v : VReg} {n : Nat} (h : getSpillslot cx s v = .ok (n, s')) :
    s'.alloc = s.alloc ∧ s'.inPreg = s.inPreg ∧ s'.slot v.vreg = some n ∧ (∀ m, s.slot v.vreg = some m → m = n) ∧
      (s.slot v.vreg = none → (stk n).isNone = false) ∧ ∀ u, u ≠ v.vreg → s'.slot u = s.slot u := by
  unfold getSpillslot at h
  split at h
  · next m hm =>
    cases h
    exact ⟨rfl, rfl, hm, fun m' h' => (Option.some.inj (h'.symm.trans hm)), fun h' => by (rw [hm] at h'; cases h'),
      fun _ _ => rfl⟩
  · next hm =>
    split at h
    · cases h
    · next m k ha =>
      cases h
      unfold allocstack at ha
      split at ha
      · cases ha
      · split at ha
        · cases ha
        · next hle =>
          have hmk : slotAt cx.byLast (cx.size (vcls v)) s.numSlots = n := by
            have := congrArg Prod.fst (Except.ok.inj ha)
            simpa using this
          refine ⟨rfl, rfl, by dsimp only; rw [set1_same], fun m h' => by (rw [hm] at h'; cases h'), fun _ => ?_, ?_⟩
          · apply isNone_stk
            rw [hmk] at hle
            unfold SpillSlot.MAX at hle
            omega
          · intro u hu; dsimp only; rw [set1_ne _ _ hu]

theorem getSpillslot_wk {s s' : FS} {v : VReg} {n : Nat} (hv : v.vreg ≠ w) (h : getSpillslot cx s v = .ok (n, s')) :
    Wk w B C s s' := by
  obtain ⟨h1, h2, -, -, -, h3⟩ := getSpillslot_out h
  exact Wk.frame (h3 w (fun e => hv e.symm)) (by rw [h1]) (fun p x hx e => ⟨p, x, by rw [← h2]; exact hx, e⟩)

theorem toSlot_wk {s s' : FS} {p : PReg} {v : VReg} {n : Nat} (hp : s.inPreg p = some v)
    (h : toSlot cx s v = .ok (n, s')) : Wk w B C s s' := by
  unfold toSlot at h
  split at h
  · cases h
  · next h1 =>
    cases h
    by_cases e : v.vreg = w
    · subst e
      obtain ⟨g1, g2, g3, g4, g5, -⟩ := getSpillslot_out h1
      exact Wk.toSlot g4 g3 (by dsimp only; rw [set1_same]) g5 (fun ha q => absurd rfl (q.out ha p v hp))
    · refine (getSpillslot_wk e h1).trans (Wk.frame rfl ?_ (fun p x hx e => ⟨p, x, hx, e⟩))
      dsimp only
      rw [set1_ne _ _ (fun e' => e e'.symm)]

theorem evictPlain_wk {s s' : FS} {i : Nat} {p : PReg} {pos : InstPosition} (h : evictPlain cx s i p pos = .ok s') :
    Wk w B C s s' := by
  unfold evictPlain at h
  split at h
  · cases h
  · next hp =>
    split at h
    · cases h
    · next h1 =>
      split at h
      · cases h
      · cases h; exact (toSlot_wk hp h1).trans (Wk.of_eq rfl rfl rfl)

theorem ensureScratch_wk {s s' : FS} {i : Nat} {c : RegClass} {pos : InstPosition}
    (h : ensureScratch cx s i c pos = .ok s') : Wk w B C s s' := by
  unfold ensureScratch at h
  split at h
  · cases h; exact Wk.refl _ _ _ _
  · split at h
    · cases h
    · next s1 h1 =>
      cases h
      refine Wk.trans ?_ (Wk.of_eq (s := s1) rfl rfl rfl)
      unfold allocScratch at h1
      split at h1
      · cases h1
      · cases h1
      · split at h1
        · cases h1
        · next s2 h2 =>
          cases h1
          refine Wk.trans ?_ (Wk.of_eq (s := s2) rfl rfl rfl)
          split at h2
          · exact evictPlain_wk h2
          · cases h2; exact Wk.refl _ _ _ _

theorem addMove_wk {s s' : FS} {i : Nat} {a b : Allocation} {c : RegClass} {pos : InstPosition}
    (h : addMove cx s i a b c pos = .ok s') : Wk w B C s s' := by
  unfold addMove at h
  split at h
  · split at h
    · cases h
    · next h1 =>
      split at h
      · cases h
      · cases h; exact (ensureScratch_wk h1).trans (Wk.of_eq rfl rfl rfl)
  · cases h; exact Wk.of_eq rfl rfl rfl

theorem evict_wk {s s' : FS} {i : Nat} {p : PReg} {pos : InstPosition} (h : evict cx s i p pos = .ok s') : Wk w B C s s' := by
  unfold evict at h
  split at h
  · cases h
  · next hp =>
    split at h
    · cases h
    · next h1 => exact (toSlot_wk hp h1).trans (addMove_wk h)

theorem unavail_wk (s : FS) (pos : OperandPos) (p : PReg) : Wk w B C s (s.unavail pos p) := by
  cases pos <;> exact Wk.of_eq rfl rfl rfl

theorem occupy_wk (s : FS) (o : Op) (p : PReg) : Wk w B C s (occupy s o p) := by
  unfold occupy
  dsimp only
  have : Wk w B C s (s.unavail o.pos p) := unavail_wk s o.pos p
  split
  · exact this.trans (unavail_wk _ _ _)
  · exact this.trans (unavail_wk _ _ _)
  · split
    · exact this.trans (unavail_wk _ _ _)
    · exact this
  · exact this

theorem poke_wk {s s' : FS} {c : RegClass} {p : PReg} (h : poke s c p = .ok s') : Wk w B C s s' := by
  unfold poke at h
  split at h
  · cases h
  · cases h; exact Wk.of_eq rfl rfl rfl

theorem allocReg_wk {s s' : FS} {i : Nat} {o : Op} {a : Allocation} (h : allocReg cx s i o = .ok (a, s')) : Wk w B C s s' := by
  unfold allocReg at h
  split at h
  · cases h
  · unfold takeReg at h
    split at h
    · cases h
    · next s1 h1 =>
      split at h
      · cases h
      · next s2 h2 =>
        cases h
        refine Wk.trans ?_ ((poke_wk h2).trans (occupy_wk _ _ _))
        split at h1
        · exact evict_wk h1
        · cases h1; exact Wk.refl _ _ _ _

theorem slotAlloc_wk {s s' : FS} {v : VReg} {a : Allocation} (hv : v.vreg ≠ w) (h : slotAlloc cx s v = .ok (a, s')) :
    Wk w B C s s' := by
  unfold slotAlloc at h
  split at h
  · cases h
  · next h1 => cases h; exact getSpillslot_wk hv h1

theorem chooseAlloc_wk {s s' : FS} {i : Nat} {o : Op} {a : Allocation} (hw : o.vreg.vreg = w → RegC o.constraint)
    (h : chooseAlloc cx s i o = .ok (a, s')) : Wk w B C s s' := by
  have hne : (o.constraint = .Any ∨ o.constraint = .Stack) → o.vreg.vreg ≠ w := by
    intro hc e
    rcases hw e with h' | ⟨p, h'⟩ <;> rcases hc with h'' | h'' <;> rw [h'] at h'' <;> cases h''
  unfold chooseAlloc at h
  split at h
  · next hc =>
    split at h
    · exact slotAlloc_wk (hne (.inl hc)) h
    · split at h
      · next h1 => cases h; exact allocReg_wk h1
      · exact slotAlloc_wk (hne (.inl hc)) h
      · cases h
  · split at h
    · cases h
    · next h1 => cases h; exact (allocReg_wk h1).trans (Wk.of_eq rfl rfl rfl)
  · cases h; exact Wk.refl _ _ _ _
  · cases h
  · next hc => exact slotAlloc_wk (hne (.inr hc)) h
  · cases h

/-- The register chosen for an operand that asks for one. -/
theorem chooseAlloc_reg {s s' : FS} {i : Nat} {o : Op} {a : Allocation} (hw : RegC o.constraint)
    (h : chooseAlloc cx s i o = .ok (a, s')) : a.isNone = false := by
  rcases hw with h' | ⟨p, h'⟩ <;> unfold chooseAlloc at h <;> rw [h'] at h <;> dsimp only at h
  · split at h
    · cases h
    · next h1 =>
      cases h
      unfold allocReg at h1
      split at h1
      · cases h1
      · unfold takeReg at h1
        split at h1
        · cases h1
        · split at h1
          · cases h1
          · cases h1; exact isNone_reg _
  · cases h; exact isNone_reg _

theorem setNone_wk (s : FS) (p : PReg) : Wk w B C s { s with inPreg := set1 s.inPreg p none } := by
  refine Wk.frame rfl rfl ?_
  intro q x hx e
  refine ⟨q, x, ?_, e⟩
  dsimp only at hx
  by_cases hq : q = p
  · subst hq; rw [set1_same] at hx; cases hx
  · rwa [set1_ne _ _ hq] at hx

theorem setIn_wk (s : FS) (a : Allocation) : Wk w B C s (s.setIn a none) := by
  unfold FS.setIn
  split
  · exact setNone_wk _ _
  · exact Wk.refl _ _ _ _

theorem keepAlloc_wk {s s' : FS} {i : Nat} {o : Op} {k : Nat} (h : keepAlloc cx s i o k = .ok s') : Wk w B C s s' := by
  unfold keepAlloc at h
  dsimp only at h
  have h0 : Wk w B C s (if o.constraint = .Reg then { s.setAllocs i k (s.alloc o.vreg.vreg) with
      numAny := bump (s.setAllocs i k (s.alloc o.vreg.vreg)).numAny (epos o) (vcls o.vreg) (-1) }
      else s.setAllocs i k (s.alloc o.vreg.vreg)) := by
    split <;> exact Wk.of_eq rfl rfl rfl
  split at h
  · cases h; exact h0
  · next p hp =>
    split at h
    · cases h
    · next s1 h1 =>
      have h2 : Wk w B C s s1 := by
        refine h0.trans ?_
        revert h1
        split
        · exact poke_wk
        · intro h1; cases h1; exact Wk.refl _ _ _ _
      have h3 := h2.trans (unavail_wk s1 o.pos p)
      split at h
      · cases h; exact h3.trans (unavail_wk _ _ _)
      · cases h; exact h3.trans (unavail_wk _ _ _)
      · cases h; exact h3

theorem becomeLive_wk {s s' : FS} {v : VReg} {a : Allocation} (hw : v.vreg = w → B ∧ a.isNone = false ∧
      s.alloc w = Allocation.none) (h : becomeLive s v a = .ok s') :
    Wk w B C s s' := by
  unfold becomeLive at h
  split at h
  · cases h
  · next live hl =>
    have h := Except.ok.inj h
    subst h
    have hal : ∀ t : FS, (t.setIn a (some v)).alloc = t.alloc ∧ (t.setIn a (some v)).slot = t.slot := by
      intro t; unfold FS.setIn; split <;> exact ⟨rfl, rfl⟩
    by_cases e : v.vreg = w
    · obtain ⟨hb, ha, hn⟩ := hw e
      have e1 : (FS.setIn { s with live := live, alloc := set1 s.alloc v.vreg a } a (some v)).alloc w = a := by
        rw [(hal _).1]; dsimp only; rw [e, set1_same]
      have e2 : (FS.setIn { s with live := live, alloc := set1 s.alloc v.vreg a } a (some v)).slot w = s.slot w := by
        rw [(hal _).2]
      refine ⟨?_, ?_, ?_, ?_, ?_⟩
      · intro q
        refine ⟨?_, by (rw [e1, ha]; intro h; cases h), ?_⟩
        · intro n hs
          rw [e2, q.slotNone hn] at hs; cases hs
        · intro h'; rw [e1] at h'; exact absurd h' (ne_none_of ha)
      · intro _ n hs; rw [e2]; exact hs
      · intro _ h'; exact absurd hn h'
      · intro _ _ _ hb'; exact absurd hb hb'
      · intro _ _ hb'; exact absurd hb hb'
    · refine Wk.frame (by rw [(hal _).2]) ?_ ?_
      · rw [(hal _).1]; dsimp only; rw [set1_ne _ _ (fun e' => e e'.symm)]
      · intro p x hx ex
        refine ⟨p, x, ?_, ex⟩
        unfold FS.setIn at hx
        split at hx
        · next q hq =>
          dsimp only at hx
          by_cases hp : p = q
          · subst hp
            rw [set1_same] at hx
            cases hx
            exact absurd ex e
          · rwa [set1_ne _ _ hp] at hx
        · exact hx

theorem processOperand_wk {s s' : FS} {i : Nat} {o : Op} {k : Nat} (hw : o.vreg.vreg = w → B ∧ RegC o.constraint)
    (h : processOperand cx s i o k = .ok s') : Wk w B C s s' := by
  refine Wk.ofQ fun q => ?_
  unfold processOperand at h
  split at h
  · cases h; exact Wk.of_eq rfl rfl rfl
  · split at h
    · cases h
    · exact keepAlloc_wk h
    · dsimp only at h
      split at h
      · cases h
      · next a s1 h1 =>
        unfold allocOperand at h1
        split at h1
        · cases h1
        · next a' s0 h2 =>
          cases h1
          have n0 : ∀ {B C : Prop}, Wk w B C s s0 := chooseAlloc_wk (fun e => (hw e).2) h2
          have n1 : Wk w B C s (s0.setAllocs i k a) := n0.trans (Wk.of_eq rfl rfl rfl)
          split at h
          · next hc =>
            refine n1.trans (becomeLive_wk (fun e => ⟨(hw e).1, chooseAlloc_reg (hw e).2 h2, ?_⟩) h)
            have hn : s.alloc w = Allocation.none := q.val (by rw [← e]; exact hc)
            have n2 : Wk w False False s s0 := n0
            exact n2.none q hn (n2.quiet q hn (fun h => h) (fun h => h)) (fun h => h)
          · unfold relocate at h
            split at h
            · cases h
            · next s2 h3 =>
              cases h
              refine n1.trans (Wk.trans ?_ (setIn_wk _ _))
              split at h3
              · exact addMove_wk h3
              · cases h3; exact Wk.refl _ _ _ _

theorem freealloc_wk {s s' : FS} {v : VReg} (hv : v.vreg ≠ w) (h : freealloc s v = .ok s') : Wk w B C s s' := by
  unfold freealloc at h
  dsimp only at h
  split at h
  · cases h
  · split at h
    · cases h
    · cases h
      refine Wk.frame rfl ?_ ?_
      · dsimp only; rw [set1_ne _ _ (fun e' => hv e'.symm)]
      · intro p x hx ex
        refine ⟨p, x, ?_, ex⟩
        dsimp only at hx
        cases hq : (s.alloc v.vreg).asReg with
        | some q =>
          rw [hq] at hx
          dsimp only at hx
          by_cases hp : p = q
          · subst hp; rw [set1_same] at hx; cases hx
          · rwa [set1_ne _ _ hp] at hx
        | none => rw [hq] at hx; exact hx

theorem allocOp_wk {s s' : FS} {b i : Nat} {x : Nat × Op}
    (hc : x.2.kind = .Def → (x.2.constraint ≠ .Any ∧ x.2.constraint ≠ .Stack) ∧ x.2.vreg.vreg ≠ w)
    (hw : x.2.kind = .Use → x.2.vreg.vreg = w → B ∧ RegC x.2.constraint)
    (h : allocOp cx b i s x = .ok s') : Wk w B C s s' := by
  unfold allocOp at h
  split at h
  · next hk =>
    obtain ⟨⟨c1, c2⟩, c3⟩ := hc hk
    unfold allocDef at h
    split at h
    · cases h
    · next s1 h1 =>
      split at h
      · cases h
      · next s2 h2 =>
        refine Wk.trans (s2 := s1) ?_ (Wk.trans (s2 := s2) ?_ (freealloc_wk c3 h))
        · unfold defOperand at h1
          split at h1
          · split at h1
            · cases h1
            · refine processOperand_wk ?_ h1; exact fun e => absurd e c3
          · rw [if_neg (by simp [c1, c2])] at h1
            refine processOperand_wk ?_ h1; exact fun e => absurd e c3
        · unfold storeDef at h2
          split at h2
          · cases h2; exact Wk.refl _ _ _ _
          · split at h2
            · exact addMove_wk h2
            · cases h2; exact Wk.refl _ _ _ _
  · next hk =>
    unfold allocUse at h
    split at h
    · split at h
      · cases h
      · refine processOperand_wk ?_ h
        exact fun e => ⟨(hw hk e).1, .inr ⟨_, rfl⟩⟩
    · exact processOperand_wk (hw hk) h

theorem useMove_wk {s s' : FS} {i : Nat} {x : Nat × Op} (h : useMove cx i s x = .ok s') : Wk w B C s s' := by
  unfold useMove at h
  split at h
  · cases h; exact Wk.refl _ _ _ _
  · dsimp only at h
    split at h
    · exact addMove_wk h
    · cases h; exact Wk.refl _ _ _ _

theorem countOp_wk {s s' : FS} {i : Nat} {x : Nat × Op} (h : countOp cx i s x = .ok s') : Wk w B C s s' := by
  unfold countOp at h
  dsimp only at h
  split at h
  · split at h
    · cases h
    · split at h
      · cases h; exact Wk.of_eq rfl rfl rfl
      · cases h; exact Wk.of_eq rfl rfl rfl
  · cases h; exact Wk.of_eq rfl rfl rfl
  · cases h; exact Wk.refl _ _ _ _

theorem reserve_wk {s s' : FS} {o : Op} {k : Nat} {p : PReg} (h : reserve s o k p = .ok s') : Wk w B C s s' := by
  unfold reserve at h
  dsimp only at h
  repeat' split at h
  all_goals first | (cases h; done) | (cases h; exact Wk.of_eq rfl rfl rfl)

theorem reserveFixed_wk {i : Nat} {st st' : FS × PRegSet × Nat} {x : Nat × Op × PReg}
    (h : reserveFixed cx i st x = .ok st') : Wk w B C st.1 st'.1 := by
  unfold reserveFixed at h
  dsimp only at h
  split at h
  · cases h
  · next h1 =>
    have n1 : Wk w B C st.1 _ := reserve_wk h1
    split at h
    · cases h; exact n1
    · split at h
      · split at h
        · cases h
        · next h2 => cases h; exact n1.trans ((poke_wk h2).trans (Wk.of_eq rfl rfl rfl))
      · cases h; exact n1

theorem evictFixed_wk {s s' : FS} {i : Nat} {x : Nat × Op × PReg} (h : evictFixed cx i s x = .ok s') : Wk w B C s s' := by
  unfold evictFixed at h
  dsimp only at h
  split at h
  · cases h; exact Wk.refl _ _ _ _
  · split at h
    · cases h; exact Wk.refl _ _ _ _
    · split at h
      · cases h
      · next h1 => cases h; exact (evict_wk h1).trans (setNone_wk _ _)

theorem evictClobber_wk {i : Nat} {st st' : FS × Nat} {p : PReg} (h : evictClobber cx i st p = .ok st') : Wk w B C st.1 st'.1 := by
  unfold evictClobber at h
  split at h
  · cases h
  · next s1 h1 =>
    have n1 : Wk w B C st.1 s1 := by
      unfold evictClobber1 at h1
      split at h1
      · cases h1; exact Wk.refl _ _ _ _
      · split at h1
        · cases h1
        · next h2 => cases h1; exact (evict_wk h2).trans (setNone_wk _ _)
    split at h
    · split at h
      · cases h; exact n1.trans (Wk.of_eq rfl rfl rfl)
      · cases h; exact n1
    · cases h; exact n1

theorem instSetup_wk {s s' : FS} {i nc : Nat} (h : instSetup cx s i = .ok (s', nc)) : Wk w B C s s' := by
  unfold instSetup at h
  split at h
  · cases h
  · next s1 h1 =>
    split at h
    · cases h
    · next s2 sn nc' h2 =>
      cases h
      have n1 : Wk w B C s s1 := Wk.trans (Wk.of_eq (s' := reset cx s) rfl rfl rfl) (foldlM_wk (fun x _ t t' => countOp_wk) h1)
      have n2 : Wk w B C s1 s2 := foldlM_inv (fun _ (t : FS × PRegSet × Nat) => Wk w B C s1 t.1) (Wk.refl _ _ _ _)
        (fun pre x post t t' _ ht hf => ht.trans (reserveFixed_wk hf)) h2
      exact n1.trans (n2.trans (Wk.of_eq rfl rfl rfl))

theorem instEvict_wk {s s' : FS} {i nc : Nat} (h : instEvict cx s nc i = .ok s') : Wk w B C s s' := by
  unfold instEvict at h
  split at h
  · cases h
  · next s1 h1 =>
    split at h
    · cases h
    · next s2 nc' h2 =>
      have h := Except.ok.inj h
      subst h
      have n1 : Wk w B C s s1 := foldlM_wk (fun x _ t t' => evictFixed_wk) h1
      have n2 : Wk w B C s1 s2 := foldlM_inv (fun _ (t : FS × Nat) => Wk w B C s1 t.1) (Wk.refl _ _ _ _)
        (fun pre x post t t' _ ht hf => ht.trans (evictClobber_wk hf)) h2
      exact n1.trans n2

theorem argToSlot_wk {s s' : FS} {i n : Nat} {v : VReg} (hv : v.vreg ≠ w) (h : argToSlot cx s i v n = .ok s') :
    Wk w B C s s' := by
  have hal : ∀ (g : Nat → Allocation) a, set1 g v.vreg a w = g w := fun g a => by rw [set1_ne _ _ (fun e => hv e.symm)]
  unfold argToSlot at h
  dsimp only at h
  split at h
  · split at h
    · cases h
    · cases h; exact Wk.frame rfl (hal _ _) (fun p x hx e => ⟨p, x, hx, e⟩)
  · split at h
    · cases h
    · next s1 h1 =>
      cases h
      refine Wk.trans (s2 := s1) ?_ (Wk.frame rfl (hal _ _) (fun p x hx e => ⟨p, x, hx, e⟩))
      split at h1
      · exact addMove_wk h1
      · cases h1; exact Wk.refl _ _ _ _

theorem argToSlot_out {s s' : FS} {i n : Nat} {v : VReg} (h : argToSlot cx s i v n = .ok s') :
    s'.alloc v.vreg = stk n ∧ (s.slot v.vreg = some n → s'.slot v.vreg = some n) := by
  unfold argToSlot at h
  dsimp only at h
  split at h
  · split at h
    · cases h
    · cases h; exact ⟨by dsimp only; rw [set1_same], fun h => h⟩
  · split at h
    · cases h
    · next s1 h1 =>
      cases h
      refine ⟨by dsimp only; rw [set1_same], fun hn => ?_⟩
      dsimp only
      split at h1
      · exact (addMove_ns h1).old _ _ hn
      · cases h1; exact hn

theorem branchArg_wk {i : Nat} {st st' : FS × PMoves} {x : VReg × Option VReg} (hC : C)
    (hp : ∀ p, x.2 = some p → p.vreg ≠ w) (h : branchArg cx i st x = .ok st') :
    Wk w B C st.1 st'.1 := by
  unfold branchArg at h
  dsimp only at h
  split at h
  · cases h; exact Wk.refl _ _ _ _
  · split at h
    · cases h
    · next p hp' =>
      split at h
      · cases h
      · next h1 =>
        split at h
        · cases h
        · next h2 =>
          split at h
          · cases h
          · next h3 =>
            cases h
            refine (getSpillslot_wk (hp p hp') h1).trans ?_
            by_cases e : x.1.vreg = w
            · subst e
              obtain ⟨-, -, g3, g4, g5, -⟩ := getSpillslot_out h2
              obtain ⟨k1, k2⟩ := argToSlot_out h3
              exact Wk.toSlot g4 (k2 g3) k1 g5 (fun _ _ => hC)
            · exact (getSpillslot_wk e h2).trans (argToSlot_wk e h3)

theorem resolveClass_wk (he : EnvOk cx) {i : Nat} {pm : PMoves} {st st' : FS × PRegSet} {c : RegClass}
    (h : resolveClass cx i pm st c = .ok st') : Wk w B C st.1 st'.1 := by
  unfold resolveClass at h
  dsimp only at h
  split at h
  · cases h
  · split at h
    · cases h
    · split at h
      · cases h
      · cases h
        exact Wk.of_eq rfl rfl rfl

theorem processBranch_wk (he : EnvOk cx) {s s' : FS} {b i : Nat} (hC : C)
    (hp : ∀ x ∈ branchPairs cx.f b i, ∀ p, x.2 = some p → p.vreg ≠ w) (h : processBranch cx s b i = .ok s') : Wk w B C s s' := by
  unfold processBranch at h
  split at h
  · cases h
  · next s1 pm h1 =>
    split at h
    · cases h
    · next s2 av h2 =>
      have h := Except.ok.inj h
      subst h
      have n1 : Wk w B C s s1 := foldlM_inv (fun _ (t : FS × PMoves) => Wk w B C s t.1) (Wk.refl _ _ _ _)
        (fun pre x post t t' hl ht hf => ht.trans (branchArg_wk hC (hp x (by rw [hl]; simp)) hf)) h1
      have n2 : Wk w B C s1 s2 := foldlM_inv (fun _ (t : FS × PRegSet) => Wk w B C s1 t.1) (Wk.refl _ _ _ _)
        (fun pre x post t t' _ ht hf => ht.trans (resolveClass_wk he hf)) h2
      exact n1.trans n2

/-- What the instruction may do with the register. -/
structure WInst (cx : Cx) (w b i : Nat) : Prop where
  def' : ∀ x ∈ cx.opsOf i, x.2.kind = .Def → (x.2.constraint ≠ .Any ∧ x.2.constraint ≠ .Stack) ∧ x.2.vreg.vreg ≠ w
  use : ∀ x ∈ cx.opsOf i, x.2.kind = .Use → x.2.vreg.vreg = w → RegC x.2.constraint
  par : ∀ x ∈ branchPairs cx.f b i, ∀ p, x.2 = some p → p.vreg ≠ w

theorem ops_wk {b i : Nat} (hi : WInst cx w b i) {l : List (Nat × Op)} (hl : ∀ x ∈ l, x ∈ cx.opsOf i) {s s' : FS}
    (h : l.foldlM (allocOp cx b i) s = .ok s') : Wk w True C s s' :=
  foldlM_wk (fun x hx _ _ => allocOp_wk (hi.def' x (hl x hx)) (fun k e => ⟨trivial, hi.use x (hl x hx) k e⟩)) h

theorem allocInst_wk (he : EnvOk cx) {s s' : FS} {b i : Nat} (hi : WInst cx w b i)
    (h : allocInst cx b s i = .ok s') : Wk w True True s s' := by
  unfold allocInst at h
  split at h
  · cases h
  · next h1 =>
    split at h
    · cases h
    · next h2 =>
      split at h
      · cases h
      · next s3 h3 =>
        split at h
        · cases h
        · next s4 h4 =>
          split at h
          · cases h
          · next s5 h5 =>
            cases h
            have n3 : Wk w True True s _ := (instSetup_wk h1).trans (instEvict_wk h2)
            have n4 : Wk w True True s s3 := by
              refine n3.trans ?_
              unfold instOps at h3
              split at h3
              · cases h3
              · next h6 =>
                exact (ops_wk hi (fun x hx => (List.mem_filter.mp hx).1) h6).trans
                  (ops_wk hi (fun x hx => (List.mem_filter.mp hx).1) h3)
            have n5 : Wk w True True s3 s4 := foldlM_wk (fun x _ t t' => useMove_wk) h4
            refine n4.trans (n5.trans (Wk.trans (s2 := s5) ?_ (Wk.of_eq rfl rfl rfl)))
            split at h5
            · exact processBranch_wk he trivial hi.par h5
            · cases h5; exact Wk.refl _ _ _ _

theorem reloadParam_wk {s s' : FS} {b : Nat} {v : VReg} (hv : v.vreg ≠ w) (h : reloadParam cx b s v = .ok s') :
    Wk w B C s s' := by
  unfold reloadParam at h
  dsimp only at h
  split at h
  · cases h; exact Wk.refl _ _ _ _
  · split at h
    · cases h
    · next h1 =>
      split at h
      · cases h
      · next h2 =>
        have n : Wk w B C s _ := (getSpillslot_wk hv h1).trans (freealloc_wk hv h2)
        split at h
        · cases h; exact n
        · exact n.trans (addMove_wk h)

theorem reloadLive_wk {s s' : FS} {b : Nat} {v : VReg} (hC : C) (h : reloadLive cx b s v = .ok s') : Wk w B C s s' := by
  unfold reloadLive at h
  dsimp only at h
  split at h
  · cases h
  · next n s1 h1 =>
    have n2 : Wk w B C s (FS.setIn { s1 with alloc := set1 s1.alloc v.vreg (stk n) } (s.alloc v.vreg) none) := by
      refine Wk.trans (s2 := { s1 with alloc := set1 s1.alloc v.vreg (stk n) }) ?_ (setIn_wk _ _)
      by_cases e : v.vreg = w
      · subst e
        obtain ⟨-, -, g3, g4, g5, -⟩ := getSpillslot_out h1
        exact Wk.toSlot g4 g3 (by dsimp only; rw [set1_same]) g5 (fun _ _ => hC)
      · refine (getSpillslot_wk e h1).trans (Wk.frame rfl ?_ (fun p x hx e => ⟨p, x, hx, e⟩))
        dsimp only
        rw [set1_ne _ _ (fun e' => e e'.symm)]
    split at h
    · cases h; exact n2
    · exact n2.trans (addMove_wk h)

theorem moveIfDef_wk {s s' : FS} {b q n : Nat} {v : VReg} (h : moveIfDefPredBranch cx s b q v n = .ok s') : Wk w B C s s' := by
  unfold moveIfDefPredBranch at h
  split at h
  · cases h
  · cases h; exact Wk.refl _ _ _ _
  · exact addMove_wk h

theorem reloadAtBegin_wk {s s' : FS} {b : Nat} (hC : C) (hp : ∀ v ∈ cx.f.params b, v.vreg ≠ w)
    (h : reloadAtBegin cx s b = .ok s') : Wk w B C s s' := by
  unfold reloadAtBegin at h
  split at h
  · cases h
  · next s1 h1 =>
    split at h
    · cases h
    · split at h
      · cases h
      · next s2 h2 =>
        split at h
        · cases h
        · next s3 h3 =>
          have n1 : Wk w B C (reset cx s) s1 := foldlM_wk (fun x hx t t' => reloadParam_wk (hp x hx)) h1
          have n2 : Wk w B C (reset cx s) s2 := n1.trans (foldlM_wk (fun x _ t t' => reloadLive_wk hC) h2)
          have n0 : Wk w B C s (reset cx s) := Wk.of_eq rfl rfl rfl
          have n3 : Wk w B C s s3 := by
            refine (n0.trans n2).trans (Wk.trans (Wk.of_eq (s' := { s2 with scratch := cx.env.scratch }) rfl rfl rfl) ?_)
            refine foldlM_wk (fun x _ t t' hx => ?_) h3
            unfold predParams at hx
            split at hx
            · cases hx; exact Wk.refl _ _ _ _
            · refine foldlM_wk (fun y _ u u' hy => ?_) hx
              unfold predParam at hy
              split at hy
              · cases hy
              · split at hy
                · cases hy
                · exact moveIfDef_wk hy
          refine n3.trans (foldlM_wk (fun x _ t t' hx => ?_) h)
          unfold predLive at hx
          exact foldlM_wk (fun y _ u u' hy => moveIfDef_wk hy) hx

end Fast
end Regalloc
