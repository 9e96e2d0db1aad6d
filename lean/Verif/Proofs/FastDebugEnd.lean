import Verif.Proofs.FastLocalRun

/-
Single-pass allocator: the end recorded for a register is that of its last access.
-/
namespace Regalloc
namespace Fast
open Exec Debug FastDebug

/-! ### Which registers become live -/

/-- The slot of the register and its location are valid. -/
structure Sv (w : Nat) (s : FS) : Prop where
  slot : ∀ n, s.slot w = some n → (stk n).isNone = false
  val : (s.alloc w).isNone = true → s.alloc w = Allocation.none

/-- The register has a location, or some register is taken to hold it. -/
def Occ (w : Nat) (s : FS) : Prop := s.alloc w ≠ Allocation.none ∨ ∃ p x, s.inPreg p = some x ∧ x.vreg = w

/-- The step does not make the register live, and does not end its life. -/
structure Ov (w : Nat) (s s' : FS) : Prop where
  sv : Sv w s → Sv w s'
  occ : Sv w s → Occ w s' → Occ w s
  keep : Sv w s → s.alloc w ≠ Allocation.none → s'.alloc w ≠ Allocation.none

theorem Ov.refl (w : Nat) (s : FS) : Ov w s s := ⟨fun h => h, fun _ h => h, fun _ h => h⟩

variable {w : Nat}

theorem Ov.trans {s1 s2 s3 : FS} (h : Ov w s1 s2) (g : Ov w s2 s3) : Ov w s1 s3 :=
  ⟨fun q => g.sv (h.sv q), fun q o => h.occ q (g.occ (h.sv q) o), fun q a => g.keep (h.sv q) (h.keep q a)⟩

theorem Ov.ofQ {s s' : FS} (h : Sv w s → Ov w s s') : Ov w s s' :=
  ⟨fun q => (h q).sv q, fun q => (h q).occ q, fun q => (h q).keep q⟩

/-- Nothing is done to the register. -/
theorem Ov.frame {s s' : FS} (h1 : s'.slot w = s.slot w) (h2 : s'.alloc w = s.alloc w)
    (h3 : ∀ p x, s'.inPreg p = some x → x.vreg = w → ∃ q y, s.inPreg q = some y ∧ y.vreg = w) : Ov w s s' := by
  refine ⟨fun q => ⟨by rw [h1]; exact q.slot, by rw [h2]; exact q.val⟩, ?_, fun _ ha => by rw [h2]; exact ha⟩
  rintro _ (h | ⟨p, x, hx, e⟩)
  · exact .inl (by rw [← h2]; exact h)
  · exact .inr (h3 p x hx e)

theorem Ov.of_eq {s s' : FS} (h1 : s'.slot = s.slot) (h2 : s'.alloc = s.alloc) (h3 : s'.inPreg = s.inPreg) :
    Ov w s s' :=
  Ov.frame (by rw [h1]) (by rw [h2]) (fun p x hx e => ⟨p, x, by rw [← h3]; exact hx, e⟩)

theorem foldlM_ov {α : Type} {f : FS → α → R FS} {l : List α} {s s' : FS}
    (hs : ∀ x ∈ l, ∀ t t', f t x = .ok t' → Ov w t t') (h : l.foldlM f s = .ok s') : Ov w s s' :=
  foldlM_inv (fun _ t => Ov w s t) (Ov.refl w s)
    (fun pre x post t t' hl ht hf => ht.trans (hs x (by rw [hl]; simp) t t' hf)) h


/-- The register is given its slot. -/
theorem Ov.toSlot {s s' : FS} {n : Nat} (h0 : ∀ m, s.slot w = some m → m = n) (h1 : s'.slot w = some n)
    (h2 : s'.alloc w = stk n) (h3 : s.slot w = Option.none → (stk n).isNone = false) (h4 : Occ w s) : Ov w s s' := by
  have h6 : Sv w s → (stk n).isNone = false := by
    intro q
    cases e : s.slot w with
    | none => exact h3 e
    | some m => rw [← h0 m e]; exact q.slot m e
  refine ⟨fun q => ⟨?_, by (rw [h2, h6 q]; intro h; cases h)⟩, fun _ _ => h4, fun q _ => by (rw [h2]; exact ne_none_of (h6 q))⟩
  intro m hm
  rw [h1] at hm
  cases hm
  exact h6 q

variable {cx : Cx} {C : Nat → VReg}

theorem getSpillslot_ov {s s' : FS} {v : VReg} {n : Nat} (h : getSpillslot cx s v = .ok (n, s')) : Ov w s s' := by
  obtain ⟨h1, h2, h4, h5, h6, h3⟩ := getSpillslot_out h
  by_cases e : v.vreg = w
  · subst e
    refine ⟨fun q => ⟨?_, by rw [h1]; exact q.val⟩, fun _ o => ?_, fun _ ha => by rw [h1]; exact ha⟩
    · intro m hm
      rw [h4] at hm
      cases hm
      cases e : s.slot v.vreg with
      | none => exact h6 e
      | some m => rw [← h5 m e]; exact q.slot m e
    · unfold Occ at o ⊢
      rw [h1, h2] at o
      exact o
  · exact Ov.frame (h3 w (fun e' => e e'.symm)) (by rw [h1]) (fun p x hx e => ⟨p, x, by rw [← h2]; exact hx, e⟩)

theorem getSpillslot_val {s s' : FS} {v : VReg} {n : Nat} (q : Sv v.vreg s) (h : getSpillslot cx s v = .ok (n, s')) :
    (stk n).isNone = false := by
  obtain ⟨h1, h2, h4, h5, h6, h3⟩ := getSpillslot_out h
  cases e : s.slot v.vreg with
  | none => exact h6 e
  | some m => rw [← h5 m e]; exact q.slot m e

theorem setAlloc_ne {s : FS} {v : VReg} {a : Allocation} (e : v.vreg ≠ w) : Ov w s { s with alloc := set1 s.alloc v.vreg a } := by
  refine Ov.frame rfl ?_ (fun p x hx e => ⟨p, x, hx, e⟩)
  dsimp only
  rw [set1_ne _ _ (fun e' => e e'.symm)]

theorem toSlot_ov {s s' : FS} {p : PReg} {v : VReg} {n : Nat} (hp : s.inPreg p = some v)
    (h : toSlot cx s v = .ok (n, s')) : Ov w s s' := by
  unfold toSlot at h
  split at h
  · cases h
  · next h1 =>
    cases h
    by_cases e : v.vreg = w
    · subst e
      obtain ⟨g1, g2, g3, g4, g5, -⟩ := getSpillslot_out h1
      exact Ov.toSlot g4 g3 (by dsimp only; rw [set1_same]) g5 (.inr ⟨p, v, hp, rfl⟩)
    · exact (getSpillslot_ov h1).trans (setAlloc_ne e)

theorem evictPlain_ov {s s' : FS} {i : Nat} {p : PReg} {pos : InstPosition} (h : evictPlain cx s i p pos = .ok s') :
    Ov w s s' := by
  unfold evictPlain at h
  split at h
  · cases h
  · next hp =>
    split at h
    · cases h
    · next h1 =>
      split at h
      · cases h
      · cases h; exact (toSlot_ov hp h1).trans (Ov.of_eq rfl rfl rfl)

theorem ensureScratch_ov {s s' : FS} {i : Nat} {c : RegClass} {pos : InstPosition}
    (h : ensureScratch cx s i c pos = .ok s') : Ov w s s' := by
  unfold ensureScratch at h
  split at h
  · cases h; exact Ov.refl _ _
  · split at h
    · cases h
    · next s1 h1 =>
      cases h
      refine Ov.trans ?_ (Ov.of_eq (s := s1) rfl rfl rfl)
      unfold allocScratch at h1
      split at h1
      · cases h1
      · cases h1
      · split at h1
        · cases h1
        · next s2 h2 =>
          cases h1
          refine Ov.trans ?_ (Ov.of_eq (s := s2) rfl rfl rfl)
          split at h2
          · exact evictPlain_ov h2
          · cases h2; exact Ov.refl _ _

theorem addMove_ov {s s' : FS} {i : Nat} {a b : Allocation} {c : RegClass} {pos : InstPosition}
    (h : addMove cx s i a b c pos = .ok s') : Ov w s s' := by
  unfold addMove at h
  split at h
  · split at h
    · cases h
    · next h1 =>
      split at h
      · cases h
      · cases h; exact (ensureScratch_ov h1).trans (Ov.of_eq rfl rfl rfl)
  · cases h; exact Ov.of_eq rfl rfl rfl

theorem evict_ov {s s' : FS} {i : Nat} {p : PReg} {pos : InstPosition} (h : evict cx s i p pos = .ok s') : Ov w s s' := by
  unfold evict at h
  split at h
  · cases h
  · next hp =>
    split at h
    · cases h
    · next h1 => exact (toSlot_ov hp h1).trans (addMove_ov h)

theorem unavail_ov (s : FS) (pos : OperandPos) (p : PReg) : Ov w s (s.unavail pos p) := by
  cases pos <;> exact Ov.of_eq rfl rfl rfl

theorem occupy_ov (s : FS) (o : Op) (p : PReg) : Ov w s (occupy s o p) := by
  unfold occupy
  dsimp only
  have : Ov w s (s.unavail o.pos p) := unavail_ov s o.pos p
  split
  · exact this.trans (unavail_ov _ _ _)
  · exact this.trans (unavail_ov _ _ _)
  · split
    · exact this.trans (unavail_ov _ _ _)
    · exact this
  · exact this

theorem poke_ov {s s' : FS} {c : RegClass} {p : PReg} (h : poke s c p = .ok s') : Ov w s s' := by
  unfold poke at h
  split at h
  · cases h
  · cases h; exact Ov.of_eq rfl rfl rfl

theorem allocReg_ov {s s' : FS} {i : Nat} {o : Op} {a : Allocation} (h : allocReg cx s i o = .ok (a, s')) : Ov w s s' := by
  unfold allocReg at h
  split at h
  · cases h
  · unfold takeReg at h
    split at h
    · cases h
    · next s1 h1 =>
      split at h
      · cases h
      · next s2 h2 =>
        cases h
        refine Ov.trans ?_ ((poke_ov h2).trans (occupy_ov _ _ _))
        split at h1
        · exact evict_ov h1
        · cases h1; exact Ov.refl _ _

theorem slotAlloc_ov {s s' : FS} {v : VReg} {a : Allocation} (h : slotAlloc cx s v = .ok (a, s')) : Ov w s s' := by
  unfold slotAlloc at h
  split at h
  · cases h
  · next h1 => cases h; exact getSpillslot_ov h1

theorem chooseAlloc_ov {s s' : FS} {i : Nat} {o : Op} {a : Allocation} (h : chooseAlloc cx s i o = .ok (a, s')) : Ov w s s' := by
  unfold chooseAlloc at h
  split at h
  · split at h
    · exact slotAlloc_ov h
    · split at h
      · next h1 => cases h; exact allocReg_ov h1
      · exact slotAlloc_ov h
      · cases h
  · split at h
    · cases h
    · next h1 => cases h; exact (allocReg_ov h1).trans (Ov.of_eq rfl rfl rfl)
  · cases h; exact Ov.refl _ _
  · cases h
  · exact slotAlloc_ov h
  · cases h

theorem slotAlloc_val {s s' : FS} {v : VReg} {a : Allocation} (q : Sv v.vreg s) (h : slotAlloc cx s v = .ok (a, s')) :
    a.isNone = false := by
  unfold slotAlloc at h
  split at h
  · cases h
  · next h1 => cases h; exact getSpillslot_val q h1

theorem allocReg_val {s s' : FS} {i : Nat} {o : Op} {a : Allocation} (h : allocReg cx s i o = .ok (a, s')) : a.isNone = false := by
  unfold allocReg at h
  split at h
  · cases h
  · unfold takeReg at h
    split at h
    · cases h
    · split at h
      · cases h
      · cases h; exact isNone_reg _

theorem chooseAlloc_val {s s' : FS} {i : Nat} {o : Op} {a : Allocation} (q : Sv o.vreg.vreg s)
    (h : chooseAlloc cx s i o = .ok (a, s')) : a.isNone = false := by
  unfold chooseAlloc at h
  split at h
  · split at h
    · exact slotAlloc_val q h
    · split at h
      · next h1 => cases h; exact allocReg_val h1
      · exact slotAlloc_val q h
      · cases h
  · split at h
    · cases h
    · next h1 => cases h; exact allocReg_val h1
  · cases h; exact isNone_reg _
  · cases h
  · exact slotAlloc_val q h
  · cases h

theorem setNone_ov (s : FS) (p : PReg) : Ov w s { s with inPreg := set1 s.inPreg p none } := by
  refine Ov.frame rfl rfl ?_
  intro q x hx e
  refine ⟨q, x, ?_, e⟩
  dsimp only at hx
  by_cases hq : q = p
  · subst hq; rw [set1_same] at hx; cases hx
  · rwa [set1_ne _ _ hq] at hx

theorem setIn_ov (s : FS) (a : Allocation) : Ov w s (s.setIn a none) := by
  unfold FS.setIn
  split
  · exact setNone_ov _ _
  · exact Ov.refl _ _

theorem keepAlloc_ov {s s' : FS} {i : Nat} {o : Op} {k : Nat} (h : keepAlloc cx s i o k = .ok s') : Ov w s s' := by
  unfold keepAlloc at h
  dsimp only at h
  have h0 : Ov w s (if o.constraint = .Reg then { s.setAllocs i k (s.alloc o.vreg.vreg) with
      numAny := bump (s.setAllocs i k (s.alloc o.vreg.vreg)).numAny (epos o) (vcls o.vreg) (-1) }
      else s.setAllocs i k (s.alloc o.vreg.vreg)) := by
    split <;> exact Ov.of_eq rfl rfl rfl
  split at h
  · cases h; exact h0
  · next p hp =>
    split at h
    · cases h
    · next s1 h1 =>
      have h2 : Ov w s s1 := by
        refine h0.trans ?_
        revert h1
        split
        · exact poke_ov
        · intro h1; cases h1; exact Ov.refl _ _
      have h3 := h2.trans (unavail_ov s1 o.pos p)
      split at h
      · cases h; exact h3.trans (unavail_ov _ _ _)
      · cases h; exact h3.trans (unavail_ov _ _ _)
      · cases h; exact h3

theorem setIn_as (s : FS) (a : Allocation) (x : Option VReg) : (s.setIn a x).alloc = s.alloc ∧ (s.setIn a x).slot = s.slot := by
  unfold FS.setIn
  split <;> exact ⟨rfl, rfl⟩

theorem becomeLive_ov {s s' : FS} {v : VReg} {a : Allocation} (e : v.vreg ≠ w) (h : becomeLive s v a = .ok s') : Ov w s s' := by
  unfold becomeLive at h
  split at h
  · cases h
  · next live hl =>
    have h := Except.ok.inj h
    subst h
    refine Ov.frame (by rw [(setIn_as _ _ _).2]) ?_ ?_
    · rw [(setIn_as _ _ _).1]; dsimp only; rw [set1_ne _ _ (fun e' => e e'.symm)]
    · intro p x hx ex
      refine ⟨p, x, ?_, ex⟩
      unfold FS.setIn at hx
      split at hx
      · next q hq =>
        dsimp only at hx
        by_cases hp : p = q
        · subst hp
          rw [set1_same] at hx
          cases hx
          exact absurd ex e
        · rwa [set1_ne _ _ hp] at hx
      · exact hx

theorem becomeLive_own {s s' : FS} {v : VReg} {a : Allocation} (q : Sv v.vreg s) (ha : a.isNone = false)
    (h : becomeLive s v a = .ok s') : Sv v.vreg s' ∧ s'.alloc v.vreg ≠ Allocation.none := by
  unfold becomeLive at h
  split at h
  · cases h
  · next live hl =>
    have h := Except.ok.inj h
    subst h
    have e1 : (FS.setIn { s with live := live, alloc := set1 s.alloc v.vreg a } a (some v)).alloc v.vreg = a := by
      rw [(setIn_as _ _ _).1]; dsimp only; rw [set1_same]
    refine ⟨⟨?_, ?_⟩, ?_⟩
    · rw [(setIn_as _ _ _).2]; exact q.slot
    · rw [e1, ha]; intro h; cases h
    · rw [e1]; exact ne_none_of ha

theorem within_none {s : FS} {i : Nat} {o : Op} (ha : s.alloc o.vreg.vreg = Allocation.none) :
    withinConstraint cx s i o ≠ .ok true := by
  have hst := isStack_none cx
  unfold withinConstraint
  dsimp only
  rw [ha]
  cases o.constraint <;> dsimp only <;> simp [asReg_none, isNone_none, hst]

theorem processOperand_ov {s s' : FS} {i : Nat} {o : Op} {k : Nat} (hw : o.vreg.vreg = w → s.alloc w ≠ Allocation.none)
    (h : processOperand cx s i o k = .ok s') : Ov w s s' := by
  refine Ov.ofQ fun q => ?_
  unfold processOperand at h
  split at h
  · cases h; exact Ov.of_eq rfl rfl rfl
  · split at h
    · cases h
    · exact keepAlloc_ov h
    · dsimp only at h
      split at h
      · cases h
      · next a s1 h1 =>
        unfold allocOperand at h1
        split at h1
        · cases h1
        · next a' s0 h2 =>
          cases h1
          have n1 : Ov w s (s0.setAllocs i k a) := (chooseAlloc_ov h2).trans (Ov.of_eq rfl rfl rfl)
          split at h
          · next hc =>
            refine n1.trans (becomeLive_ov (fun e => ?_) h)
            rw [e] at hc
            exact hw e (q.val hc)
          · unfold relocate at h
            split at h
            · cases h
            · next s2 h3 =>
              cases h
              refine n1.trans (Ov.trans ?_ (setIn_ov _ _))
              split at h3
              · exact addMove_ov h3
              · cases h3; exact Ov.refl _ _

/-- The operand of a register that was not live. -/
theorem processOperand_own {s s' : FS} {i : Nat} {o : Op} {k : Nat} (q : Sv o.vreg.vreg s)
    (hna : o.asFixedNonallocatable = none) (h : processOperand cx s i o k = .ok s') :
    Sv o.vreg.vreg s' ∧ s'.alloc o.vreg.vreg ≠ Allocation.none := by
  by_cases ha : s.alloc o.vreg.vreg = Allocation.none
  · unfold processOperand at h
    rw [hna] at h
    dsimp only at h
    split at h
    · cases h
    · next hw => exact absurd hw (within_none ha)
    · rw [ha] at h
      split at h
      · cases h
      · next a s1 h1 =>
        unfold allocOperand at h1
        split at h1
        · cases h1
        · next a' s0 h2 =>
          cases h1
          rw [isNone_none, if_pos rfl] at h
          have n1 : Ov o.vreg.vreg s (s0.setAllocs i k a) := (chooseAlloc_ov h2).trans (Ov.of_eq rfl rfl rfl)
          exact becomeLive_own (n1.sv q) (chooseAlloc_val q h2) h
  · have := processOperand_ov (w := o.vreg.vreg) (fun _ => ha) h
    exact ⟨this.sv q, this.keep q ha⟩

theorem freealloc_ov {s s' : FS} {v : VReg} (hv : v.vreg ≠ w) (h : freealloc s v = .ok s') : Ov w s s' := by
  unfold freealloc at h
  dsimp only at h
  split at h
  · cases h
  · split at h
    · cases h
    · cases h
      refine Ov.frame rfl ?_ ?_
      · dsimp only; rw [set1_ne _ _ (fun e' => hv e'.symm)]
      · intro p x hx ex
        refine ⟨p, x, ?_, ex⟩
        dsimp only at hx
        cases hq : (s.alloc v.vreg).asReg with
        | some q =>
          rw [hq] at hx
          dsimp only at hx
          by_cases hp : p = q
          · subst hp; rw [set1_same] at hx; cases hx
          · rwa [set1_ne _ _ hp] at hx
        | none => rw [hq] at hx; exact hx

theorem freealloc_own {s s' : FS} {v : VReg} (q : Sv v.vreg s) (h : freealloc s v = .ok s') : Sv v.vreg s' := by
  unfold freealloc at h
  dsimp only at h
  split at h
  · cases h
  · split at h
    · cases h
    · cases h
      exact ⟨q.slot, fun _ => by dsimp only; rw [set1_same]⟩

theorem storeDef_ov {s s' : FS} {i : Nat} {v : VReg} (h : storeDef cx s i v = .ok s') : Ov w s s' := by
  unfold storeDef at h
  split at h
  · cases h; exact Ov.refl _ _
  · split at h
    · exact addMove_ov h
    · cases h; exact Ov.refl _ _

theorem allocOp_ov {s s' : FS} {b i : Nat} {x : Nat × Op} 
    (hc : x.2.kind = .Def → (x.2.constraint ≠ .Any ∧ x.2.constraint ≠ .Stack))
    (hw : x.2.vreg.vreg ≠ w) (h : allocOp cx b i s x = .ok s') : Ov w s s' := by
  unfold allocOp at h
  split at h
  · next hk =>
    obtain ⟨c1, c2⟩ := hc hk
    unfold allocDef at h
    split at h
    · cases h
    · next s1 h1 =>
      split at h
      · cases h
      · next s2 h2 =>
        refine Ov.trans (s2 := s1) ?_ ((storeDef_ov h2).trans (freealloc_ov hw h))
        unfold defOperand at h1
        split at h1
        · split at h1
          · cases h1
          · refine processOperand_ov ?_ h1; exact fun e => absurd e hw
        · rw [if_neg (by simp [c1, c2])] at h1
          exact processOperand_ov (fun e => absurd e hw) h1
  · unfold allocUse at h
    split at h
    · split at h
      · cases h
      · refine processOperand_ov ?_ h; exact fun e => absurd e hw
    · exact processOperand_ov (fun e => absurd e hw) h

theorem allocOp_def {s s' : FS} {b i : Nat} {x : Nat × Op} (hwm : x.2.vreg.vreg ≠ VReg.MAX) (hk : x.2.kind = .Def)
    (hc : x.2.constraint ≠ .Any ∧ x.2.constraint ≠ .Stack) (q : Sv x.2.vreg.vreg s) (h : allocOp cx b i s x = .ok s') :
    Sv x.2.vreg.vreg s' := by
  unfold allocOp at h
  rw [hk] at h
  dsimp only at h
  obtain ⟨c1, c2⟩ := hc
  unfold allocDef at h
  split at h
  · cases h
  · next s1 h1 =>
    split at h
    · cases h
    · next s2 h2 =>
      refine freealloc_own ((storeDef_ov h2).sv ?_) h
      unfold defOperand at h1
      split at h1
      · split at h1
        · cases h1
        · next ro _ => exact (processOperand_own (o := ⟨x.2.vreg, ro.constraint, .Def, .Early⟩) q (na_none hwm) h1).1
      · rw [if_neg (by simp [c1, c2])] at h1
        exact (processOperand_own q (na_none hwm) h1).1

theorem allocOp_use {s s' : FS} {b i : Nat} {x : Nat × Op} (hwm : x.2.vreg.vreg ≠ VReg.MAX) (hk : x.2.kind = .Use)
    (q : Sv x.2.vreg.vreg s) (h : allocOp cx b i s x = .ok s') :
    Sv x.2.vreg.vreg s' ∧ s'.alloc x.2.vreg.vreg ≠ Allocation.none := by
  unfold allocOp at h
  rw [hk] at h
  dsimp only at h
  unfold allocUse at h
  split at h
  · split at h
    · cases h
    · next p _ => exact processOperand_own (o := { x.2 with constraint := .FixedReg p }) q (na_none hwm) h
  · exact processOperand_own q (na_none hwm) h

theorem useMove_ov {s s' : FS} {i : Nat} {x : Nat × Op} (h : useMove cx i s x = .ok s') : Ov w s s' := by
  unfold useMove at h
  split at h
  · cases h; exact Ov.refl _ _
  · dsimp only at h
    split at h
    · exact addMove_ov h
    · cases h; exact Ov.refl _ _

theorem countOp_ov {s s' : FS} {i : Nat} {x : Nat × Op} (h : countOp cx i s x = .ok s') : Ov w s s' := by
  unfold countOp at h
  dsimp only at h
  split at h
  · split at h
    · cases h
    · split at h
      · cases h; exact Ov.of_eq rfl rfl rfl
      · cases h; exact Ov.of_eq rfl rfl rfl
  · cases h; exact Ov.of_eq rfl rfl rfl
  · cases h; exact Ov.refl _ _

theorem reserve_ov {s s' : FS} {o : Op} {k : Nat} {p : PReg} (h : reserve s o k p = .ok s') : Ov w s s' := by
  unfold reserve at h
  dsimp only at h
  repeat' split at h
  all_goals first | (cases h; done) | (cases h; exact Ov.of_eq rfl rfl rfl)

theorem reserveFixed_ov {i : Nat} {st st' : FS × PRegSet × Nat} {x : Nat × Op × PReg}
    (h : reserveFixed cx i st x = .ok st') : Ov w st.1 st'.1 := by
  unfold reserveFixed at h
  dsimp only at h
  split at h
  · cases h
  · next h1 =>
    have n1 : Ov w st.1 _ := reserve_ov h1
    split at h
    · cases h; exact n1
    · split at h
      · split at h
        · cases h
        · next h2 => cases h; exact n1.trans ((poke_ov h2).trans (Ov.of_eq rfl rfl rfl))
      · cases h; exact n1

theorem evictFixed_ov {s s' : FS} {i : Nat} {x : Nat × Op × PReg} (h : evictFixed cx i s x = .ok s') : Ov w s s' := by
  unfold evictFixed at h
  dsimp only at h
  split at h
  · cases h; exact Ov.refl _ _
  · split at h
    · cases h; exact Ov.refl _ _
    · split at h
      · cases h
      · next h1 => cases h; exact (evict_ov h1).trans (setNone_ov _ _)

theorem evictClobber_ov {i : Nat} {st st' : FS × Nat} {p : PReg} (h : evictClobber cx i st p = .ok st') : Ov w st.1 st'.1 := by
  unfold evictClobber at h
  split at h
  · cases h
  · next s1 h1 =>
    have n1 : Ov w st.1 s1 := by
      unfold evictClobber1 at h1
      split at h1
      · cases h1; exact Ov.refl _ _
      · split at h1
        · cases h1
        · next h2 => cases h1; exact (evict_ov h2).trans (setNone_ov _ _)
    split at h
    · split at h
      · cases h; exact n1.trans (Ov.of_eq rfl rfl rfl)
      · cases h; exact n1
    · cases h; exact n1

theorem instSetup_ov {s s' : FS} {i nc : Nat} (h : instSetup cx s i = .ok (s', nc)) : Ov w s s' := by
  unfold instSetup at h
  split at h
  · cases h
  · next s1 h1 =>
    split at h
    · cases h
    · next s2 sn nc' h2 =>
      cases h
      have n1 : Ov w s s1 := Ov.trans (Ov.of_eq (s' := reset cx s) rfl rfl rfl) (foldlM_ov (fun x _ t t' => countOp_ov) h1)
      have n2 : Ov w s1 s2 := foldlM_inv (fun _ (t : FS × PRegSet × Nat) => Ov w s1 t.1) (Ov.refl _ _)
        (fun pre x post t t' _ ht hf => ht.trans (reserveFixed_ov hf)) h2
      exact n1.trans (n2.trans (Ov.of_eq rfl rfl rfl))

theorem instEvict_ov {s s' : FS} {i nc : Nat} (h : instEvict cx s nc i = .ok s') : Ov w s s' := by
  unfold instEvict at h
  split at h
  · cases h
  · next s1 h1 =>
    split at h
    · cases h
    · next s2 nc' h2 =>
      have h := Except.ok.inj h
      subst h
      have n1 : Ov w s s1 := foldlM_ov (fun x _ t t' => evictFixed_ov) h1
      have n2 : Ov w s1 s2 := foldlM_inv (fun _ (t : FS × Nat) => Ov w s1 t.1) (Ov.refl _ _)
        (fun pre x post t t' _ ht hf => ht.trans (evictClobber_ov hf)) h2
      exact n1.trans n2

theorem argToSlot_ov {s s' : FS} {i n : Nat} {v : VReg} (hv : v.vreg ≠ w) (h : argToSlot cx s i v n = .ok s') :
    Ov w s s' := by
  unfold argToSlot at h
  dsimp only at h
  split at h
  · split at h
    · cases h
    · cases h
      refine Ov.frame rfl ?_ (fun p x hx e => ⟨p, x, hx, e⟩)
      dsimp only
      rw [set1_ne _ _ (fun e' => hv e'.symm)]
  · split at h
    · cases h
    · next s1 h1 =>
      cases h
      refine Ov.trans (s2 := s1) ?_ (setAlloc_ne hv)
      split at h1
      · exact addMove_ov h1
      · cases h1; exact Ov.refl _ _

theorem branchArg_ov {i : Nat} {st st' : FS × PMoves} {x : VReg × Option VReg} (hv : x.1.vreg ≠ w)
    (h : branchArg cx i st x = .ok st') : Ov w st.1 st'.1 := by
  unfold branchArg at h
  dsimp only at h
  split at h
  · cases h; exact Ov.refl _ _
  · split at h
    · cases h
    · split at h
      · cases h
      · next h1 =>
        split at h
        · cases h
        · next h2 =>
          split at h
          · cases h
          · next h3 =>
            cases h
            exact (getSpillslot_ov h1).trans ((getSpillslot_ov h2).trans (argToSlot_ov hv h3))

/-- An argument is live before the branch. -/
theorem branchArg_own {i : Nat} {st st' : FS × PMoves} {x : VReg × Option VReg} (q : Sv x.1.vreg st.1)
    (hd : (cx.f.operands i).any (fun o => o.vreg = x.1 ∧ o.kind = .Def) = false)
    (h : branchArg cx i st x = .ok st') : Sv x.1.vreg st'.1 ∧ st'.1.alloc x.1.vreg ≠ Allocation.none := by
  unfold branchArg at h
  dsimp only at h
  rw [hd] at h
  split at h
  · next h0 => cases h0
  · split at h
    · cases h
    · split at h
      · cases h
      · next h1 =>
        split at h
        · cases h
        · next h2 =>
          split at h
          · cases h
          · next h3 =>
            cases h
            have q1 := (getSpillslot_ov (w := x.1.vreg) h1).sv q
            have hv := getSpillslot_val q1 h2
            have q2 := (getSpillslot_ov (w := x.1.vreg) h2).sv q1
            obtain ⟨k1, -⟩ := argToSlot_out h3
            refine ⟨⟨?_, ?_⟩, ?_⟩
            · dsimp only
              unfold argToSlot at h3
              dsimp only at h3
              split at h3
              · split at h3
                · cases h3
                · cases h3; exact q2.slot
              · split at h3
                · cases h3
                · next s1 h4 =>
                  cases h3
                  dsimp only
                  split at h4
                  · exact ((addMove_ov h4).sv q2).slot
                  · cases h4; exact q2.slot
            · dsimp only; rw [k1, hv]; intro h; cases h
            · dsimp only; rw [k1]; exact ne_none_of hv

theorem resolveClass_ov (he : EnvOk cx) {i : Nat} {pm : PMoves} {st st' : FS × PRegSet} {c : RegClass}
    (h : resolveClass cx i pm st c = .ok st') : Ov w st.1 st'.1 := by
  unfold resolveClass at h
  dsimp only at h
  split at h
  · cases h
  · split at h
    · cases h
    · split at h
      · cases h
      · cases h
        exact Ov.of_eq rfl rfl rfl

theorem reloadParam_ov {s s' : FS} {b : Nat} {v : VReg} (hv : v.vreg ≠ w) (h : reloadParam cx b s v = .ok s') :
    Ov w s s' := by
  unfold reloadParam at h
  dsimp only at h
  split at h
  · cases h; exact Ov.refl _ _
  · split at h
    · cases h
    · next h1 =>
      split at h
      · cases h
      · next h2 =>
        have n : Ov w s _ := (getSpillslot_ov h1).trans (freealloc_ov hv h2)
        split at h
        · cases h; exact n
        · exact n.trans (addMove_ov h)

theorem reloadParam_own {s s' : FS} {b : Nat} {v : VReg} (q : Sv v.vreg s) (h : reloadParam cx b s v = .ok s') : Sv v.vreg s' := by
  unfold reloadParam at h
  dsimp only at h
  split at h
  · cases h; exact q
  · split at h
    · cases h
    · next h1 =>
      split at h
      · cases h
      · next h2 =>
        have n := freealloc_own ((getSpillslot_ov (w := v.vreg) h1).sv q) h2
        split at h
        · cases h; exact n
        · exact (addMove_ov h).sv n

theorem reloadLive_ov {s s' : FS} {b : Nat} {v : VReg} (hv : v.vreg = w → s.alloc w ≠ Allocation.none)
    (h : reloadLive cx b s v = .ok s') : Ov w s s' := by
  unfold reloadLive at h
  dsimp only at h
  split at h
  · cases h
  · next n s1 h1 =>
    have n2 : Ov w s (FS.setIn { s1 with alloc := set1 s1.alloc v.vreg (stk n) } (s.alloc v.vreg) none) := by
      refine Ov.trans (s2 := { s1 with alloc := set1 s1.alloc v.vreg (stk n) }) ?_ (setIn_ov _ _)
      by_cases e : v.vreg = w
      · subst e
        obtain ⟨-, -, g3, g4, g5, -⟩ := getSpillslot_out h1
        exact Ov.toSlot g4 g3 (by dsimp only; rw [set1_same]) g5 (.inl (hv rfl))
      · exact (getSpillslot_ov h1).trans (setAlloc_ne e)
    split at h
    · cases h; exact n2
    · exact n2.trans (addMove_ov h)

theorem moveIfDef_ov {s s' : FS} {b q n : Nat} {v : VReg} (h : moveIfDefPredBranch cx s b q v n = .ok s') : Ov w s s' := by
  unfold moveIfDefPredBranch at h
  split at h
  · cases h
  · cases h; exact Ov.refl _ _
  · exact addMove_ov h

/-- The rest of `reloadAtBegin`, after the parameters. -/
theorem reloadRest_ov {s s1 s' : FS} {b : Nat} (q : Sv w s1) (hp : (cx.f.params b).foldlM (reloadParam cx b) (reset cx s) = .ok s1)
    (hl : ∀ l, s1.live.toList? = some l → ∀ v ∈ l, s1.alloc v.vreg ≠ Allocation.none)
    (h : reloadAtBegin cx s b = .ok s') : Ov w s1 s' := by
  unfold reloadAtBegin at h
  rw [hp] at h
  dsimp only at h
  split at h
  · cases h
  · next l hl1 =>
    split at h
    · cases h
    · next s2 h2 =>
      split at h
      · cases h
      · next s3 h3 =>
        have n2 : Ov w s1 s2 := by
          refine foldlM_inv (fun _ t => Ov w s1 t) (Ov.refl _ _) ?_ h2
          intro pre x post t t' hl' ht hf
          refine ht.trans (reloadLive_ov (fun e => ht.keep q ?_) hf)
          rw [← e]
          exact hl l hl1 x (by rw [hl']; simp)
        have n3 : Ov w s1 s3 := by
          refine n2.trans (Ov.trans (Ov.of_eq (s' := { s2 with scratch := cx.env.scratch }) rfl rfl rfl) ?_)
          refine foldlM_ov (fun x _ t t' hx => ?_) h3
          unfold predParams at hx
          split at hx
          · cases hx; exact Ov.refl _ _
          · refine foldlM_ov (fun y _ u u' hy => ?_) hx
            unfold predParam at hy
            split at hy
            · cases hy
            · split at hy
              · cases hy
              · exact moveIfDef_ov hy
        refine n3.trans (foldlM_ov (fun x _ t t' hx => ?_) h)
        unfold predLive at hx
        exact foldlM_ov (fun y _ u u' hy => moveIfDef_ov hy) hx

end Fast
end Regalloc
