import Verif.Proofs.FastBranch

/-
Single-pass allocator: slots given to registers later on are new.
-/
namespace Regalloc
namespace Fast

/-- Slots are only added, with numbers not in use before. -/
structure NS (s s' : FS) : Prop where
  num : s.numSlots ≤ s'.numSlots
  new : ∀ v n, s'.slot v = some n → s.slot v = some n ∨ s.numSlots ≤ n
  old : ∀ v n, s.slot v = some n → s'.slot v = some n

theorem NS.refl (s : FS) : NS s s := ⟨Nat.le_refl _, fun _ _ h => .inl h, fun _ _ h => h⟩

theorem NS.trans {s1 s2 s3 : FS} (h : NS s1 s2) (g : NS s2 s3) : NS s1 s3 := by
  refine ⟨Nat.le_trans h.num g.num, ?_, fun v n hv => g.old v n (h.old v n hv)⟩
  intro v n hv
  rcases g.new v n hv with e | e
  · exact h.new v n e
  · exact .inr (Nat.le_trans h.num e)

theorem NS.of_eq {s s' : FS} (h1 : s'.slot = s.slot) (h2 : s'.numSlots = s.numSlots) : NS s s' :=
  ⟨by omega, fun v n h => .inl (by rw [← h1]; exact h), fun v n h => by rw [h1]; exact h⟩

theorem foldlM_ns {α : Type} {f : FS → α → R FS} {l : List α} {s s' : FS}
    (hs : ∀ x ∈ l, ∀ t t', f t x = .ok t' → NS t t') (h : l.foldlM f s = .ok s') : NS s s' :=
  foldlM_inv (fun _ t => NS s t) (NS.refl s)
    (fun pre x post t t' hl ht hf => ht.trans (hs x (by rw [hl]; simp) t t' hf)) h

variable {cx : Cx}

theorem getSpillslot_ns {s s' : FS} {v : VReg} {n : Nat} (h : getSpillslot cx s v = .ok (n, s')) : NS s s' := by
  unfold getSpillslot at h
  split at h
  · cases h; exact NS.refl _
  · next hm =>
    split at h
    · cases h
    · next m k ha =>
      cases h
      unfold allocstack at ha
      split at ha
      · cases ha
      · next hs =>
        split at ha
        · cases ha
        · have hmk : slotAt cx.byLast (cx.size (vcls v)) s.numSlots = n ∧
              slotNext (cx.size (vcls v)) s.numSlots = k := by
            simpa using Except.ok.inj ha
          have hs0 : 0 < cx.size (vcls v) := by omega
          have hge := slotAt_ge (bl := cx.byLast) (n := s.numSlots) hs0
          have hlt := slotAt_lt_next (bl := cx.byLast) (n := s.numSlots) hs0
          obtain ⟨h1, h2⟩ := hmk
          refine ⟨by dsimp only; omega, ?_, ?_⟩
          · intro w x hx
            dsimp only at hx
            by_cases e : w = v.vreg
            · subst e; rw [set1_same] at hx; cases hx; exact .inr (by omega)
            · rw [set1_ne _ _ e] at hx; exact .inl hx
          · intro w x hx
            dsimp only
            rw [set1_ne _ _ (by rintro rfl; rw [hm] at hx; cases hx)]
            exact hx

theorem toSlot_ns {s s' : FS} {v : VReg} {n : Nat} (h : toSlot cx s v = .ok (n, s')) : NS s s' := by
  unfold toSlot at h
  split at h
  · cases h
  · next h1 => cases h; exact (getSpillslot_ns h1).trans (NS.of_eq rfl rfl)

theorem evictPlain_ns {s s' : FS} {i : Nat} {p : PReg} {pos : InstPosition} (h : evictPlain cx s i p pos = .ok s') :
    NS s s' := by
  unfold evictPlain at h
  split at h
  · cases h
  · split at h
    · cases h
    · next h1 =>
      split at h
      · cases h
      · cases h; exact (toSlot_ns h1).trans (NS.of_eq rfl rfl)

theorem ensureScratch_ns {s s' : FS} {i : Nat} {c : RegClass} {pos : InstPosition}
    (h : ensureScratch cx s i c pos = .ok s') : NS s s' := by
  unfold ensureScratch at h
  split at h
  · cases h; exact NS.refl _
  · split at h
    · cases h
    · next s1 h1 =>
      cases h
      refine NS.trans ?_ (NS.of_eq (s := s1) rfl rfl)
      unfold allocScratch at h1
      split at h1
      · cases h1
      · cases h1
      · split at h1
        · cases h1
        · next s2 h2 =>
          cases h1
          refine NS.trans ?_ (NS.of_eq (s := s2) rfl rfl)
          split at h2
          · exact evictPlain_ns h2
          · cases h2; exact NS.refl _

theorem addMove_ns {s s' : FS} {i : Nat} {a b : Allocation} {c : RegClass} {pos : InstPosition}
    (h : addMove cx s i a b c pos = .ok s') : NS s s' := by
  unfold addMove at h
  split at h
  · split at h
    · cases h
    · next h1 =>
      split at h
      · cases h
      · cases h; exact (ensureScratch_ns h1).trans (NS.of_eq rfl rfl)
  · cases h; exact NS.of_eq rfl rfl

theorem evict_ns {s s' : FS} {i : Nat} {p : PReg} {pos : InstPosition} (h : evict cx s i p pos = .ok s') : NS s s' := by
  unfold evict at h
  split at h
  · cases h
  · split at h
    · cases h
    · next h1 => exact (toSlot_ns h1).trans (addMove_ns h)

theorem unavail_ns (s : FS) (pos : OperandPos) (p : PReg) : NS s (s.unavail pos p) := by
  cases pos <;> exact NS.of_eq rfl rfl

theorem occupy_ns (s : FS) (o : Op) (p : PReg) : NS s (occupy s o p) := by
  unfold occupy
  dsimp only
  have := unavail_ns s o.pos p
  split
  · exact this.trans (unavail_ns _ _ _)
  · exact this.trans (unavail_ns _ _ _)
  · split
    · exact this.trans (unavail_ns _ _ _)
    · exact this
  · exact this

theorem poke_ns {s s' : FS} {c : RegClass} {p : PReg} (h : poke s c p = .ok s') : NS s s' := by
  unfold poke at h
  split at h
  · cases h
  · cases h; exact NS.of_eq rfl rfl

theorem allocReg_ns {s s' : FS} {i : Nat} {o : Op} {a : Allocation} (h : allocReg cx s i o = .ok (a, s')) : NS s s' := by
  unfold allocReg at h
  split at h
  · cases h
  · unfold takeReg at h
    split at h
    · cases h
    · next s1 h1 =>
      split at h
      · cases h
      · next s2 h2 =>
        cases h
        refine NS.trans ?_ ((poke_ns h2).trans (occupy_ns _ _ _))
        split at h1
        · exact evict_ns h1
        · cases h1; exact NS.refl _

theorem slotAlloc_ns {s s' : FS} {v : VReg} {a : Allocation} (h : slotAlloc cx s v = .ok (a, s')) : NS s s' := by
  unfold slotAlloc at h
  split at h
  · cases h
  · next h1 => cases h; exact getSpillslot_ns h1

theorem chooseAlloc_ns {s s' : FS} {i : Nat} {o : Op} {a : Allocation} (h : chooseAlloc cx s i o = .ok (a, s')) : NS s s' := by
  unfold chooseAlloc at h
  split at h
  · split at h
    · exact slotAlloc_ns h
    · split at h
      · next h1 => cases h; exact allocReg_ns h1
      · exact slotAlloc_ns h
      · cases h
  · split at h
    · cases h
    · next h1 => cases h; exact (allocReg_ns h1).trans (NS.of_eq rfl rfl)
  · cases h; exact NS.refl _
  · cases h
  · exact slotAlloc_ns h
  · cases h

theorem setIn_ns (s : FS) (a : Allocation) (x : Option VReg) : NS s (s.setIn a x) := by
  unfold FS.setIn
  split <;> exact NS.of_eq rfl rfl

theorem keepAlloc_ns {s s' : FS} {i : Nat} {o : Op} {k : Nat} (h : keepAlloc cx s i o k = .ok s') : NS s s' := by
  unfold keepAlloc at h
  dsimp only at h
  have h0 : NS s (if o.constraint = .Reg then { s.setAllocs i k (s.alloc o.vreg.vreg) with
      numAny := bump (s.setAllocs i k (s.alloc o.vreg.vreg)).numAny (epos o) (vcls o.vreg) (-1) }
      else s.setAllocs i k (s.alloc o.vreg.vreg)) := by
    split <;> exact NS.of_eq rfl rfl
  split at h
  · cases h; exact h0
  · next p hp =>
    split at h
    · cases h
    · next s1 h1 =>
      have h2 : NS s s1 := by
        refine h0.trans ?_
        revert h1
        split
        · exact poke_ns
        · intro h1; cases h1; exact NS.refl _
      have h3 := h2.trans (unavail_ns s1 o.pos p)
      split at h
      · cases h; exact h3.trans (unavail_ns _ _ _)
      · cases h; exact h3.trans (unavail_ns _ _ _)
      · cases h; exact h3

theorem processOperand_ns {s s' : FS} {i : Nat} {o : Op} {k : Nat} (h : processOperand cx s i o k = .ok s') : NS s s' := by
  unfold processOperand at h
  split at h
  · cases h; exact NS.of_eq rfl rfl
  · split at h
    · cases h
    · exact keepAlloc_ns h
    · dsimp only at h
      split at h
      · cases h
      · next a s1 h1 =>
        have n1 : NS s s1 := by
          unfold allocOperand at h1
          split at h1
          · cases h1
          · next h2 => cases h1; exact (chooseAlloc_ns h2).trans (NS.of_eq rfl rfl)
        split at h
        · unfold becomeLive at h
          split at h
          · cases h
          · cases h
            refine n1.trans (NS.trans ?_ (setIn_ns _ _ _))
            exact NS.of_eq rfl rfl
        · unfold relocate at h
          split at h
          · cases h
          · next s2 h2 =>
            cases h
            refine n1.trans (NS.trans ?_ (setIn_ns _ _ _))
            split at h2
            · exact addMove_ns h2
            · cases h2; exact NS.refl _

theorem freealloc_ns {s s' : FS} {v : VReg} (h : freealloc s v = .ok s') : NS s s' := by
  unfold freealloc at h
  dsimp only at h
  split at h
  · cases h
  · split at h
    · cases h
    · cases h; exact NS.of_eq rfl rfl

theorem allocOp_ns {s s' : FS} {b i : Nat} {x : Nat × Op} (hc : x.2.kind = .Def → x.2.constraint ≠ .Any ∧ x.2.constraint ≠ .Stack)
    (h : allocOp cx b i s x = .ok s') : NS s s' := by
  unfold allocOp at h
  split at h
  · next hk =>
    obtain ⟨c1, c2⟩ := hc hk
    unfold allocDef at h
    split at h
    · cases h
    · next s1 h1 =>
      split at h
      · cases h
      · next s2 h2 =>
        refine NS.trans (s2 := s1) ?_ (NS.trans (s2 := s2) ?_ (freealloc_ns h))
        · unfold defOperand at h1
          split at h1
          · split at h1
            · cases h1
            · exact processOperand_ns h1
          · rw [if_neg (by simp [c1, c2])] at h1
            exact processOperand_ns h1
        · unfold storeDef at h2
          split at h2
          · cases h2; exact NS.refl _
          · split at h2
            · exact addMove_ns h2
            · cases h2; exact NS.refl _
  · unfold allocUse at h
    split at h
    · split at h
      · cases h
      · exact processOperand_ns h
    · exact processOperand_ns h

theorem useMove_ns {s s' : FS} {i : Nat} {x : Nat × Op} (h : useMove cx i s x = .ok s') : NS s s' := by
  unfold useMove at h
  split at h
  · cases h; exact NS.refl _
  · dsimp only at h
    split at h
    · exact addMove_ns h
    · cases h; exact NS.refl _

theorem countOp_ns {s s' : FS} {i : Nat} {x : Nat × Op} (h : countOp cx i s x = .ok s') : NS s s' := by
  unfold countOp at h
  dsimp only at h
  split at h
  · split at h
    · cases h
    · split at h
      · cases h; exact NS.of_eq rfl rfl
      · cases h; exact NS.of_eq rfl rfl
  · cases h; exact NS.of_eq rfl rfl
  · cases h; exact NS.refl _

theorem reserve_ns {s s' : FS} {o : Op} {k : Nat} {p : PReg} (h : reserve s o k p = .ok s') : NS s s' := by
  unfold reserve at h
  dsimp only at h
  repeat' split at h
  all_goals first | (cases h; done) | (cases h; exact NS.of_eq rfl rfl)

theorem reserveFixed_ns {i : Nat} {st st' : FS × PRegSet × Nat} {x : Nat × Op × PReg}
    (h : reserveFixed cx i st x = .ok st') : NS st.1 st'.1 := by
  unfold reserveFixed at h
  dsimp only at h
  split at h
  · cases h
  · next h1 =>
    have n1 := reserve_ns h1
    split at h
    · cases h; exact n1
    · split at h
      · split at h
        · cases h
        · next h2 => cases h; exact n1.trans ((poke_ns h2).trans (NS.of_eq rfl rfl))
      · cases h; exact n1

theorem evictFixed_ns {s s' : FS} {i : Nat} {x : Nat × Op × PReg} (h : evictFixed cx i s x = .ok s') : NS s s' := by
  unfold evictFixed at h
  dsimp only at h
  split at h
  · cases h; exact NS.refl _
  · split at h
    · cases h; exact NS.refl _
    · split at h
      · cases h
      · next h1 => cases h; exact (evict_ns h1).trans (NS.of_eq rfl rfl)

theorem evictClobber_ns {i : Nat} {st st' : FS × Nat} {p : PReg} (h : evictClobber cx i st p = .ok st') : NS st.1 st'.1 := by
  unfold evictClobber at h
  split at h
  · cases h
  · next s1 h1 =>
    have n1 : NS st.1 s1 := by
      unfold evictClobber1 at h1
      split at h1
      · cases h1; exact NS.refl _
      · split at h1
        · cases h1
        · next h2 => cases h1; exact (evict_ns h2).trans (NS.of_eq rfl rfl)
    split at h
    · split at h
      · cases h; exact n1.trans (NS.of_eq rfl rfl)
      · cases h; exact n1
    · cases h; exact n1

theorem instSetup_ns {s s' : FS} {i nc : Nat} (h : instSetup cx s i = .ok (s', nc)) : NS s s' := by
  unfold instSetup at h
  split at h
  · cases h
  · next s1 h1 =>
    split at h
    · cases h
    · next s2 sn nc' h2 =>
      cases h
      have n1 : NS s s1 := NS.trans (NS.of_eq (s' := reset cx s) rfl rfl) (foldlM_ns (fun x _ t t' => countOp_ns) h1)
      have n2 : NS s1 s2 := foldlM_inv (fun _ (t : FS × PRegSet × Nat) => NS s1 t.1) (NS.refl _)
        (fun pre x post t t' _ ht hf => ht.trans (reserveFixed_ns hf)) h2
      exact n1.trans (n2.trans (NS.of_eq rfl rfl))

theorem instEvict_ns {s s' : FS} {i nc : Nat} (h : instEvict cx s nc i = .ok s') : NS s s' := by
  unfold instEvict at h
  split at h
  · cases h
  · next s1 h1 =>
    split at h
    · cases h
    · next s2 nc' h2 =>
      have h := Except.ok.inj h
      subst h
      have n1 : NS s s1 := foldlM_ns (fun x _ t t' => evictFixed_ns) h1
      have n2 : NS s1 s2 := foldlM_inv (fun _ (t : FS × Nat) => NS s1 t.1) (NS.refl _)
        (fun pre x post t t' _ ht hf => ht.trans (evictClobber_ns hf)) h2
      exact n1.trans n2

theorem argToSlot_ns {s s' : FS} {i n : Nat} {v : VReg} (h : argToSlot cx s i v n = .ok s') : NS s s' := by
  unfold argToSlot at h
  dsimp only at h
  split at h
  · split at h
    · cases h
    · cases h; exact NS.of_eq rfl rfl
  · split at h
    · cases h
    · next s1 h1 =>
      cases h
      refine NS.trans ?_ (NS.of_eq (s := s1) rfl rfl)
      split at h1
      · exact addMove_ns h1
      · cases h1; exact NS.refl _

theorem branchArg_ns {i : Nat} {st st' : FS × PMoves} {x : VReg × Option VReg} (h : branchArg cx i st x = .ok st') :
    NS st.1 st'.1 := by
  unfold branchArg at h
  dsimp only at h
  split at h
  · cases h; exact NS.refl _
  · split at h
    · cases h
    · split at h
      · cases h
      · next h1 =>
        split at h
        · cases h
        · next h2 =>
          split at h
          · cases h
          · next h3 =>
            cases h
            exact (getSpillslot_ns h1).trans ((getSpillslot_ns h2).trans (argToSlot_ns h3))

theorem resolveClass_ns (he : EnvOk cx) {i : Nat} {pm : PMoves} {st st' : FS × PRegSet} {c : RegClass}
    (h : resolveClass cx i pm st c = .ok st') : NS st.1 st'.1 := by
  unfold resolveClass at h
  dsimp only at h
  split at h
  · cases h
  · split at h
    · cases h
    · split at h
      · cases h
      · cases h
        exact ⟨slotsAfter_ge cx he c _ _, fun _ _ h => .inl h, fun _ _ h => h⟩

theorem processBranch_ns (he : EnvOk cx) {s s' : FS} {b i : Nat} (h : processBranch cx s b i = .ok s') : NS s s' := by
  unfold processBranch at h
  split at h
  · cases h
  · next s1 pm h1 =>
    split at h
    · cases h
    · next s2 av h2 =>
      have h := Except.ok.inj h
      subst h
      have n1 : NS s s1 := foldlM_inv (fun _ (t : FS × PMoves) => NS s t.1) (NS.refl _)
        (fun pre x post t t' _ ht hf => ht.trans (branchArg_ns hf)) h1
      have n2 : NS s1 s2 := foldlM_inv (fun _ (t : FS × PRegSet) => NS s1 t.1) (NS.refl _)
        (fun pre x post t t' _ ht hf => ht.trans (resolveClass_ns he hf)) h2
      exact n1.trans n2

theorem allocInst_ns (he : EnvOk cx) {s s' : FS} {b i : Nat}
    (hc : ∀ x ∈ cx.opsOf i, x.2.kind = .Def → x.2.constraint ≠ .Any ∧ x.2.constraint ≠ .Stack)
    (h : allocInst cx b s i = .ok s') : NS s s' := by
  unfold allocInst at h
  split at h
  · cases h
  · next h1 =>
    split at h
    · cases h
    · next h2 =>
      split at h
      · cases h
      · next s3 h3 =>
        split at h
        · cases h
        · next s4 h4 =>
          split at h
          · cases h
          · next s5 h5 =>
            cases h
            have n3 := (instSetup_ns h1).trans (instEvict_ns h2)
            have n4 : NS s s3 := by
              refine n3.trans ?_
              unfold instOps at h3
              split at h3
              · cases h3
              · next h6 =>
                exact (foldlM_ns (fun x hx t t' => allocOp_ns (hc x (List.mem_filter.mp hx).1)) h6).trans
                  (foldlM_ns (fun x hx t t' => allocOp_ns (hc x (List.mem_filter.mp hx).1)) h3)
            have n5 : NS s3 s4 := foldlM_ns (fun x _ t t' => useMove_ns) h4
            refine n4.trans (n5.trans (NS.trans (s2 := s5) ?_ (NS.of_eq rfl rfl)))
            split at h5
            · exact processBranch_ns he h5
            · cases h5; exact NS.refl _

theorem reloadParam_ns {s s' : FS} {b : Nat} {v : VReg} (h : reloadParam cx b s v = .ok s') : NS s s' := by
  unfold reloadParam at h
  dsimp only at h
  split at h
  · cases h; exact NS.refl _
  · split at h
    · cases h
    · next h1 =>
      split at h
      · cases h
      · next h2 =>
        have n := (getSpillslot_ns h1).trans (freealloc_ns h2)
        split at h
        · cases h; exact n
        · exact n.trans (addMove_ns h)

theorem reloadLive_ns {s s' : FS} {b : Nat} {v : VReg} (h : reloadLive cx b s v = .ok s') : NS s s' := by
  unfold reloadLive at h
  dsimp only at h
  split at h
  · cases h
  · next n s1 h1 =>
    have n2 : NS s (FS.setIn { s1 with alloc := set1 s1.alloc v.vreg (stk n) } (s.alloc v.vreg) none) := by
      refine (getSpillslot_ns h1).trans (NS.trans ?_ (setIn_ns _ _ _))
      exact NS.of_eq rfl rfl
    split at h
    · cases h; exact n2
    · exact n2.trans (addMove_ns h)

theorem moveIfDef_ns {s s' : FS} {b q n : Nat} {v : VReg} (h : moveIfDefPredBranch cx s b q v n = .ok s') : NS s s' := by
  unfold moveIfDefPredBranch at h
  split at h
  · cases h
  · cases h; exact NS.refl _
  · exact addMove_ns h

theorem reloadAtBegin_ns {s s' : FS} {b : Nat} (h : reloadAtBegin cx s b = .ok s') : NS s s' := by
  unfold reloadAtBegin at h
  split at h
  · cases h
  · next h1 =>
    split at h
    · cases h
    · split at h
      · cases h
      · next s2 h2 =>
        split at h
        · cases h
        · next s3 h3 =>
          have n1 := foldlM_ns (fun x _ t t' => reloadParam_ns) h1
          have n2 := n1.trans (foldlM_ns (fun x _ t t' => reloadLive_ns) h2)
          have n0 : NS s (reset cx s) := NS.of_eq rfl rfl
          have n3 : NS s s3 := by
            refine (n0.trans n2).trans (NS.trans (NS.of_eq (s' := { s2 with scratch := cx.env.scratch }) rfl rfl) ?_)
            refine foldlM_ns (fun x _ t t' hx => ?_) h3
            unfold predParams at hx
            split at hx
            · cases hx; exact NS.refl _
            · refine foldlM_ns (fun y _ u u' hy => ?_) hx
              unfold predParam at hy
              split at hy
              · cases hy
              · split at hy
                · cases hy
                · exact moveIfDef_ns hy
          refine n3.trans (foldlM_ns (fun x _ t t' hx => ?_) h)
          unfold predLive at hx
          exact foldlM_ns (fun y _ u u' hy => moveIfDef_ns hy) hx

theorem allocBlock_ns (he : EnvOk cx) {s s' : FS} {b : Nat}
    (hc : ∀ i ∈ cx.f.blockInsts b, ∀ x ∈ cx.opsOf i, x.2.kind = .Def → x.2.constraint ≠ .Any ∧ x.2.constraint ≠ .Stack)
    (h : allocBlock cx s b = .ok s') : NS s s' := by
  unfold allocBlock at h
  split at h
  · cases h
  · next s1 h1 =>
    exact (foldlM_ns (fun x hx t t' => allocInst_ns he (hc x (List.mem_reverse.mp hx))) h1).trans (reloadAtBegin_ns h)

end Fast
end Regalloc
