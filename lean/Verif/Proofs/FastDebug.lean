import Verif.Model.FastDebug
import Verif.Proofs.FastRun

/-
Single-pass allocator: the debug locations, seen from the run without them.
-/
namespace Regalloc
namespace Fast
open Exec Debug

variable {cx : Cx} {C : Nat → VReg}

/-! ### The bookkeeping does not change the run -/

theorem foldlM_fst {α σ τ : Type} {F : σ × τ → α → R (σ × τ)} {f : σ → α → R σ} (h : ∀ st x, (F st x).map Prod.fst = f st.1 x) :
    ∀ (l : List α) (st : σ × τ), (l.foldlM F st).map Prod.fst = l.foldlM f st.1 := by
  intro l
  induction l with
  | nil => intro st; rfl
  | cons x l ih =>
    intro st
    rw [List.foldlM_cons, List.foldlM_cons, ← h st x]
    cases hx : F st x with
    | error e => rfl
    | ok st' => exact ih st'

theorem stepD_fst {α : Type} (f : FS → α → R FS) (g : Dbg → FS → FS → α → Dbg) (st : FS × Dbg) (x : α) :
    (stepD f g st x).map Prod.fst = f st.1 x := by
  unfold stepD
  cases f st.1 x <;> rfl

theorem instOpsD_fst (st : FS × Dbg) (b i : Nat) : (instOpsD cx st b i).map Prod.fst = instOps cx st.1 b i := by
  unfold instOpsD instOps
  rw [← foldlM_fst (stepD_fst (allocOp cx b i) (dbgOp i)) (opsAt cx i .Late) st]
  cases h : (opsAt cx i .Late).foldlM (stepD (allocOp cx b i) (dbgOp i)) st with
  | error e => rfl
  | ok st' => exact foldlM_fst (stepD_fst (allocOp cx b i) (dbgOp i)) _ st'

theorem branchArgD_fst {i : Nat} (st : (FS × PMoves) × Dbg) (x : VReg × Option VReg) :
    (branchArgD cx i st x).map Prod.fst = branchArg cx i st.1 x := by
  unfold branchArgD
  cases branchArg cx i st.1 x <;> rfl

theorem processBranchD_fst (st : FS × Dbg) (b i : Nat) : (processBranchD cx st b i).map Prod.fst = processBranch cx st.1 b i := by
  unfold processBranchD
  have h := foldlM_fst (branchArgD_fst (cx := cx) (i := i)) (branchPairs cx.f b i) ((st.1, fun _ => []), st.2)
  cases h1 : (branchPairs cx.f b i).foldlM (branchArgD cx i) ((st.1, fun _ => []), st.2) with
  | error e =>
    rw [h1] at h
    unfold processBranch
    rw [← h]
    rfl
  | ok r => cases h2 : processBranch cx st.1 b i <;> rfl

theorem allocInstD_fst {b : Nat} (st : FS × Dbg) (i : Nat) : (allocInstD cx b st i).map Prod.fst = allocInst cx b st.1 i := by
  unfold allocInstD allocInst
  cases h1 : instSetup cx st.1 i with
  | error e => rfl
  | ok r =>
    obtain ⟨s1, nc⟩ := r
    dsimp only
    cases h2 : instEvict cx s1 nc i with
    | error e => rfl
    | ok s2 =>
      dsimp only
      rw [← instOpsD_fst (s2, st.2) b i]
      cases h3 : instOpsD cx (s2, st.2) b i with
      | error e => rfl
      | ok r =>
        obtain ⟨s3, d⟩ := r
        dsimp only [Except.map]
        cases h4 : (cx.opsOf i).foldlM (useMove cx i) s3 with
        | error e => rfl
        | ok s4 =>
          dsimp only
          by_cases hb : cx.f.isBranch i = true
          · rw [if_pos hb, if_pos hb, ← processBranchD_fst (s4, d) b i]
            cases processBranchD cx (s4, d) b i <;> rfl
          · rw [if_neg hb, if_neg hb]

theorem reloadAtBeginD_fst (st : FS × Dbg) (b : Nat) : (reloadAtBeginD cx st b).map Prod.fst = reloadAtBegin cx st.1 b := by
  unfold reloadAtBeginD
  have h := foldlM_fst (stepD_fst (reloadParam cx b) (dbgParam cx b)) (cx.f.params b) (reset cx st.1, st.2)
  cases h1 : (cx.f.params b).foldlM (stepD (reloadParam cx b) (dbgParam cx b)) (reset cx st.1, st.2) with
  | error e =>
    rw [h1] at h
    unfold reloadAtBegin
    rw [← h]
    rfl
  | ok r => cases h2 : reloadAtBegin cx st.1 b <;> rfl

theorem allocBlockD_fst (st : FS × Dbg) (b : Nat) : (allocBlockD cx st b).map Prod.fst = allocBlock cx st.1 b := by
  unfold allocBlockD allocBlock
  rw [← foldlM_fst (allocInstD_fst (cx := cx) (b := b)) _ st]
  cases h : (cx.f.blockInsts b).reverse.foldlM (allocInstD cx b) st with
  | error e => rfl
  | ok st' => exact reloadAtBeginD_fst st' b

theorem runEnvD_fst (cx : Cx) : (runEnvD cx).map Prod.fst = runEnv cx := foldlM_fst allocBlockD_fst _ _

theorem map_ok {α β : Type} {f : α → β} {x : R α} {a : α} (h : x = .ok a) : x.map f = .ok (f a) := by rw [h]; rfl

theorem of_map_ok {α β : Type} {f : α → β} {x : R α} {b : β} (h : x.map f = .ok b) : ∃ a, x = .ok a ∧ f a = b := by
  cases x with
  | error e => cases h
  | ok a => exact ⟨a, rfl, Except.ok.inj h⟩

/-! ### What one instruction records -/

theorem dbgOperand_ne {d : Dbg} {s s' : FS} {i idx w : Nat} {o : Op} (h : o.asFixedNonallocatable = none → o.vreg.vreg ≠ w) :
    dbgOperand d s s' i idx o w = d w := by
  unfold dbgOperand
  split
  · rfl
  · next hn =>
    rw [not_or] at hn
    exact set1_ne _ _ (fun e => h (by simpa using hn.1) e.symm)

theorem dbgOp_ne {d : Dbg} {s s' : FS} {i w : Nat} {x : Nat × Op}
    (h : (x.2.asFixedNonallocatable = none ∨ x.2.kind = .Def) → x.2.vreg.vreg ≠ w) : dbgOp i d s s' x w = d w := by
  unfold dbgOp
  cases hk : x.2.kind with
  | Use => exact dbgOperand_ne (fun h1 => h (.inl h1))
  | Def =>
    dsimp only
    unfold dbgDef
    rw [set1_ne _ _ (fun e => h (.inr hk) e.symm)]
    exact dbgOperand_ne (fun h1 => h (.inl h1))

theorem dbgOp_def {d : Dbg} {s s' : FS} {i n : Nat} {x : Nat × Op} (hk : x.2.kind = .Def) (hs : s'.slot x.2.vreg.vreg = some n) :
    (dbgOp i d s s' x x.2.vreg.vreg).2.2 = stk n := by
  unfold dbgOp
  rw [hk]
  dsimp only
  unfold dbgDef
  rw [set1_same, hs]

theorem dbgArg_alloc {i : Nat} {d : Dbg} {s : FS} {x : VReg × Option VReg} {w : Nat} :
    (dbgArg cx i d s x w).1 = (d w).1 ∧ (dbgArg cx i d s x w).2.2 = (d w).2.2 := by
  unfold dbgArg
  split
  · exact ⟨rfl, rfl⟩
  · by_cases e : w = x.1.vreg
    · subst e; rw [set1_same]; exact ⟨rfl, rfl⟩
    · rw [set1_ne _ _ e]; exact ⟨rfl, rfl⟩

theorem foldlM_append {α σ : Type} {f : σ → α → R σ} {l1 l2 : List α} {s : σ} :
    (l1 ++ l2).foldlM f s = (match l1.foldlM f s with | .error e => .error e | .ok s => l2.foldlM f s) := by
  rw [List.foldlM_append]
  cases l1.foldlM f s <;> rfl

theorem instOpsD_eq (st : FS × Dbg) (b i : Nat) : instOpsD cx st b i =
    (opsAt cx i .Late ++ opsAt cx i .Early).foldlM (stepD (allocOp cx b i) (dbgOp i)) st := by
  rw [foldlM_append]
  unfold instOpsD
  cases (opsAt cx i .Late).foldlM (stepD (allocOp cx b i) (dbgOp i)) st <;> rfl

theorem mem_opsAt_all {i : Nat} {x : Nat × Op} (h : x ∈ opsAt cx i .Late ++ opsAt cx i .Early) : x ∈ cx.opsOf i := by
  rcases List.mem_append.mp h with h | h <;> exact (List.mem_filter.mp h).1

/-- The operands of an instruction, one after the other. -/
theorem opsD {b i : Nat} {l : List (Nat × Op)}
    (hc : ∀ x ∈ l, x.2.kind = .Def → x.2.constraint ≠ .Any ∧ x.2.constraint ≠ .Stack) :
    ∀ {st st' : FS × Dbg}, l.foldlM (stepD (allocOp cx b i) (dbgOp i)) st = .ok st' →
    NS st.1 st'.1 ∧ ∀ w, (∀ x ∈ l, x.2.kind = .Use → x.2.asFixedNonallocatable = none → x.2.vreg.vreg ≠ w) →
      ((∀ x ∈ l, x.2.kind = .Def → x.2.vreg.vreg ≠ w) → st'.2 w = st.2 w) ∧
      ∀ n, st'.1.slot w = some n → n < st.1.numSlots →
        ((st.2 w).2.2 = stk n ∨ ∃ x ∈ l, x.2.kind = .Def ∧ x.2.vreg.vreg = w) → (st'.2 w).2.2 = stk n := by
  induction l with
  | nil =>
    intro st st' h
    cases h
    refine ⟨NS.refl _, fun w _ => ⟨fun _ => rfl, fun n _ _ h => ?_⟩⟩
    rcases h with h | ⟨x, hx, _⟩
    · exact h
    · cases hx
  | cons x l ih =>
    intro st st' h
    rw [List.foldlM_cons] at h
    dsimp only [bind, Except.bind] at h
    cases h1 : stepD (allocOp cx b i) (dbgOp i) st x with
    | error e => rw [h1] at h; cases h
    | ok st1 =>
      rw [h1] at h
      obtain ⟨hns, hw⟩ := ih (fun y hy => hc y (List.mem_cons_of_mem _ hy)) h
      unfold stepD at h1
      cases h2 : allocOp cx b i st.1 x with
      | error e => rw [h2] at h1; cases h1
      | ok s1 =>
        rw [h2] at h1
        have h1 := Except.ok.inj h1
        subst h1
        have hns1 := allocOp_ns (hc x List.mem_cons_self) h2
        refine ⟨hns1.trans hns, fun w hu => ?_⟩
        obtain ⟨a1, a2⟩ := hw w (fun y hy => hu y (List.mem_cons_of_mem _ hy))
        have hne : ¬ (x.2.kind = .Def ∧ x.2.vreg.vreg = w) → dbgOp i st.2 st.1 s1 x w = st.2 w := by
          intro hn
          refine dbgOp_ne (fun hx e => ?_)
          cases hk : x.2.kind with
          | Def => exact hn ⟨hk, e⟩
          | Use =>
            rcases hx with hx | hx
            · exact hu x List.mem_cons_self hk hx e
            · rw [hk] at hx; cases hx
        refine ⟨fun hd => ?_, fun n hs hn hex => ?_⟩
        · rw [a1 (fun y hy => hd y (List.mem_cons_of_mem _ hy))]
          exact hne (fun ⟨k, e⟩ => hd x List.mem_cons_self k e)
        · have hlt : n < s1.numSlots := Nat.lt_of_lt_of_le hn hns1.num
          refine a2 n hs hlt ?_
          by_cases hx : x.2.kind = .Def ∧ x.2.vreg.vreg = w
          · obtain ⟨hk, rfl⟩ := hx
            left
            refine dbgOp_def hk ?_
            rcases hns.new _ n hs with h3 | h3
            · exact h3
            · exact absurd h3 (by dsimp only; omega)
          · rcases hex with h3 | ⟨y, hy, h3⟩
            · left
              show (dbgOp i st.2 st.1 s1 x w).2.2 = _
              rw [hne hx]; exact h3
            · rcases List.mem_cons.mp hy with rfl | hy
              · exact absurd h3 hx
              · exact .inr ⟨y, hy, h3⟩

theorem branchD {i : Nat} {l : List (VReg × Option VReg)} {st st' : (FS × PMoves) × Dbg}
    (h : l.foldlM (branchArgD cx i) st = .ok st') (w : Nat) : (st'.2 w).1 = (st.2 w).1 ∧ (st'.2 w).2.2 = (st.2 w).2.2 := by
  refine foldlM_inv (fun _ t => (t.2 w).1 = (st.2 w).1 ∧ (t.2 w).2.2 = (st.2 w).2.2) ⟨rfl, rfl⟩ ?_ h
  intro pre x post t t' _ ht hx
  unfold branchArgD at hx
  split at hx
  · cases hx
  · have hx := Except.ok.inj hx
    subst hx
    have := dbgArg_alloc (cx := cx) (i := i) (d := t.2) (s := t.1.1) (x := x) (w := w)
    exact ⟨this.1.trans ht.1, this.2.trans ht.2⟩

theorem UU_of {i w : Nat} {x : Nat × Op} (hx : x ∈ cx.opsOf i) (hk : x.2.kind = .Use) (hn : x.2.asFixedNonallocatable = none)
    (e : x.2.vreg.vreg = w) : UU cx i w := ⟨x.1, x.2, mem_opsOf.mp hx, hk, hn, e⟩

theorem DDi_of {i w : Nat} {x : Nat × Op} (hx : x ∈ cx.opsOf i) (hk : x.2.kind = .Def) (e : x.2.vreg.vreg = w) : DDi cx i w :=
  ⟨x.1, x.2, mem_opsOf.mp hx, ⟨x.2, mem_opsOf.mp hx⟩, hk, e⟩

/-- One instruction. -/
theorem instD (he : EnvOk cx) {b i : Nat} (hi : IOk cx C i) {st st' : FS × Dbg} (h : allocInstD cx b st i = .ok st') :
    NS st.1 st'.1 ∧ ∀ w, ¬ UU cx i w →
      (¬ DDi cx i w → (st'.2 w).2.2 = (st.2 w).2.2) ∧
      ∀ n, st'.1.slot w = some n → n < st.1.numSlots → ((st.2 w).2.2 = stk n ∨ DDi cx i w) → (st'.2 w).2.2 = stk n := by
  have hfst : allocInst cx b st.1 i = .ok st'.1 := by rw [← allocInstD_fst, h]; rfl
  refine ⟨allocInst_ns he hi.defsConstr hfst, fun w hu => ?_⟩
  unfold allocInstD at h
  split at h
  · cases h
  next s1 nc h1 =>
  split at h
  · cases h
  next s2 h2 =>
  split at h
  · cases h
  next s3 d3 h3 =>
  split at h
  · cases h
  next s4 h4 =>
  split at h
  · cases h
  next s5 d5 h5 =>
  have h := Except.ok.inj h
  subst h
  rw [instOpsD_eq] at h3
  obtain ⟨n3, hw⟩ := opsD (fun x hx => hi.defsConstr x (mem_opsAt_all hx)) h3
  obtain ⟨a1, a2⟩ := hw w (fun x hx hk hn e => hu (UU_of (mem_opsAt_all hx) hk hn e))
  have n12 : NS st.1 s2 := (instSetup_ns h1).trans (instEvict_ns h2)
  have n4 : NS s3 s4 := foldlM_ns (fun x _ t t' hx => useMove_ns hx) h4
  have h5' : NS s4 s5 ∧ (d5 w).2.2 = (d3 w).2.2 := by
    split at h5
    · have hp : processBranch cx s4 b i = .ok s5 := by rw [← processBranchD_fst (s4, d3), h5]; rfl
      refine ⟨processBranch_ns he hp, ?_⟩
      unfold processBranchD at h5
      split at h5
      · cases h5
      · next r d hr =>
        split at h5
        · cases h5
        · have h5 := Except.ok.inj h5
          cases h5
          exact (branchD hr w).2
    · cases h5; exact ⟨NS.refl _, rfl⟩
  have n35 := n4.trans h5'.1
  refine ⟨fun hd => ?_, fun n hs hn hex => ?_⟩
  · show (d5 w).2.2 = _
    rw [h5'.2, show d3 w = _ from a1 (fun x hx hk e => hd (DDi_of (mem_opsAt_all hx) hk e))]
  · show (d5 w).2.2 = _
    rw [h5'.2]
    have hn2 : n < s2.numSlots := Nat.lt_of_lt_of_le hn n12.num
    refine a2 n ?_ hn2 (hex.imp_right ?_)
    · rcases n35.new w n hs with h6 | h6
      · exact h6
      · exact absurd h6 (by have h7 : s2.numSlots ≤ s3.numSlots := n3.num; omega)
    · rintro ⟨k, o, ho, _, hk, e⟩
      have hm : (k, o) ∈ cx.opsOf i := mem_opsOf.mpr ho
      refine ⟨(k, o), ?_, hk, e⟩
      cases hp : o.pos with
      | Late => exact List.mem_append_left _ (List.mem_filter.mpr ⟨hm, by simp [hp]⟩)
      | Early => exact List.mem_append_right _ (List.mem_filter.mpr ⟨hm, by simp [hp]⟩)

/-- The instructions of a block, last first. -/
theorem instsD (he : EnvOk cx) {b : Nat} {l : List Nat} (hi : ∀ i ∈ l, IOk cx C i) :
    ∀ {st st' : FS × Dbg}, l.foldlM (allocInstD cx b) st = .ok st' →
    NS st.1 st'.1 ∧ ∀ w,
      ((∀ i ∈ l, ¬ UU cx i w ∧ ¬ DDi cx i w) → (st'.2 w).2.2 = (st.2 w).2.2) ∧
      ∀ n, st'.1.slot w = some n → n < st.1.numSlots →
        (((st.2 w).2.2 = stk n ∧ ∀ i ∈ l, ¬ UU cx i w) ∨ ∃ l1 i l2, l = l1 ++ i :: l2 ∧ DDi cx i w ∧ ∀ j ∈ i :: l2, ¬ UU cx j w) →
        (st'.2 w).2.2 = stk n := by
  induction l with
  | nil =>
    intro st st' h
    cases h
    refine ⟨NS.refl _, fun w => ⟨fun _ => rfl, fun n _ _ h => ?_⟩⟩
    rcases h with h | ⟨l1, i, l2, e, _⟩
    · exact h.1
    · simp at e
  | cons x l ih =>
    intro st st' h
    rw [List.foldlM_cons] at h
    dsimp only [bind, Except.bind] at h
    cases h1 : allocInstD cx b st x with
    | error e => rw [h1] at h; cases h
    | ok st1 =>
      rw [h1] at h
      obtain ⟨hns, hw⟩ := ih (fun y hy => hi y (List.mem_cons_of_mem _ hy)) h
      obtain ⟨hns1, hw1⟩ := instD he (hi x List.mem_cons_self) h1
      refine ⟨hns1.trans hns, fun w => ⟨fun hn => ?_, fun n hs hn hex => ?_⟩⟩
      · rw [(hw w).1 (fun i hi => hn i (List.mem_cons_of_mem _ hi))]
        have := hn x List.mem_cons_self
        exact (hw1 w this.1).1 this.2
      · have hlt : n < st1.1.numSlots := Nat.lt_of_lt_of_le hn hns1.num
        have hs1 : st1.1.slot w = some n := by
          rcases hns.new w n hs with h3 | h3
          · exact h3
          · omega
        refine (hw w).2 n hs hlt ?_
        rcases hex with ⟨h3, hu⟩ | ⟨l1, i, l2, e, hd, hu⟩
        · exact .inl ⟨(hw1 w (hu x List.mem_cons_self)).2 n hs1 hn (.inl h3), fun i hi => hu i (List.mem_cons_of_mem _ hi)⟩
        · cases l1 with
          | nil =>
            rw [List.nil_append, List.cons.injEq] at e
            obtain ⟨rfl, rfl⟩ := e
            exact .inl ⟨(hw1 w (hu _ List.mem_cons_self)).2 n hs1 hn (.inr hd), fun i hi => hu i (List.mem_cons_of_mem _ hi)⟩
          | cons y l1 =>
            rw [List.cons_append, List.cons.injEq] at e
            exact .inr ⟨l1, i, l2, e.2, hd, hu⟩

end Fast
end Regalloc
