import Verif.Proofs.CheckerSound

namespace Regalloc.Checker
open Exec

theorem mapAll_isSome {α β : Type} {g : α → Option β} {l : List α} (h : ∀ a ∈ l, ∃ b, g a = some b) :
    ∃ r, mapAll g l = some r := by
  induction l with
  | nil => exact ⟨[], rfl⟩
  | cons a l ih =>
    obtain ⟨b, hb⟩ := h a (by simp)
    obtain ⟨r, hr⟩ := ih (fun x hx => h x (List.mem_cons_of_mem _ hx))
    exact ⟨b :: r, by simp [mapAll, hb, hr]⟩

theorem mem_instsOf {items : List InstOrEdit} {i : Nat} : i ∈ instsOf items ↔ .inst i ∈ items := by
  unfold instsOf
  rw [List.mem_filterMap]
  constructor
  · rintro ⟨x, hx, h⟩
    cases x <;> simp at h
    subst h; exact hx
  · intro h; exact ⟨_, h, rfl⟩

theorem instsOf_eq {f : Func} {out : Output} (h : SortedEdits out.edits) (b : Nat) :
    instsOf (out.blockInstsAndEdits f b) = f.blockInsts b := by
  have e : instsOf (out.blockInstsAndEdits f b) = (out.blockInstsAndEdits f b).filterMap InstOrEdit.inst? := by
    unfold instsOf
    congr 1
    funext x; cases x <;> rfl
  rw [e, C20_instructions_once out f b h]

theorem checkConstraint_no_panic {env : MachineEnv} {i : Nat} {o : Op} {a : Allocation} {as : List Allocation}
    (h : ∀ k, o.constraint = .Reuse k → k < as.length) : checkConstraint env i o a as ≠ .panic := by
  unfold checkConstraint
  split
  · simp
  · split
    · split <;> simp
    · simp
  · split
    · split
      · split <;> simp
      · simp
    · simp
  · split <;> simp
  · next k hk =>
    split
    · simp
    · split
      · next hn => rw [List.getElem?_eq_none_iff] at hn; have := h k hk; omega
      · split <;> simp
  · split
    · split <;> simp
    · simp

theorem checkVal_no_panic {env : MachineEnv} {S : CState} {i : Nat} {o : Op} {a : Allocation} {as : List Allocation}
    (h : ∀ k, o.constraint = .Reuse k → k < as.length) : checkVal env S i o a as ≠ .panic := by
  unfold checkVal
  split
  · simp
  · split
    · split
      · simp
      · simp
      · split
        · exact checkConstraint_no_panic h
        · simp
    · exact checkConstraint_no_panic h

theorem checkOps_no_panic {env : MachineEnv} {S : CState} {pos : OperandPos} {i : Nat} {as : List Allocation}
    (ps : List (Op × Allocation)) (h : ∀ p ∈ ps, ∀ k, p.1.constraint = .Reuse k → k < as.length) :
    checkOps env S pos i as ps ≠ .panic := by
  induction ps with
  | nil => simp [checkOps]
  | cons p ps ih =>
    have ih' := ih (fun q hq => h q (List.mem_cons_of_mem _ hq))
    unfold checkOps
    split
    · exact ih'
    · have := checkVal_no_panic (env := env) (S := S) (i := i) (a := p.2) (h p (by simp))
      split
      · exact ih'
      · exact this

def CInst.ReuseOk : CInst → Prop
  | .op _ ops as _ => ∀ o ∈ ops, ∀ k, o.constraint = .Reuse k → k < as.length
  | _ => True

theorem check_no_panic {env : MachineEnv} {S : CState} {pos : OperandPos} {ci : CInst} (h : ci.ReuseOk) :
    check env S pos ci ≠ .panic := by
  unfold check
  cases ci with
  | move a b => simp only; split <;> simp
  | pmove ms => simp
  | op i ops as cl =>
    simp only
    split
    · simp
    · exact checkOps_no_panic _ (fun p hp k hk => h p.1 (List.of_mem_zip hp).1 k hk)

theorem blockErrors_isSome {UA : List Allocation} {UV : List VReg} {env : MachineEnv} (cis : List CInst) :
    ∀ {S : CState}, StWf UA UV S → (∀ ci ∈ cis, ci.Within UA UV) → (∀ ci ∈ cis, ci.ReuseOk) →
      ∃ es, blockErrors? env S cis = some es := by
  induction cis with
  | nil => intro S _ _ _; exact ⟨[], rfl⟩
  | cons ci cis ih =>
    intro S hS hw hr
    obtain ⟨m', hu, hwf⟩ := update_wf hS (hw ci (by simp))
    obtain ⟨S', hS'⟩ : ∃ S', S' = CState.allocs m' := ⟨_, rfl⟩
    rw [← hS'] at hu
    have hwf : StWf UA UV S' := by rw [hS']; exact hwf
    obtain ⟨es, he⟩ := ih hwf (fun c hc => hw c (List.mem_cons_of_mem _ hc)) (fun c hc => hr c (List.mem_cons_of_mem _ hc))
    have h1 := check_no_panic (env := env) (S := S) (pos := .Early) (hr ci (by simp))
    have h2 := check_no_panic (env := env) (S := S') (pos := .Late) (hr ci (by simp))
    unfold blockErrors?
    rw [hu]
    cases e1 : check env S .Early ci <;> cases e2 : check env S' .Late ci <;> simp only [e2, he] <;> simp_all

theorem run_isSome {f : Func} {env : MachineEnv} {out : Output} (h : WellFormed f out) :
    ∃ es, run? f env out = some es := by
  have hio := fun b => instsOf_eq (f := f) h.sorted b
  have hprep : ∃ p, prepare? f out = some p := by
    have hb : ∀ b ∈ List.range f.numBlocks, ∃ r, blockInsts? f out b = some r := by
      intro b hb
      simp at hb
      apply mapAll_isSome
      intro x hx
      cases x with
      | edit e => exact ⟨_, rfl⟩
      | inst i =>
        have hi : i ∈ f.blockInsts b := by rw [← hio b]; exact mem_instsOf.mpr hx
        obtain ⟨as, has, _⟩ := h.allocs b hb i hi
        exact ⟨.op i (f.operands i) as (f.clobbers i), by simp only [itemInst?, has]⟩
    obtain ⟨bb, hbb⟩ := mapAll_isSome hb
    unfold prepare?
    rw [hbb]
    simp only
    rw [if_pos]
    · exact ⟨_, rfl⟩
    · rw [List.all_eq_true]
      intro b hb
      simp at hb
      rw [List.all_eq_true]
      intro i hi
      have hbr : i ∈ (instsOf (out.blockInstsAndEdits f b)).filter (fun i => f.isBranch i) := hi
      obtain ⟨hi1, hi2⟩ := List.mem_filter.mp hbr
      rw [hio b] at hi1
      unfold argsMatch
      rw [List.all_eq_true]
      intro q hq
      rw [List.mem_zipIdx_iff_getElem?] at hq
      simp only [beq_iff_eq]
      exact h.args b hb i hi1 hi2 q.2 q.1 hq
  obtain ⟨p, hp⟩ := hprep
  obtain ⟨UA, UV, r, P, ha, W, _⟩ := analyze_spec f p h.succLt
  obtain ⟨h1, _, _⟩ := prepare_spec hp
  unfold run?
  rw [hp]; simp only; rw [ha]; simp only
  have : ∀ b, b < f.numBlocks → ∃ es S, r[b]? = some S ∧ blockErrors? env S (p.insts b) = some es := by
    intro b hb
    have hr : b < r.length := by rw [W.len]; exact hb
    suffices h : ∃ es, blockErrors? env r[b] (p.insts b) = some es by
      obtain ⟨es, h⟩ := h
      exact ⟨es, r[b], List.getElem?_eq_getElem hr, h⟩
    apply blockErrors_isSome _ (W.wf b _ (List.getElem?_eq_getElem hr)) (P.insts b hb)
    intro ci hci
    have hbi := h1 b hb
    unfold blockInsts? at hbi
    obtain ⟨k, hk⟩ := List.getElem?_of_mem hci
    have hlen := (mapAll_get hbi).1
    have hk2 : k < (out.blockInstsAndEdits f b).length := by
      rw [← hlen]; exact (List.getElem?_eq_some_iff.mp hk).1
    obtain ⟨c, hc1, hc2⟩ := (mapAll_get hbi).2 k _ (List.getElem?_eq_getElem hk2)
    rw [hk] at hc1; simp at hc1; subst hc1
    generalize hx : (out.blockInstsAndEdits f b)[k] = x at hc2
    cases x with
    | edit e => simp only [itemInst?, Option.some.injEq] at hc2; subst hc2; trivial
    | inst i =>
      have hi : i ∈ f.blockInsts b := by
        rw [← hio b]; exact mem_instsOf.mpr (hx ▸ List.getElem_mem hk2)
      obtain ⟨as, has, hal⟩ := h.allocs b hb i hi
      simp only [itemInst?, has, Option.some.injEq] at hc2
      subst hc2
      intro o ho k' hk'
      rw [hal]
      exact h.reuse b hb i hi o ho k' hk'
  unfold findErrors?
  split
  · next hn =>
    exfalso
    obtain ⟨ess, hess⟩ := mapAll_isSome (g := fun b => match r[b]? with
      | none => none | some s => blockErrors? env s (p.insts b)) (l := List.range f.numBlocks) (by
        intro b hb
        obtain ⟨es, S, h1, h2⟩ := this b (by simpa using hb)
        exact ⟨es, by simp only [h1]; exact h2⟩)
    have e := hess.symm.trans hn
    simp at e
  · exact ⟨_, rfl⟩

/-- Acceptance means each checker instruction passed in some state. -/
theorem blockErrors_all {env : MachineEnv} (cis : List CInst) : ∀ {S : CState}, blockErrors? env S cis = some [] →
    ∀ ci ∈ cis, ∃ S1 S2, check env S1 .Early ci = .ok ∧ check env S2 .Late ci = .ok := by
  induction cis with
  | nil => simp
  | cons c cis ih =>
    intro S h ci hci
    obtain ⟨S', _, h1, h2, h3⟩ := blockErrors_nil h
    rcases List.mem_cons.mp hci with rfl | hci
    · exact ⟨S, S', h1, h2⟩
    · exact ih h3 ci hci

theorem accepted_items {f : Func} {env : MachineEnv} {out : Output} (h : run? f env out = some []) {b : Nat}
    (hb : b < f.numBlocks) {x : InstOrEdit} (hx : x ∈ out.blockInstsAndEdits f b) :
    ∃ ci S1 S2, itemInst? f out x = some ci ∧ check env S1 .Early ci = .ok ∧ check env S2 .Late ci = .ok := by
  unfold run? at h
  split at h
  · simp at h
  · next p hp =>
    split at h
    · simp at h
    · next bbIn ha =>
      obtain ⟨S, hS, he⟩ := findErrors_nil h b hb
      have hbi := (prepare_spec hp).1 b hb
      unfold blockInsts? at hbi
      obtain ⟨k, hk⟩ := List.getElem?_of_mem hx
      obtain ⟨ci, hc1, hc2⟩ := (mapAll_get hbi).2 k _ hk
      obtain ⟨S1, S2, h1, h2⟩ := blockErrors_all _ he ci (List.mem_of_getElem? hc1)
      exact ⟨ci, S1, S2, hc2, h1, h2⟩

theorem checkVal_allowed {env : MachineEnv} {S : CState} {i : Nat} {o : Op} {a : Allocation} {as : List Allocation}
    (h : checkVal env S i o a as = .ok) : a ≠ .none ∧ checkConstraint env i o a as = .ok := by
  unfold checkVal at h
  split at h
  · simp at h
  · next ha =>
    refine ⟨ha, ?_⟩
    split at h
    · split at h
      · simp at h
      · simp at h
      · split at h
        · exact h
        · simp at h
    · exact h

theorem asReg_of_kind {a : Allocation} : a.kind? = some .Reg ↔ a.asReg ≠ none := by
  unfold Allocation.asReg
  split <;> simp_all

theorem checkConstraint_allowed {env : MachineEnv} {i : Nat} {o : Op} {a : Allocation} {as : List Allocation}
    (h : checkConstraint env i o a as = .ok) :
    Allowed env as o a ∨ (∃ n, o.constraint = .Limit n) ∧ a.asReg = none := by
  unfold checkConstraint at h
  unfold Allowed
  split at h
  · next hc => simp [hc]
  · next hc =>
    rw [hc]
    split at h
    · next p hp =>
      split at h
      · simp at h
      · next hnm => exact .inl ⟨p, hp, hnm⟩
    · simp at h
  · next hc =>
    rw [hc]
    left
    split at h
    · split at h
      · next p hp =>
        split at h
        · next hm => exact .inr ⟨p, hp, hm⟩
        · simp at h
      · simp at h
    · next hk =>
      simp only [ne_eq, Decidable.not_not] at hk
      exact .inl (by simp [Allocation.isStack, hk])
  · next p hc =>
    rw [hc]
    split at h
    · simp at h
    · next he => simp only [ne_eq, Decidable.not_not] at he; exact .inl he
  · next k hc =>
    rw [hc]
    split at h
    · simp at h
    · next hk =>
      simp only [ne_eq, Decidable.not_not] at hk
      split at h
      · simp at h
      · next b hb =>
        split at h
        · simp at h
        · next he => simp only [ne_eq, Decidable.not_not] at he; subst he; exact .inl ⟨hb, asReg_of_kind.mp hk⟩
  · next n hc =>
    rw [hc]
    split at h
    · next p hp =>
      split at h
      · simp at h
      · next hlt => exact .inl ⟨p, hp, by omega⟩
    · next hp => exact .inr ⟨⟨n, rfl⟩, hp⟩

theorem isStackAlloc_iff {env : MachineEnv} {a : Allocation} : isStackAlloc env a = true ↔ InMemory env a := by
  unfold isStackAlloc InMemory
  split
  · next p hp =>
    constructor
    · intro h; exact .inr ⟨p, hp, by simpa using h⟩
    · rintro (h | ⟨q, hq, hm⟩)
      · exfalso
        have hk : a.kind? = some .Reg := asReg_of_kind.mpr (by rw [hp]; simp)
        simp [Allocation.isStack, hk] at h
      · rw [hp] at hq; simp at hq; subst hq; simpa using hm
  · next hp =>
    constructor
    · intro h; exact .inl h
    · rintro (h | ⟨q, hq, hm⟩)
      · exact h
      · rw [hp] at hq; simp at hq

/-- More iterations change nothing. -/
theorem analyzeLoop_mono (f : Func) (p : Prep) : ∀ (n m : Nat) (w : Work) (r : List CState), n ≤ m →
    analyzeLoop f p n w = some r → analyzeLoop f p m w = some r := by
  intro n
  induction n with
  | zero =>
    intro m w r _ h
    obtain ⟨bbIn, q⟩ := w
    cases q with
    | nil => cases m <;> simpa [analyzeLoop] using h
    | cons b q => simp [analyzeLoop] at h
  | succ n ih =>
    intro m w r hm h
    obtain ⟨bbIn, q⟩ := w
    cases q with
    | nil => cases m <;> simpa [analyzeLoop] using h
    | cons b q =>
      cases m with
      | zero => omega
      | succ m =>
        unfold analyzeLoop at h ⊢
        split at h
        · simp at h
        · next w' hw => exact ih m w' r (by omega) h

theorem noUndefined_true (f : Func) (ks : List Nat) : ∀ b (D : VReg → Prop), (∀ v, D v) → NoUndefinedReads f ks b D := by
  have hin : ∀ (is : List Nat) (D : VReg → Prop), (∀ v, D v) → InstsDefined f is D := by
    intro is
    induction is with
    | nil => intro D _; trivial
    | cons i is ih => intro D h; exact ⟨fun v _ => h v, ih _ (fun v => .inl (h v))⟩
  induction ks with
  | nil => intro b D h; exact hin _ _ h
  | cons k ks ih =>
    intro b D h
    refine ⟨hin _ _ h, ?_⟩
    split
    · trivial
    · exact ⟨fun m _ => .inl (h _), ih _ _ (fun v => .inl (.inl (h v)))⟩

end Regalloc.Checker
