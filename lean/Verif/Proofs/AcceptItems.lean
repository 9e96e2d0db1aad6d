import Verif.Proofs.CheckerTotal
import Verif.Proofs.ApplyExec

/-
Completeness of the checker on the items of one block: if an execution that tracks where values
come from reads only values labelled with the register they are read for, the checker, which
knows at least these labels, reports nothing.
-/
namespace Regalloc.Checker
open Exec

/-- Where a value comes from: the location it was in at the start of the block, a definition, or
a clobber. -/
inductive Tok
  | init (a : Allocation)
  | res (i k : Nat)
  | junk

/-- Definitions give fresh values. -/
def tokStep : InstSem Tok := ⟨fun i _ k => .res i k, fun i _ _ k => .res i k⟩

/-- This at any moment. -/
def tokSem : Sem Tok := fun _ => tokStep

def tokJunk : Nat → Allocation → Tok := fun _ _ => .junk

/-- Registers that a value is known to be the value of. -/
abbrev Lab := Tok → VReg → Prop

/-- Labels after an instruction. -/
def labInst (f : Func) (i : Nat) (lab : Lab) : Lab := fun t v =>
  (∃ k o, t = .res i k ∧ (f.operands i)[k]? = some o ∧ o.kind = .Def ∧ o.asFixedNonallocatable = none ∧ o.vreg = v) ∨
  ((∀ k, t ≠ .res i k) ∧ lab t v ∧ v ∉ opWrites (f.operands i))

def labInsts (f : Func) : List Nat → Lab → Lab
  | [], lab => lab
  | i :: is, lab => labInsts f is (labInst f i lab)

/-- Clobbers leave nothing known. -/
def NoJunk (lab : Lab) : Prop := ∀ v, ¬ lab .junk v

theorem NoJunk.inst {f : Func} {i : Nat} {lab : Lab} (h : NoJunk lab) : NoJunk (labInst f i lab) := by
  rintro v (⟨_, _, h1, _⟩ | ⟨_, h1, _⟩)
  · cases h1
  · exact h v h1

/-- Only definitions of the instructions `done` have labels. -/
def LabFrom (lab : Lab) (done : List Nat) : Prop := ∀ i k v, lab (.res i k) v → i ∈ done

theorem LabFrom.inst {f : Func} {i : Nat} {lab : Lab} {done : List Nat} (h : LabFrom lab done) : LabFrom (labInst f i lab) (i :: done) := by
  rintro j k v (⟨_, _, h1, _⟩ | ⟨_, h1, _⟩)
  · cases h1; exact List.mem_cons_self
  · exact List.mem_cons_of_mem _ (h j k v h1)

/-- The checker knows the labels. -/
def Rel (lab : Lab) (σ : Allocation → Tok) (S : CState) : Prop := ∀ a v, lab (σ a) v → Claims S a v

/-- Values come from the instructions `done`. -/
def Fresh (σ : Allocation → Tok) (done : List Nat) : Prop := ∀ a i k, σ a = .res i k → i ∈ done

/-- The operands of an instruction with their locations. -/
abbrev locs (f : Func) (out : Output) (i : Nat) : List (Op × Allocation) := (f.operands i).zip ((out.instAllocs i).getD [])

/-- The values read at `pos` are labelled. -/
def GoodReads (f : Func) (out : Output) (i : Nat) (pos : OperandPos) (lab : Lab) (vals : List Tok) : Prop :=
  ∃ σ : Allocation → Tok, reads pos (locs f out i) σ = vals ∧
    ∀ q ∈ locs f out i, q.1.kind = .Use → q.1.pos = pos → q.1.asFixedNonallocatable = none → lab (σ q.2) q.1.vreg

/-- Everything read in the trace is labelled. -/
def Good (f : Func) (out : Output) : List Nat → Lab → Trace Tok → Prop
  | [], _, ts => ts = []
  | _ :: _, _, [] => False
  | i :: is, lab, t :: ts => GoodReads f out i .Early lab t.2.1 ∧ GoodReads f out i .Late (labInst f i lab) t.2.2 ∧
      Good f out is (labInst f i lab) ts

/-- What is required of the locations of one instruction. -/
structure InstFit (f : Func) (env : MachineEnv) (out : Output) (i : Nat) : Prop where
  len : ∃ as, out.instAllocs i = some as ∧ as.length = (f.operands i).length
  /-- The result of a definition is not overwritten by another one. -/
  defs : ∀ (k k' : Nat) q q', (locs f out i)[k]? = some q → (locs f out i)[k']? = some q' → k ≠ k' → q.1.kind = .Def → q'.1.kind = .Def →
    q.1.asFixedNonallocatable = none → q.2 ≠ q'.2 ∧ q.1.vreg ≠ q'.1.vreg
  /-- Late uses are not overwritten. -/
  late : ∀ q ∈ locs f out i, q.1.kind = .Use → q.1.pos = .Late → q.1.asFixedNonallocatable = none →
    (∀ q' ∈ locs f out i, q'.1.kind = .Def → q'.2 ≠ q.2) ∧ q.2 ∉ (f.clobbers i).map Allocation.reg
  /-- Locations satisfy the constraints. -/
  fits : ∀ q ∈ locs f out i, q.2 ≠ .none ∧ (q.1.pos = .Early ∨ hasReuse (f.operands i) = false →
    checkConstraint env i q.1 q.2 ((out.instAllocs i).getD []) = .ok)

/-- The labels of the checker, for the values at the start of a block. -/
def labOf (S : CState) : Lab := fun t v =>
  match t with
  | .init a => Claims S a v
  | _ => False

theorem applyDefs_keep (ps : List (Op × Allocation)) {m m' : CMap} (h : applyDefs? ps m = some m') {a : Allocation} {v : VReg}
    (hc : Claims (.allocs m) a v) (hps : ∀ q ∈ ps, q.1.kind = .Def → q.2 ≠ a ∧ q.1.vreg ≠ v) : Claims (.allocs m') a v := by
  induction ps generalizing m with
  | nil => simp [applyDefs?] at h; subst h; exact hc
  | cons p ps ih =>
    have hps' := fun q hq => hps q (List.mem_cons_of_mem _ hq)
    unfold applyDefs? at h
    split at h
    · exact ih h hc hps'
    · next hk =>
      simp only [ne_eq, Decidable.not_not] at hk
      obtain ⟨h1, h2⟩ := hps p List.mem_cons_self hk
      split at h
      · simp at h
      · next m1 hm1 =>
        refine ih h ?_ hps'
        obtain ⟨s, hs, hv⟩ := hc
        simp only [CState.get] at hs
        refine ⟨s.filter (· ≠ p.1.vreg), ?_, List.mem_filter.mpr ⟨hv, by simpa using fun e => h2 e.symm⟩⟩
        simp only [CState.get]
        rw [CMap.get_put, if_neg (fun e => h1 e.symm), CMap.removeVreg_some hm1, get_removed, hs]
        rfl

theorem applyDefs_at (l1 : List (Op × Allocation)) (p : Op × Allocation) (l2 : List (Op × Allocation)) {m m' : CMap}
    (h : applyDefs? (l1 ++ p :: l2) m = some m') (hk : p.1.kind = .Def)
    (hl : ∀ q ∈ l2, q.1.kind = .Def → q.2 ≠ p.2 ∧ q.1.vreg ≠ p.1.vreg) : Claims (.allocs m') p.2 p.1.vreg := by
  induction l1 generalizing m with
  | nil =>
    rw [List.nil_append] at h
    unfold applyDefs? at h
    rw [if_neg (by simp [hk])] at h
    split at h
    · simp at h
    · refine applyDefs_keep l2 h ⟨[p.1.vreg], ?_, by simp⟩ hl
      simp only [CState.get]
      rw [CMap.get_put, if_pos rfl]
  | cons q l1 ih =>
    rw [List.cons_append] at h
    unfold applyDefs? at h
    split at h
    · exact ih h
    · split at h
      · simp at h
      · exact ih h

theorem clobber_keep (cl : List PReg) {m : CMap} {a : Allocation} {v : VReg} (h : Claims (.allocs m) a v)
    (ha : a ∉ cl.map Allocation.reg) : Claims (.allocs (cl.foldl (fun m c => m.del (.reg c)) m)) a v := by
  induction cl generalizing m with
  | nil => exact h
  | cons c cl ih =>
    simp only [List.map_cons, List.mem_cons, not_or] at ha
    refine ih ?_ ha.2
    obtain ⟨s, hs, hv⟩ := h
    refine ⟨s, ?_, hv⟩
    simp only [CState.get] at hs ⊢
    rw [CMap.get_del, if_neg ha.1, hs]

theorem claims_defined {S : CState} {a : Allocation} {v : VReg} (h : Claims S a v) : Claims (.allocs S.defined) a v := by
  obtain ⟨s, hs, hv⟩ := h
  cases S with
  | top => simp [CState.get] at hs
  | allocs m => exact ⟨s, hs, hv⟩

/-- A move. -/
theorem rel_move {lab : Lab} {σ : Allocation → Tok} {S S' : CState} (h : Rel lab σ S) {into src : Allocation}
    (hu : update? S (.move into src) = some S') : Rel lab (upd σ into (σ src)) S' := by
  intro a v hl
  unfold update? at hu
  simp only at hu
  unfold upd at hl
  by_cases ha : a = into
  · subst ha
    rw [if_pos rfl] at hl
    obtain ⟨s, hs, hv⟩ := claims_defined (h src v hl)
    simp only [CState.get] at hs
    rw [hs] at hu
    simp only [Option.some.injEq] at hu
    subst hu
    refine ⟨s, ?_, hv⟩
    simp only [CState.get]
    rw [CMap.get_put, if_pos rfl]
  · rw [if_neg ha] at hl
    obtain ⟨s, hs, hv⟩ := claims_defined (h a v hl)
    simp only [CState.get] at hs
    split at hu <;> simp only [Option.some.injEq] at hu <;> subst hu
    · refine ⟨s, ?_, hv⟩
      simp only [CState.get]
      rw [CMap.get_put, if_neg ha, hs]
    · exact ⟨s, hs, hv⟩

theorem get_split {α : Type} {l : List α} {k : Nat} {x : α} (h : l[k]? = some x) : l = l.take k ++ x :: l.drop (k + 1) := by
  obtain ⟨hlt, hge⟩ := List.getElem?_eq_some_iff.mp h
  rw [← hge, ← List.drop_eq_getElem_cons hlt, List.take_append_drop]

/-- Where a value after an instruction comes from. -/
theorem step_from' {L Val : Type} [DecidableEq L] (r : Nat → Val) (i : Nat) (ol : List (Op × L)) (σ : L → Val) (a : L) :
    ((stepInst ⟨fun _ _ k => r k, fun _ _ _ k => r k⟩ i ol σ).2 a = σ a ∧ ∀ q ∈ ol, q.1.kind = .Def → q.2 ≠ a) ∨
    ∃ (k : Nat) (q : Op × L), ol[k]? = some q ∧ q.1.kind = .Def ∧ q.2 = a ∧ (stepInst ⟨fun _ _ k => r k, fun _ _ _ k => r k⟩ i ol σ).2 a = r k := by
  have key : ∀ (pos : OperandPos) (ps : List (Op × L)) (k : Nat) (τ : L → Val),
      (writesFrom pos (fun k => r k) k ps τ a = τ a ∧ ∀ q ∈ ps, q.1.kind = .Def → q.1.pos = pos → q.2 ≠ a) ∨
      ∃ (j : Nat) (q : Op × L), ps[j]? = some q ∧ q.1.kind = .Def ∧ q.2 = a ∧ writesFrom pos (fun k => r k) k ps τ a = r (k + j) := by
    intro pos ps
    induction ps with
    | nil => intro k τ; exact .inl ⟨rfl, by simp⟩
    | cons p ps ih =>
      intro k τ
      unfold writesFrom
      rcases ih (k + 1) (if p.1.kind = .Def ∧ p.1.pos = pos then upd τ p.2 (r k) else τ) with ⟨h1, h2⟩ | ⟨j, q, h1, h2, h3, h4⟩
      · rw [h1]
        by_cases hc : p.1.kind = .Def ∧ p.1.pos = pos
        · rw [if_pos hc]
          by_cases ha : a = p.2
          · exact .inr ⟨0, p, rfl, hc.1, ha.symm, by unfold upd; rw [if_pos ha]; rfl⟩
          · refine .inl ⟨by unfold upd; rw [if_neg ha], ?_⟩
            intro q hq g1 g2
            rcases List.mem_cons.mp hq with rfl | hq
            · exact fun e => ha e.symm
            · exact h2 q hq g1 g2
        · rw [if_neg hc]
          refine .inl ⟨rfl, ?_⟩
          intro q hq g1 g2
          rcases List.mem_cons.mp hq with rfl | hq
          · exact absurd ⟨g1, g2⟩ hc
          · exact h2 q hq g1 g2
      · refine .inr ⟨j + 1, q, by simpa using h1, h2, h3, ?_⟩
        rw [h4]
        congr 1
        omega
  unfold stepInst
  dsimp only
  rcases key .Late ol 0 (writesFrom .Early (fun k => r k) 0 ol σ) with ⟨h1, h2⟩ | ⟨j, q, h1, h2, h3, h4⟩
  · rcases key .Early ol 0 σ with ⟨g1, g2⟩ | ⟨j, q, g1, g2, g3, g4⟩
    · refine .inl ⟨h1.trans g1, ?_⟩
      intro q hq hd
      cases hp : q.1.pos with
      | Early => exact g2 q hq hd hp
      | Late => exact h2 q hq hd hp
    · exact .inr ⟨j, q, g1, g2, g3, by rw [Nat.zero_add] at g4; exact h1.trans g4⟩
  · exact .inr ⟨j, q, h1, h2, h3, by rw [Nat.zero_add] at h4; exact h4⟩

theorem step_from {L : Type} [DecidableEq L] (i : Nat) (ol : List (Op × L)) (σ : L → Tok) (a : L) :
    ((stepInst tokStep i ol σ).2 a = σ a ∧ ∀ q ∈ ol, q.1.kind = .Def → q.2 ≠ a) ∨
    ∃ (k : Nat) (q : Op × L), ol[k]? = some q ∧ q.1.kind = .Def ∧ q.2 = a ∧ (stepInst tokStep i ol σ).2 a = .res i k :=
  step_from' (fun k => Tok.res i k) i ol σ a

section
variable {f : Func} {env : MachineEnv} {out : Output}

/-- The state after an instruction. -/
abbrev after (f : Func) (out : Output) (i n : Nat) (σ : Allocation → Tok) : Allocation → Tok :=
  fun a => if a ∈ (f.clobbers i).map Allocation.reg then tokJunk n a else (stepInst tokStep i (locs f out i) σ).2 a

theorem fresh_inst {i n : Nat} {σ : Allocation → Tok} {done : List Nat} (h : Fresh σ done) : Fresh (after f out i n σ) (i :: done) := by
  intro a j k ha
  unfold after at ha
  split at ha
  · cases ha
  · rcases step_from i (locs f out i) σ a with ⟨h1, _⟩ | ⟨k', q, _, _, _, h1⟩
    · rw [h1] at ha
      exact List.mem_cons_of_mem _ (h a j k ha)
    · rw [h1] at ha
      cases ha
      exact List.mem_cons_self

theorem rel_inst {i n : Nat} (F : InstFit f env out i) {lab : Lab} (hj : NoJunk lab) {σ : Allocation → Tok} {done : List Nat}
    (hfr : Fresh σ done) (hi : i ∉ done) {as : List Allocation} (has : out.instAllocs i = some as) {S S' : CState} (h : Rel lab σ S)
    (hu : update? S (.op i (f.operands i) as (f.clobbers i)) = some S') : Rel (labInst f i lab) (after f out i n σ) S' := by
  have hloc : (f.operands i).zip as = locs f out i := by unfold locs; rw [has]; rfl
  unfold update? at hu
  simp only at hu
  rw [hloc] at hu
  split at hu
  · cases hu
  rename_i m' hm'
  simp only [Option.some.injEq] at hu
  subst hu
  intro a v hl
  unfold after at hl
  split at hl
  · exact absurd hl (hj.inst v)
  rename_i hcl
  apply clobber_keep _ _ hcl
  rcases step_from i (locs f out i) σ a with ⟨h1, h2⟩ | ⟨k, q, h1, h2, h3, h4⟩
  · rw [h1] at hl
    rcases hl with ⟨k, _, g1, _⟩ | ⟨_, g1, g2⟩
    · exact absurd (hfr a i k g1) hi
    · refine applyDefs_keep _ hm' (claims_defined (h a v g1)) ?_
      intro q hq hd
      refine ⟨h2 q hq hd, fun e => g2 ?_⟩
      rw [← e]
      exact mem_opWrites (List.of_mem_zip hq).1 hd
  · rw [h4] at hl
    rcases hl with ⟨k', o, g1, g2, g3, g4, g5⟩ | ⟨g1, _⟩
    · cases g1
      have hq1 := (List.getElem?_zip_eq_some.mp h1).1
      rw [g2] at hq1
      have hqo : o = q.1 := Option.some.inj hq1
      subst hqo
      rw [get_split h1] at hm'
      subst h3 g5
      refine applyDefs_at _ q _ hm' h2 ?_
      intro q' hq' hd'
      obtain ⟨j, hj'⟩ := List.mem_iff_getElem?.mp hq'
      rw [List.getElem?_drop] at hj'
      have := F.defs k _ q q' h1 hj' (by omega) h2 hd' g4
      exact ⟨fun e => this.1 e.symm, fun e => this.2 e.symm⟩
    · exact absurd rfl (g1 k)

/-- What was read was labelled. -/
theorem good_use {i : Nat} {pos : OperandPos} {lab : Lab} {σ : Allocation → Tok} (h : GoodReads f out i pos lab (reads pos (locs f out i) σ))
    {q : Op × Allocation} (hq : q ∈ locs f out i) (hk : q.1.kind = .Use) (hp : q.1.pos = pos) (hn : q.1.asFixedNonallocatable = none) :
    lab (σ q.2) q.1.vreg := by
  obtain ⟨τ, h1, h2⟩ := h
  unfold reads at h1
  have := List.map_inj_left.mp h1 q (List.mem_filter.mpr ⟨hq, by simp [hk, hp, hn]⟩)
  rw [← this]
  exact h2 q hq hk hp hn

theorem checkOps_ok {S : CState} {pos : OperandPos} {i : Nat} {as : List Allocation} (ps : List (Op × Allocation))
    (h : ∀ p ∈ ps, p.1.pos = pos → checkVal env S i p.1 p.2 as = .ok) : checkOps env S pos i as ps = .ok := by
  induction ps with
  | nil => rfl
  | cons p ps ih =>
    have ih := ih (fun q hq => h q (List.mem_cons_of_mem _ hq))
    unfold checkOps
    split
    · exact ih
    · rename_i hp
      rw [h p List.mem_cons_self (by simpa using hp)]
      exact ih

theorem checkVal_ok {S : CState} {i : Nat} {o : Op} {a : Allocation} {as : List Allocation} (ha : a ≠ .none)
    (hc : checkConstraint env i o a as = .ok) (h : o.kind = .Use → o.asFixedNonallocatable = none → Claims S a o.vreg) :
    checkVal env S i o a as = .ok := by
  unfold checkVal
  rw [if_neg ha]
  split
  · rename_i hu
    obtain ⟨s, hs, hv⟩ := h hu.1 hu.2
    rw [hs]
    dsimp only
    rw [if_pos hv, hc]
  · exact hc

theorem check_inst {i n : Nat} (F : InstFit f env out i) {lab : Lab} {σ : Allocation → Tok} {as : List Allocation}
    (has : out.instAllocs i = some as) {S S' : CState} (h : Rel lab σ S) (h' : Rel (labInst f i lab) (after f out i n σ) S')
    (he : GoodReads f out i .Early lab (stepInst tokStep i (locs f out i) σ).1.2.1)
    (hl : GoodReads f out i .Late (labInst f i lab) (stepInst tokStep i (locs f out i) σ).1.2.2) :
    check env S .Early (.op i (f.operands i) as (f.clobbers i)) = .ok ∧
    check env S' .Late (.op i (f.operands i) as (f.clobbers i)) = .ok := by
  have hloc : (f.operands i).zip as = locs f out i := by unfold locs; rw [has]; rfl
  have hge : (out.instAllocs i).getD [] = as := by rw [has]; rfl
  unfold check
  dsimp only
  rw [hloc, if_neg (by simp)]
  constructor
  · apply checkOps_ok
    intro q hq hp
    obtain ⟨h1, h2⟩ := F.fits q hq
    rw [hge] at h2
    exact checkVal_ok h1 (h2 (.inl hp)) (fun hk hn => h _ _ (good_use he hq hk hp hn))
  · split
    · rfl
    · rename_i hre
      apply checkOps_ok
      intro q hq hp
      obtain ⟨h1, h2⟩ := F.fits q hq
      rw [hge] at h2
      refine checkVal_ok h1 (h2 (.inr (by simpa using hre))) (fun hk hn => h' _ _ ?_)
      obtain ⟨g1, g2⟩ := F.late q hq hk hp hn
      unfold after
      rw [if_neg g2]
      rcases step_from i (locs f out i) σ q.2 with ⟨h3, _⟩ | ⟨k, q', h3, h4, h5, _⟩
      · rw [h3]
        have h6 := good_use (σ := writesFrom .Early (tokStep.early i (reads .Early (locs f out i) σ)) 0 (locs f out i) σ) hl hq hk hp hn
        rw [writesFrom_other _ _ _ _ _ _ (fun q' hq' hd _ => g1 q' hq' hd)] at h6
        exact h6
      · exact absurd h5 (g1 q' (List.mem_of_getElem? h3) h4)

theorem allocItems_prefix {Val : Type} (sem : Sem Val) (junk : Nat → Allocation → Val) (items : List InstOrEdit) :
    ∀ (σ : Allocation → Val) (tr : Trace Val), ∃ ts, (allocItems f out sem junk items σ tr).2 = tr ++ ts := by
  induction items with
  | nil => intro σ tr; exact ⟨[], by simp [allocItems]⟩
  | cons x items ih =>
    intro σ tr
    cases x with
    | edit e => exact ih _ _
    | inst i =>
      obtain ⟨ts, hts⟩ := ih (fun a => if a ∈ (f.clobbers i).map Allocation.reg then junk tr.length a else
        (stepInst (sem tr) i ((f.operands i).zip ((out.instAllocs i).getD [])) σ).2 a)
        (tr ++ [(stepInst (sem tr) i ((f.operands i).zip ((out.instAllocs i).getD [])) σ).1])
      exact ⟨(stepInst (sem tr) i ((f.operands i).zip ((out.instAllocs i).getD [])) σ).1 :: ts, by rw [allocItems, hts]; simp⟩

theorem accept_items {UA : List Allocation} {UV : List VReg} (items : List InstOrEdit) :
    ∀ {cis : List CInst} {σ : Allocation → Tok} {S : CState} {lab : Lab} {done : List Nat} {tr ts : Trace Tok},
    mapAll (itemInst? f out) items = some cis → StWf UA UV S → (∀ ci ∈ cis, ci.Within UA UV) →
    (∀ i ∈ instsOf items, InstFit f env out i) →
    (∀ e, InstOrEdit.edit e ∈ items → ¬ (isStackAlloc env e.dst = true ∧ isStackAlloc env e.src = true)) →
    (instsOf items).Nodup → (∀ i ∈ instsOf items, i ∉ done) →
    Rel lab σ S → Fresh σ done → NoJunk lab →
    (allocItems f out tokSem tokJunk items σ tr).2 = tr ++ ts → Good f out (instsOf items) lab ts →
    blockErrors? env S cis = some [] ∧ ∃ S', updates? S cis = some S' ∧
      Rel (labInsts f (instsOf items) lab) (allocItems f out tokSem tokJunk items σ tr).1 S' := by
  induction items with
  | nil =>
    intro cis σ S lab done tr ts hm _ _ _ _ _ _ hrel _ _ _ _
    simp only [mapAll, Option.some.injEq] at hm
    subst hm
    exact ⟨rfl, S, rfl, hrel⟩
  | cons x items ih =>
    intro cis σ S lab done tr ts hm hwf hwi hfit hst hnd hdone hrel hfr hj htr hgood
    unfold mapAll at hm
    split at hm
    · rename_i ci cis' hci hcis
      simp only [Option.some.injEq] at hm
      subst hm
      obtain ⟨m', hu, hw'⟩ := update_wf hwf (hwi ci List.mem_cons_self)
      have hwi' := fun c hc => hwi c (List.mem_cons_of_mem _ hc)
      have hst' := fun e he => hst e (List.mem_cons_of_mem _ he)
      have fin : ∀ {P : CState → Prop}, check env S .Early ci = .ok → check env (.allocs m') .Late ci = .ok →
          (blockErrors? env (.allocs m') cis' = some [] ∧ ∃ S', updates? (.allocs m') cis' = some S' ∧ P S') →
          blockErrors? env S (ci :: cis') = some [] ∧ ∃ S', updates? S (ci :: cis') = some S' ∧ P S' := by
        rintro P h1 h2 ⟨h3, S', h4, h5⟩
        refine ⟨?_, S', ?_, h5⟩
        · unfold blockErrors?
          rw [h1, hu]
          dsimp only
          rw [h2, h3]
          rfl
        · unfold updates?
          rw [hu]
          exact h4
      cases x with
      | edit e =>
        simp only [itemInst?, Option.some.injEq] at hci
        subst hci
        have hok : ∀ T pos, check env T pos (.move e.dst e.src) = .ok := by
          intro T pos
          unfold check
          dsimp only
          rw [if_neg (hst e List.mem_cons_self)]
        exact fin (hok _ _) (hok _ _) (ih hcis hw' hwi' hfit hst' hnd hdone (rel_move hrel hu) (by
          intro a i k ha
          unfold upd at ha
          split at ha
          · exact hfr _ i k ha
          · exact hfr _ i k ha) hj htr hgood)
      | inst i =>
        have hins : instsOf (.inst i :: items) = i :: instsOf items := rfl
        rw [hins] at hfit hnd hdone hgood
        rw [List.nodup_cons] at hnd
        have F := hfit i List.mem_cons_self
        obtain ⟨as, has, _⟩ := F.len
        simp only [itemInst?, has, Option.some.injEq] at hci
        subst hci
        have hst1 : allocItems f out tokSem tokJunk (.inst i :: items) σ tr =
            allocItems f out tokSem tokJunk items (after f out i tr.length σ) (tr ++ [(stepInst tokStep i (locs f out i) σ).1]) := rfl
        rw [hst1] at htr
        obtain ⟨ts', hts'⟩ := allocItems_prefix (f := f) (out := out) tokSem tokJunk items (after f out i tr.length σ)
          (tr ++ [(stepInst tokStep i (locs f out i) σ).1])
        have hts : ts = (stepInst tokStep i (locs f out i) σ).1 :: ts' := by
          rw [htr, List.append_assoc] at hts'
          exact List.append_cancel_left hts'
        subst hts
        obtain ⟨g1, g2, g3⟩ := hgood
        have hrel' := rel_inst (n := tr.length) F hj hfr (hdone i List.mem_cons_self) has hrel hu
        obtain ⟨c1, c2⟩ := check_inst F has hrel hrel' g1 g2
        rw [hst1]
        refine fin c1 c2 (ih (done := i :: done) hcis hw' hwi' (fun j hj => hfit j (List.mem_cons_of_mem _ hj)) hst' hnd.2 ?_ hrel'
          (fresh_inst hfr) hj.inst hts' g3)
        intro j hj' hm
        rcases List.mem_cons.mp hm with rfl | hm
        · exact hnd.1 hj'
        · exact hdone j (List.mem_cons_of_mem _ hj') hm
    · cases hm

/-- Labels after the assignments of an edge. -/
def labEdge (ms : List (VReg × VReg)) (lab : Lab) : Lab := fun t v =>
  (v ∉ ms.map Prod.fst ∧ lab t v) ∨ ∃ u, (v, u) ∈ ms ∧ lab t u

theorem rel_pmove {lab : Lab} {σ : Allocation → Tok} {S S' : CState} (h : Rel lab σ S) {ms : List (VReg × VReg)}
    (hu : update? S (.pmove ms) = some S') : Rel (labEdge ms lab) σ S' := by
  simp only [update?, Option.some.injEq] at hu
  subst hu
  intro a v hl
  have key : ∀ u, Claims S a u → (v ∉ ms.map Prod.fst ∧ v = u ∨ (v, u) ∈ ms) → 
      Claims (.allocs (S.defined.map (fun p => (p.1, pmoveVal ms p.2)))) a v := by
    intro u hc hv
    obtain ⟨s, hs, hm⟩ := claims_defined hc
    simp only [CState.get] at hs
    refine ⟨s.filter (fun v => v ∉ ms.map Prod.fst) ++ s.flatMap (fun v => (ms.filter (fun mv => mv.2 = v)).map Prod.fst), ?_, ?_⟩
    · simp only [CState.get]
      rw [CMap.get_mapVal, hs]
      rfl
    · rw [List.mem_append]
      rcases hv with ⟨h1, rfl⟩ | h1
      · exact .inl (List.mem_filter.mpr ⟨hm, by simpa using h1⟩)
      · exact .inr (List.mem_flatMap.mpr ⟨u, hm, List.mem_map.mpr ⟨(v, u), List.mem_filter.mpr ⟨h1, by simp⟩, rfl⟩⟩)
  rcases hl with ⟨h1, h2⟩ | ⟨u, h1, h2⟩
  · exact key v (h a v h2) (.inl ⟨h1, rfl⟩)
  · exact key u (h a u h2) (.inr h1)
end

end Regalloc.Checker
