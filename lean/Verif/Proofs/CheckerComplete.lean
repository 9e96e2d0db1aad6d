import Verif.Proofs.AcceptItems
import Verif.Proofs.CheckerInv
import Verif.Proofs.AcceptRun
import Verif.Spec.Complete

/-
Completeness of the checker: if the values that two executions read are the same whatever
instructions compute, the checker reports nothing. The executions considered compute a fresh value
at each definition.
-/
namespace Regalloc.Checker
open Exec

/-- Values: initial ones, results with the time they were computed, and what clobbers leave. -/
inductive FTok
  | loc (a : Allocation)
  | reg (v : VReg)
  | res (n i k : Nat)
  | junk (n : Nat) (a : Allocation)

/-- Each definition gives a value never seen before. -/
def fSem : Sem FTok := fun tr => ⟨fun i _ k => .res tr.length i k, fun i _ _ k => .res tr.length i k⟩

def fJunk : Nat → Allocation → FTok := fun n a => .junk n a

/-- Values that exist before time `n`. -/
def Old (n : Nat) : FTok → Prop
  | .loc _ => True
  | .reg _ => True
  | .res m _ _ => m < n
  | .junk m _ => m < n

theorem Old.succ {n : Nat} {t : FTok} (h : Old n t) : Old (n + 1) t := by
  cases t <;> simp only [Old] at h ⊢ <;> omega

/-- A register that holds no junk. -/
def NotJunk : FTok → Prop
  | .junk _ _ => False
  | .loc _ => False
  | _ => True

/-- The state of both executions, at the same time. -/
structure Both where
  A : Allocation → FTok
  V : VReg → FTok
  tr : Trace FTok

/-- All values are old. -/
def Both.Ok (c : Both) : Prop := (∀ a, Old c.tr.length (c.A a)) ∧ ∀ v, Old c.tr.length (c.V v) ∧ NotJunk (c.V v)

section
variable {f : Func} {env : MachineEnv} {out : Output}

/-- After a move. -/
def Both.move (c : Both) (e : Edit) : Both := ⟨upd c.A e.dst (c.A e.src), c.V, c.tr⟩

/-- After an instruction. -/
def Both.inst (f : Func) (out : Output) (i : Nat) (c : Both) : Both :=
  ⟨fun a => if a ∈ (f.clobbers i).map Allocation.reg then fJunk c.tr.length a else (stepInst (fSem c.tr) i (locs f out i) c.A).2 a,
   (stepInst (fSem c.tr) i ((f.operands i).map (fun o => (o, o.vreg))) c.V).2,
   c.tr ++ [(stepInst (fSem c.tr) i (locs f out i) c.A).1]⟩

theorem origInsts_prefix {Val : Type} (sem : Sem Val) (is : List Nat) :
    ∀ (V : VReg → Val) (tr : Trace Val), ∃ ts, (origInsts f sem is V tr).2 = tr ++ ts := by
  induction is with
  | nil => intro V tr; exact ⟨[], by simp [origInsts]⟩
  | cons i is ih =>
    intro V tr
    obtain ⟨ts, hts⟩ := ih (stepInst (sem tr) i ((f.operands i).map (fun o => (o, o.vreg))) V).2
      (tr ++ [(stepInst (sem tr) i ((f.operands i).map (fun o => (o, o.vreg))) V).1])
    exact ⟨(stepInst (sem tr) i ((f.operands i).map (fun o => (o, o.vreg))) V).1 :: ts, by rw [origInsts, hts]; simp⟩

theorem f_from {L : Type} [DecidableEq L] (tr : Trace FTok) (i : Nat) (ol : List (Op × L)) (σ : L → FTok) (a : L) :
    ((stepInst (fSem tr) i ol σ).2 a = σ a ∧ ∀ q ∈ ol, q.1.kind = .Def → q.2 ≠ a) ∨
    ∃ (k : Nat) (q : Op × L), ol[k]? = some q ∧ q.1.kind = .Def ∧ q.2 = a ∧ (stepInst (fSem tr) i ol σ).2 a = .res tr.length i k :=
  step_from' (fun k => FTok.res tr.length i k) i ol σ a

theorem Both.Ok.inst {c : Both} (h : c.Ok) (i : Nat) : (c.inst f out i).Ok := by
  have hl : (c.inst f out i).tr.length = c.tr.length + 1 := by simp [Both.inst]
  refine ⟨?_, ?_⟩
  · intro a
    rw [hl]
    unfold Both.inst
    dsimp only
    split
    · exact Nat.lt_succ_self _
    · rcases f_from c.tr i (locs f out i) c.A a with ⟨h1, _⟩ | ⟨k, q, _, _, _, h1⟩
      · rw [h1]; exact (h.1 a).succ
      · rw [h1]; exact Nat.lt_succ_self _
  · intro v
    rw [hl]
    unfold Both.inst
    dsimp only
    rcases f_from c.tr i ((f.operands i).map (fun o => (o, o.vreg))) c.V v with ⟨h1, _⟩ | ⟨k, q, _, _, _, h1⟩
    · rw [h1]; exact ⟨(h.2 v).1.succ, (h.2 v).2⟩
    · rw [h1]; exact ⟨Nat.lt_succ_self _, trivial⟩

theorem Both.Ok.move {c : Both} (h : c.Ok) (e : Edit) : (c.move e).Ok := by
  refine ⟨?_, h.2⟩
  intro a
  unfold Both.move upd
  dsimp only
  split
  · exact h.1 _
  · exact h.1 _

/-- The checker knows what holds in all states. -/
def Cover {X : Type} (c : X → Both) (S : CState) : Prop := ∀ a v, (∀ x, (c x).A a = (c x).V v) → Claims S a v

theorem cover_move {X : Type} {c : X → Both} {S S' : CState} (h : Cover c S) {e : Edit}
    (hu : update? S (.move e.dst e.src) = some S') : Cover (fun x => (c x).move e) S' := by
  intro a v hx
  have hrel := rel_move (lab := labOf S) (σ := Tok.init) (S := S) (fun a v h => h) hu a v
  apply hrel
  unfold Both.move upd at hx
  unfold upd
  by_cases ha : a = e.dst
  · simp only [if_pos ha] at hx ⊢
    exact h _ _ hx
  · simp only [if_neg ha] at hx ⊢
    exact h _ _ hx

theorem cover_inst {X : Type} {c : X → Both} (x0 : X) (hok : ∀ x, (c x).Ok) {i : Nat} (F : InstFit f env out i)
    (hr : ∀ o ∈ f.operands i, o.kind = .Def → o.asFixedNonallocatable = none)
    {as : List Allocation} (has : out.instAllocs i = some as) {S S' : CState} (h : Cover c S)
    (hu : update? S (.op i (f.operands i) as (f.clobbers i)) = some S') : Cover (fun x => (c x).inst f out i) S' := by
  have hloc : (f.operands i).zip as = locs f out i := by unfold locs; rw [has]; rfl
  unfold update? at hu
  simp only at hu
  rw [hloc] at hu
  split at hu
  · cases hu
  rename_i m' hm'
  simp only [Option.some.injEq] at hu
  subst hu
  intro a v hx
  -- the virtual register at time 0
  have hV : ∀ x, ((c x).inst f out i).V v = (c x).V v ∨ ∃ k q, (f.operands i)[k]? = some q ∧ q.kind = .Def ∧ q.vreg = v ∧
      ((c x).inst f out i).V v = .res (c x).tr.length i k := by
    intro x
    rcases f_from (c x).tr i ((f.operands i).map (fun o => (o, o.vreg))) (c x).V v with ⟨h1, _⟩ | ⟨k, q, h1, h2, h3, h4⟩
    · exact .inl h1
    · rw [List.getElem?_map, Option.map_eq_some_iff] at h1
      obtain ⟨o, h1, rfl⟩ := h1
      exact .inr ⟨k, o, h1, h2, h3, h4⟩
  have hcl : a ∉ (f.clobbers i).map Allocation.reg := by
    intro hm
    have h1 := hx x0
    have h2 : ((c x0).inst f out i).A a = .junk (c x0).tr.length a := if_pos hm
    rw [h2] at h1
    have h3 := (hok x0).inst (f := f) (out := out) i
    have h4 := (h3.2 v).2
    rw [← h1] at h4
    exact h4
  apply clobber_keep _ _ hcl
  have hA : ∀ x, ((c x).inst f out i).A a = (stepInst (fSem (c x).tr) i (locs f out i) (c x).A).2 a := fun x => if_neg hcl
  by_cases hd : ∃ q ∈ locs f out i, q.1.kind = .Def ∧ q.2 = a
  · have h1 := hx x0
    rw [hA] at h1
    rcases f_from (c x0).tr i (locs f out i) (c x0).A a with ⟨_, h2⟩ | ⟨k, q, h2, h3, h4, h5⟩
    · obtain ⟨q, h3, h4, h5⟩ := hd
      exact absurd h5 (h2 q h3 h4)
    · rw [h5] at h1
      rcases hV x0 with g1 | ⟨k', o, g1, g2, g3, g4⟩
      · rw [g1] at h1
        have := ((hok x0).2 v).1
        rw [← h1] at this
        exact absurd this (Nat.lt_irrefl _)
      · rw [g4] at h1
        injection h1 with _ _ h1
        subst h1
        have hq1 := (List.getElem?_zip_eq_some.mp h2).1
        rw [g1] at hq1
        have hqo : o = q.1 := Option.some.inj hq1
        subst hqo
        rw [get_split h2] at hm'
        subst h4 g3
        refine applyDefs_at _ q _ hm' h3 ?_
        intro q' hq' hd'
        obtain ⟨j, hj'⟩ := List.mem_iff_getElem?.mp hq'
        rw [List.getElem?_drop] at hj'
        have := F.defs k _ q q' h2 hj' (by omega) h3 hd' (hr _ (List.mem_of_getElem? g1) g2)
        exact ⟨fun e => this.1 e.symm, fun e => this.2 e.symm⟩
  · have hd : ∀ q ∈ locs f out i, q.1.kind = .Def → q.2 ≠ a := fun q h1 h2 h3 => hd ⟨q, h1, h2, h3⟩
    have hA' : ∀ x, ((c x).inst f out i).A a = (c x).A a := by
      intro x
      rw [hA]
      rcases f_from (c x).tr i (locs f out i) (c x).A a with ⟨h1, _⟩ | ⟨k, q, h2, h3, h4, h5⟩
      · exact h1
      · exact absurd h4 (hd q (List.mem_of_getElem? h2) h3)
    have hv : ∀ o ∈ f.operands i, o.kind = .Def → o.vreg ≠ v := by
      intro o ho hk hov
      have h1 := hx x0
      rw [hA'] at h1
      rcases f_from (c x0).tr i ((f.operands i).map (fun o => (o, o.vreg))) (c x0).V v with ⟨_, g⟩ | ⟨k, q, _, _, _, g⟩
      · exact g (o, o.vreg) (List.mem_map_of_mem ho) hk hov
      · have g : ((c x0).inst f out i).V v = .res (c x0).tr.length i k := g
        rw [g] at h1
        have := (hok x0).1 a
        rw [h1] at this
        exact absurd this (Nat.lt_irrefl _)
    refine applyDefs_keep _ hm' (claims_defined (h a v ?_)) ?_
    · intro x
      have h1 := hx x
      rw [hA'] at h1
      rcases hV x with g | ⟨k, o, g1, g2, g3, _⟩
      · rw [g] at h1; exact h1
      · exact absurd g3 (hv o (List.mem_of_getElem? g1) g2)
    · intro q hq hk
      exact ⟨hd q hq hk, hv q.1 (List.of_mem_zip hq).1 hk⟩

/-- Reading the same values means reading the same value at each operand. -/
theorem reads_pointwise {Val : Type} {pos : OperandPos} {ol : List (Op × Allocation)} {A : Allocation → Val} {V : VReg → Val}
    (h : reads pos ol A = reads pos (vlocs ol) V) {q : Op × Allocation} (hq : q ∈ ol) (hk : q.1.kind = .Use) (hp : q.1.pos = pos)
    (hn : q.1.asFixedNonallocatable = none) : A q.2 = V q.1.vreg := by
  unfold reads vlocs at h
  rw [List.filter_map, List.map_map] at h
  exact List.map_inj_left.mp h q (List.mem_filter.mpr ⟨hq, by simp [hk, hp, hn]⟩)

/-- One instruction is accepted. -/
theorem complete_inst {X : Type} {c : X → Both} {i : Nat} (F : InstFit f env out i)
    (hud : ∀ v ∈ opReads (f.operands i), v ∉ opWrites (f.operands i))
    {as : List Allocation} (has : out.instAllocs i = some as) {S S' : CState} (h : Cover c S)
    (h' : Cover (fun x => (c x).inst f out i) S')
    (heq : ∀ x, (stepInst (fSem (c x).tr) i (locs f out i) (c x).A).1 =
      (stepInst (fSem (c x).tr) i ((f.operands i).map (fun o => (o, o.vreg))) (c x).V).1) :
    check env S .Early (.op i (f.operands i) as (f.clobbers i)) = .ok ∧
    check env S' .Late (.op i (f.operands i) as (f.clobbers i)) = .ok := by
  have hloc : (f.operands i).zip as = locs f out i := by unfold locs; rw [has]; rfl
  have hge : (out.instAllocs i).getD [] = as := by rw [has]; rfl
  have hv : vlocs (locs f out i) = (f.operands i).map (fun o => (o, o.vreg)) := by
    obtain ⟨as', h1, h2⟩ := F.len
    rw [has] at h1
    cases h1
    rw [← hloc]
    exact vlocs_zip _ _ h2
  rw [← hv] at heq
  unfold check
  dsimp only
  rw [hloc, if_neg (by simp)]
  constructor
  · apply checkOps_ok
    intro q hq hp
    obtain ⟨h1, h2⟩ := F.fits q hq
    rw [hge] at h2
    refine checkVal_ok h1 (h2 (.inl hp)) (fun hk hn => h _ _ (fun x => ?_))
    have := heq x
    unfold stepInst at this
    dsimp only at this
    injection this with _ this
    injection this with this _
    exact reads_pointwise this hq hk hp hn
  · split
    · rfl
    · rename_i hre
      apply checkOps_ok
      intro q hq hp
      obtain ⟨h1, h2⟩ := F.fits q hq
      rw [hge] at h2
      refine checkVal_ok h1 (h2 (.inr (by simpa using hre))) (fun hk hn => h' _ _ (fun x => ?_))
      obtain ⟨g1, g2⟩ := F.late q hq hk hp hn
      have hqv := hud _ (mem_opReads (List.of_mem_zip hq).1 hk hn)
      have hqv' : ∀ p ∈ vlocs (locs f out i), p.1.kind = .Def → p.2 ≠ q.1.vreg := by
        intro p hp hk
        unfold vlocs at hp
        obtain ⟨r, hr, rfl⟩ := List.mem_map.mp hp
        intro e
        exact hqv (e ▸ mem_opWrites (List.of_mem_zip hr).1 hk)
      have := heq x
      unfold stepInst at this
      dsimp only at this
      injection this with _ this
      injection this with _ this
      have := reads_pointwise this hq hk hp hn
      rw [writesFrom_other _ _ _ _ _ _ (fun q' hq' hd _ => g1 q' hq' hd), writesFrom_other _ _ _ _ _ _ (fun q' hq' hd _ => hqv' q' hq' hd)] at this
      unfold Both.inst
      dsimp only
      rw [if_neg g2, ← hv]
      unfold stepInst
      dsimp only
      rw [writesFrom_other _ _ _ _ _ _ (fun q' hq' hd _ => g1 q' hq' hd), writesFrom_other _ _ _ _ _ _ (fun q' hq' hd _ => g1 q' hq' hd),
        writesFrom_other _ _ _ _ _ _ (fun q' hq' hd _ => hqv' q' hq' hd), writesFrom_other _ _ _ _ _ _ (fun q' hq' hd _ => hqv' q' hq' hd)]
      exact this

/-- The states after the items of a block. -/
def Both.items (f : Func) (out : Output) (items : List InstOrEdit) (c : Both) : Both :=
  ⟨(allocItems f out fSem fJunk items c.A c.tr).1, (origInsts f fSem (instsOf items) c.V c.tr).1,
   (allocItems f out fSem fJunk items c.A c.tr).2⟩

theorem Both.Ok.items (items : List InstOrEdit) {c : Both} (h : c.Ok) : (c.items f out items).Ok := by
  have ha : ∀ (A : Allocation → FTok) (tr : Trace FTok), (∀ a, Old tr.length (A a)) →
      (allocItems f out fSem fJunk items A tr).2.length = tr.length + (instsOf items).length ∧
      ∀ a, Old (tr.length + (instsOf items).length) ((allocItems f out fSem fJunk items A tr).1 a) := by
    induction items with
    | nil => intro A tr hA; exact ⟨rfl, hA⟩
    | cons y items ih =>
      intro A tr hA
      cases y with
      | edit e =>
        refine ih (upd A e.dst (A e.src)) tr (fun a => ?_)
        unfold upd
        split <;> exact hA _
      | inst i =>
        have := (Both.Ok.inst (f := f) (out := out) (c := ⟨A, .reg, tr⟩) ⟨hA, fun _ => ⟨trivial, trivial⟩⟩ i).1
        have := ih _ _ this
        have hl : ((⟨A, .reg, tr⟩ : Both).inst f out i).tr.length = tr.length + 1 := by simp [Both.inst]
        have hl' : (instsOf (.inst i :: items)).length = (instsOf items).length + 1 := rfl
        rw [hl, Nat.add_assoc, Nat.add_comm 1] at this
        rw [hl']
        exact this
  have hv : ∀ (is : List Nat) (V : VReg → FTok) (tr : Trace FTok), (∀ v, Old tr.length (V v) ∧ NotJunk (V v)) →
      ∀ v, Old (tr.length + is.length) ((origInsts f fSem is V tr).1 v) ∧ NotJunk ((origInsts f fSem is V tr).1 v) := by
    intro is
    induction is with
    | nil => intro V tr hV; exact hV
    | cons i is ih =>
      intro V tr hV
      have := (Both.Ok.inst (f := f) (out := out) (c := ⟨.loc, V, tr⟩) ⟨fun _ => trivial, hV⟩ i).2
      have hl : ((⟨.loc, V, tr⟩ : Both).inst f out i).tr.length = tr.length + 1 := by simp [Both.inst]
      have hl2 : (tr ++ [(stepInst (fSem tr) i ((f.operands i).map (fun o => (o, o.vreg))) V).1]).length = tr.length + 1 := by simp
      rw [hl] at this
      have := ih _ (tr ++ [(stepInst (fSem tr) i ((f.operands i).map (fun o => (o, o.vreg))) V).1]) (by rw [hl2]; exact this)
      rw [hl2, Nat.add_assoc, Nat.add_comm 1] at this
      exact this
  obtain ⟨h1, h2⟩ := ha c.A c.tr h.1
  have h3 := hv (instsOf items) c.V c.tr h.2
  unfold Both.items Both.Ok
  dsimp only
  rw [h1]
  exact ⟨h2, h3⟩

theorem complete_items {UA : List Allocation} {UV : List VReg} {X : Type} (x0 : X) (items : List InstOrEdit) :
    ∀ {cis : List CInst} {c : X → Both} {S : CState},
    mapAll (itemInst? f out) items = some cis → StWf UA UV S → (∀ ci ∈ cis, ci.Within UA UV) →
    (∀ i ∈ instsOf items, InstFit f env out i) → (∀ i ∈ instsOf items, Undisturbed f out i) →
    (∀ e, InstOrEdit.edit e ∈ items → ¬ (isStackAlloc env e.dst = true ∧ isStackAlloc env e.src = true)) →
    (∀ x, (c x).Ok) → Cover c S →
    (∀ x, (allocItems f out fSem fJunk items (c x).A (c x).tr).2 = (origInsts f fSem (instsOf items) (c x).V (c x).tr).2) →
    blockErrors? env S cis = some [] ∧ (∀ x, ((c x).items f out items).Ok) ∧
      ∃ S', updates? S cis = some S' ∧ Cover (fun x => (c x).items f out items) S' := by
  induction items with
  | nil =>
    intro cis c S hm _ _ _ _ _ hok hcov _
    simp only [mapAll, Option.some.injEq] at hm
    subst hm
    exact ⟨rfl, hok, S, rfl, hcov⟩
  | cons y items ih =>
    intro cis c S hm hwf hwi hfit hun hst hok hcov htr
    unfold mapAll at hm
    split at hm
    · rename_i ci cis' hci hcis
      simp only [Option.some.injEq] at hm
      subst hm
      obtain ⟨m', hu, hw'⟩ := update_wf hwf (hwi ci List.mem_cons_self)
      have hwi' := fun c hc => hwi c (List.mem_cons_of_mem _ hc)
      have hst' := fun e he => hst e (List.mem_cons_of_mem _ he)
      have fin : ∀ {P : CState → Prop} {Q : Prop}, check env S .Early ci = .ok → check env (.allocs m') .Late ci = .ok →
          (blockErrors? env (.allocs m') cis' = some [] ∧ Q ∧ ∃ S', updates? (.allocs m') cis' = some S' ∧ P S') →
          blockErrors? env S (ci :: cis') = some [] ∧ Q ∧ ∃ S', updates? S (ci :: cis') = some S' ∧ P S' := by
        rintro P Q h1 h2 ⟨h3, hq, S', h4, h5⟩
        refine ⟨?_, hq, S', ?_, h5⟩
        · unfold blockErrors?
          rw [h1, hu]
          dsimp only
          rw [h2, h3]
          rfl
        · unfold updates?
          rw [hu]
          exact h4
      cases y with
      | edit e =>
        simp only [itemInst?, Option.some.injEq] at hci
        subst hci
        have hok' : ∀ T pos, check env T pos (.move e.dst e.src) = .ok := by
          intro T pos
          unfold check
          dsimp only
          rw [if_neg (hst e List.mem_cons_self)]
        exact fin (hok' _ _) (hok' _ _) (ih (c := fun x => (c x).move e) hcis hw' hwi' hfit hun hst' (fun x => (hok x).move e)
          (cover_move hcov hu) htr)
      | inst i =>
        have hins : instsOf (.inst i :: items) = i :: instsOf items := rfl
        rw [hins] at hfit hun htr
        have F := hfit i List.mem_cons_self
        have U := hun i List.mem_cons_self
        obtain ⟨as, has, _⟩ := F.len
        simp only [itemInst?, has, Option.some.injEq] at hci
        subst hci
        have heq : ∀ x, (stepInst (fSem (c x).tr) i (locs f out i) (c x).A).1 =
            (stepInst (fSem (c x).tr) i ((f.operands i).map (fun o => (o, o.vreg))) (c x).V).1 := by
          intro x
          have h1 := htr x
          obtain ⟨ts, hts⟩ := allocItems_prefix (f := f) (out := out) fSem fJunk items ((c x).inst f out i).A ((c x).inst f out i).tr
          obtain ⟨us, hus⟩ := origInsts_prefix (f := f) fSem (instsOf items) ((c x).inst f out i).V
            ((c x).tr ++ [(stepInst (fSem (c x).tr) i ((f.operands i).map (fun o => (o, o.vreg))) (c x).V).1])
          have h2 := hts.symm.trans (h1.trans hus)
          unfold Both.inst at h2
          dsimp only at h2
          rw [List.append_assoc, List.append_assoc] at h2
          have h3 := List.append_cancel_left h2
          rw [List.singleton_append, List.singleton_append] at h3
          injection h3
        have hcov' := cover_inst x0 hok F U.real has hcov hu
        obtain ⟨c1, c2⟩ := complete_inst F U.useDef has hcov hcov' heq
        have hitems : ∀ x, (c x).items f out (.inst i :: items) = ((c x).inst f out i).items f out items := by
          intro x
          have h1 : origInsts f fSem (i :: instsOf items) (c x).V (c x).tr = origInsts f fSem (instsOf items) ((c x).inst f out i).V
              ((c x).tr ++ [(stepInst (fSem (c x).tr) i ((f.operands i).map (fun o => (o, o.vreg))) (c x).V).1]) := rfl
          rw [← heq x] at h1
          unfold Both.items
          rw [hins, h1]
          rfl
        simp only [hitems]
        refine fin c1 c2 (ih (c := fun x => (c x).inst f out i) hcis hw' hwi' (fun j hj => hfit j (List.mem_cons_of_mem _ hj))
          (fun j hj => hun j (List.mem_cons_of_mem _ hj)) hst' (fun x => (hok x).inst i) hcov' ?_)
        intro x
        have h1 := htr x
        unfold origInsts at h1
        dsimp only at h1
        rw [← heq x] at h1
        exact h1
    · cases hm

theorem assignParams_from {Val : Type} (ms : List (VReg × VReg)) (v : VReg) :
    (v ∉ ms.map Prod.fst ∧ ∀ V : VReg → Val, assignParams ms V v = V v) ∨
      ∃ u, (v, u) ∈ ms ∧ ∀ V : VReg → Val, assignParams ms V v = V u := by
  induction ms with
  | nil => exact .inl ⟨by simp, fun _ => rfl⟩
  | cons m ms ih =>
    by_cases hv : v = m.1
    · subst hv
      exact .inr ⟨m.2, List.mem_cons_self, fun V => if_pos rfl⟩
    · rcases ih with ⟨h1, h2⟩ | ⟨u, h1, h2⟩
      · refine .inl ⟨by simp only [List.map_cons, List.mem_cons, not_or]; exact ⟨hv, h1⟩, fun V => ?_⟩
        rw [← h2 V]; exact if_neg hv
      · refine .inr ⟨u, List.mem_cons_of_mem _ h1, fun V => ?_⟩
        rw [← h2 V]; exact if_neg hv

/-- After the assignments of an edge. -/
def Both.edge (ms : List (VReg × VReg)) (c : Both) : Both := ⟨c.A, assignParams ms c.V, c.tr⟩

theorem Both.Ok.edge {c : Both} (h : c.Ok) (ms : List (VReg × VReg)) : (c.edge ms).Ok := by
  refine ⟨h.1, fun v => ?_⟩
  rcases assignParams_from (Val := FTok) ms v with ⟨_, h1⟩ | ⟨u, _, h1⟩
  · show Old _ (assignParams ms c.V v) ∧ NotJunk (assignParams ms c.V v)
    rw [h1]; exact h.2 v
  · show Old _ (assignParams ms c.V v) ∧ NotJunk (assignParams ms c.V v)
    rw [h1]; exact h.2 u

theorem cover_edge {X : Type} {c : X → Both} {S S' : CState} (h : Cover c S) {ms : List (VReg × VReg)}
    (hu : update? S (.pmove ms) = some S') : Cover (fun x => (c x).edge ms) S' := by
  intro a v hx
  apply rel_pmove (lab := labOf S) (σ := Tok.init) (S := S) (fun a v h => h) hu a v
  rcases assignParams_from (Val := FTok) ms v with ⟨h1, h2⟩ | ⟨u, h1, h2⟩
  · exact .inl ⟨h1, h a v (fun x => (hx x).trans (h2 _))⟩
  · exact .inr ⟨u, h1, h a u (fun x => (hx x).trans (h2 _))⟩

/-- States at the start of block `b`, reached by choosing the successors `ks`. -/
inductive At (f : Func) (out : Output) : List Nat → Nat → Both → Prop
  | entry : At f out [] f.entry ⟨.loc, .reg, []⟩
  | step {ks : List Nat} {b k s : Nat} {c : Both} (h : At f out ks b c) (hk : (f.succs b)[k]? = some s) :
      At f out (ks ++ [k]) s ((c.items f out (out.blockInstsAndEdits f b)).edge (edgeMoves f b k s))

/-- Running from a state that is reached is part of running from the start. -/
theorem At.runs {ks : List Nat} {b : Nat} {c : Both} (hs : SortedEdits out.edits) (h : At f out ks b c)
    (hsame : ∀ ks, SameOn f out ks) :
    ∀ ks', allocRun f out fSem fJunk (ks ++ ks') f.entry .loc [] = allocRun f out fSem fJunk ks' b c.A c.tr ∧
      origRun f fSem (ks ++ ks') f.entry .reg [] = origRun f fSem ks' b c.V c.tr := by
  induction h with
  | entry => intro ks'; exact ⟨rfl, rfl⟩
  | @step ks b k s c h hk ih =>
    intro ks'
    have hio : instsOf (out.blockInstsAndEdits f b) = f.blockInsts b := instsOf_eq hs b
    have heq : (allocItems f out fSem fJunk (out.blockInstsAndEdits f b) c.A c.tr).2 = (origInsts f fSem (f.blockInsts b) c.V c.tr).2 := by
      obtain ⟨h1, h2⟩ := ih []
      have h3 := hsame (ks ++ []) FTok fSem fJunk .reg .loc
      rw [h1, h2] at h3
      exact h3
    obtain ⟨h1, h2⟩ := ih (k :: ks')
    rw [List.append_assoc, List.singleton_append, h1, h2]
    have hstep : ∀ {Val : Type} (o : Option Nat) (g : Nat → Val) (d : Val), o = some s →
        (match o with | none => d | some s => g s) = g s := by
      intro Val o g d h; rw [h]
    refine ⟨hstep (f.succs b)[k]? (fun s => allocRun f out fSem fJunk ks' s _ _) _ hk, ?_⟩
    refine (hstep (f.succs b)[k]? (fun s => origRun f fSem ks' s (assignParams (edgeMoves f b k s) _) _) _ hk).trans ?_
    show _ = origRun f fSem ks' s (assignParams (edgeMoves f b k s) (origInsts f fSem (instsOf (out.blockInstsAndEdits f b)) c.V c.tr).1)
      (allocItems f out fSem fJunk (out.blockInstsAndEdits f b) c.A c.tr).2
    rw [hio, heq]

theorem At.same {ks : List Nat} {b : Nat} {c : Both} (hs : SortedEdits out.edits) (h : At f out ks b c)
    (hsame : ∀ ks, SameOn f out ks) :
    (allocItems f out fSem fJunk (out.blockInstsAndEdits f b) c.A c.tr).2 =
      (origInsts f fSem (instsOf (out.blockInstsAndEdits f b)) c.V c.tr).2 := by
  obtain ⟨h1, h2⟩ := h.runs hs hsame []
  have h3 := hsame (ks ++ []) FTok fSem fJunk .reg .loc
  rw [h1, h2] at h3
  rw [instsOf_eq hs b]
  exact h3

/-- The states in which block `b` is reached. -/
abbrev Conf (f : Func) (out : Output) (b : Nat) : Type := { c : Both // c.Ok ∧ ∃ ks, At f out ks b c }

/-- The checker knows what holds whenever the block is reached. -/
def CInv (f : Func) (out : Output) (b : Nat) (S : CState) : Prop := Cover (fun x : Conf f out b => x.1) S

theorem CInv.meet {b : Nat} {S T : CState} (h : CInv f out b S) (h' : CInv f out b T) : CInv f out b (S.meet T) :=
  fun a v hx => meet_claims_of (h a v hx) (h' a v hx)

theorem CInv.entry (S : CState) : CInv f out f.entry S := by
  intro a v hx
  have := hx ⟨⟨.loc, .reg, []⟩, ⟨fun _ => trivial, fun _ => ⟨trivial, trivial⟩⟩, [], .entry⟩
  cases this

/-- Constraints that are met are found to be met. -/
theorem constraint_ok {i : Nat} {o : Op} {a : Allocation} {as : List Allocation} (h : Allowed env as o a) :
    checkConstraint env i o a as = .ok := by
  unfold Allowed at h
  unfold checkConstraint
  split at h
  · rename_i hc; rw [hc]
  · rename_i hc
    obtain ⟨p, h1, h2⟩ := h
    simp only [hc, h1, if_neg h2]
  · rename_i hc
    rw [hc]
    rcases h with h | ⟨p, h1, h2⟩
    · have : a.kind? = some .Stack := by simpa [Allocation.isStack] using h
      simp [this]
    · simp [h1, h2]
  · rename_i p hc
    rw [hc, h]
    simp
  · rename_i k hc
    obtain ⟨h1, h2⟩ := h
    rw [hc]
    have := asReg_of_kind.mpr h2
    simp [this, h1]
  · rename_i n hc
    obtain ⟨p, h1, h2⟩ := h
    rw [hc]
    simp only [h1]
    rw [if_neg (by omega)]

section
variable (hwell : WellFormed f out) (hlay : LaidOut f)
include hwell hlay

/-- The moves collected for an edge. -/
theorem edge_of {b k c : Nat} (hb : b < f.numBlocks) (hk : (f.succs b)[k]? = some c) :
    (edgeInsts f out b c = [] ∧ edgeMoves f b k c = []) ∨ edgeInsts f out b c = [.pmove (edgeMoves f b k c)] := by
  have hne := hlay.nonempty b hb
  have hlast : f.lastInst b ∈ f.blockInsts b := by
    unfold Func.blockInsts Func.lastInst
    rw [List.mem_range']
    exact ⟨(f.insns b).2 - 1 - (f.insns b).1, by omega, by omega⟩
  have hbrs : branches f out b = if f.isBranch (f.lastInst b) then [f.lastInst b] else [] := by
    have e : branches f out b = (f.blockInsts b).filter (fun i => f.isBranch i) := by
      rw [← instsOf_eq (out := out) hwell.sorted b]; rfl
    rw [e]
    exact filter_unique (blockInsts_nodup f b) hlast (hlay.branchLast b hb)
  apply edgeInsts_eq hbrs hk (hlay.edges b hb k · c hk)
  rw [hbrs, List.all_eq_true]
  intro i hi
  split at hi
  · rename_i hbr
    rw [List.mem_singleton.mp hi]
    unfold argsMatch
    rw [List.all_eq_true]
    intro q hq
    rw [List.mem_zipIdx_iff_getElem?] at hq
    rw [beq_iff_eq]
    exact hwell.args b hb _ hlast hbr q.2 q.1 hq
  · cases hi

variable (hun : ∀ b, b < f.numBlocks → ∀ i ∈ f.blockInsts b, Undisturbed f out i)
  (hcon : ∀ b, b < f.numBlocks → ∀ i ∈ f.blockInsts b, ConstraintsMet f env out i)
include hun hcon

omit hlay in
theorem fit_of {b i : Nat} (hb : b < f.numBlocks) (hi : i ∈ f.blockInsts b) : InstFit f env out i := by
  obtain ⟨as, has, hlen⟩ := hwell.allocs b hb i hi
  have U := hun b hb i hi
  have hget : (out.instAllocs i).getD [] = as := by rw [has]; rfl
  have hl : ∀ (k : Nat) q, (locs f out i)[k]? = some q → (f.operands i)[k]? = some q.1 ∧ as[k]? = some q.2 := by
    intro k q h
    unfold locs at h
    rw [hget] at h
    exact List.getElem?_zip_eq_some.mp h
  refine ⟨⟨as, has, hlen⟩, ?_, ?_, ?_⟩
  · intro k k' q q' hk hk' hne hd hd' _
    obtain ⟨h1, h2⟩ := hl k q hk
    obtain ⟨h3, h4⟩ := hl k' q' hk'
    refine ⟨fun e => U.defs as has k k' _ _ h1 h3 hne hd hd' (by rw [h2, h4, e]), ?_⟩
    have hsplit := opWrites_split hlen U.once (l1 := (locs f out i).take k) (l2 := (locs f out i).drop (k + 1)) (p := q)
      (by rw [← get_split hk]; unfold locs; rw [hget]) hd
    have hmem : q' ∈ (locs f out i).take k ++ (locs f out i).drop (k + 1) := by
      rw [List.mem_append]
      rcases Nat.lt_or_gt_of_ne hne with h | h
      · right
        rw [List.mem_iff_getElem?]
        exact ⟨k' - (k + 1), by rw [List.getElem?_drop, show k + 1 + (k' - (k + 1)) = k' by omega]; exact hk'⟩
      · left
        rw [List.mem_iff_getElem?]
        exact ⟨k', by rw [List.getElem?_take, if_pos h]; exact hk'⟩
    exact (hsplit q' hmem hd').symm
  · intro q hq hk hp hn
    obtain ⟨k, hk'⟩ := List.mem_iff_getElem?.mp hq
    obtain ⟨h1, h2⟩ := hl k q hk'
    obtain ⟨g1, g2⟩ := U.late as has k _ h1 hk hp hn
    refine ⟨?_, ?_⟩
    · intro q' hq' hd e
      obtain ⟨k', hk''⟩ := List.mem_iff_getElem?.mp hq'
      obtain ⟨h3, h4⟩ := hl k' q' hk''
      exact g1 k' _ h3 hd (by rw [h2, h4, e])
    · intro hm
      obtain ⟨p, hp, he⟩ := List.mem_map.mp hm
      exact g2 p hp (by rw [h2, ← he])
  · intro q hq
    obtain ⟨k, hk'⟩ := List.mem_iff_getElem?.mp hq
    obtain ⟨h1, h2⟩ := hl k q hk'
    obtain ⟨g1, g2⟩ := hcon b hb i hi as has k _ _ h1 h2
    rw [hget]
    exact ⟨g1, fun _ => constraint_ok g2⟩

variable (hmv : ∀ q ∈ out.edits, ¬ (InMemory env q.2.dst ∧ InMemory env q.2.src)) (hsame : ∀ ks, SameOn f out ks)
include hmv hsame

omit hwell hun hcon hmv hsame in
/-- All blocks are reached. -/
theorem reached : ∀ n b, b < n → b < f.numBlocks → Nonempty (Conf f out b) := by
  intro n
  induction n with
  | zero => intro b h; omega
  | succ n ih =>
    intro b hb hlt
    by_cases he : b = f.entry
    · subst he
      exact ⟨⟨⟨.loc, .reg, []⟩, ⟨fun _ => trivial, fun _ => ⟨trivial, trivial⟩⟩, [], .entry⟩⟩
    · obtain ⟨a, ha, hab⟩ := hlay.inOrder b hlt he
      obtain ⟨⟨c, hc, ks, hat⟩⟩ := ih a (by omega) (by omega)
      obtain ⟨k, hk⟩ := List.mem_iff_getElem?.mp hab
      exact ⟨⟨_, (hc.items _).edge _, _, hat.step hk⟩⟩

/-- The checker accepts the output. -/
theorem complete : run? f env out = some [] := by
  have hs : SortedEdits out.edits := hwell.sorted
  obtain ⟨es, hes⟩ := run_isSome (env := env) hwell
  have hes' := hes
  unfold run? at hes'
  split at hes'
  · cases hes'
  rename_i p hp
  obtain ⟨hp1, hp2, _⟩ := prepare_spec hp
  have hmv' : ∀ b, ∀ q, InstOrEdit.edit q ∈ out.blockInstsAndEdits f b →
      ¬ (isStackAlloc env q.dst = true ∧ isStackAlloc env q.src = true) := by
    intro b q hq
    rw [C20_block_items _ _ _ hs] at hq
    obtain ⟨pe, hpe, rfl⟩ := Apply.edit_mem hq
    rw [isStackAlloc_iff, isStackAlloc_iff]
    exact hmv pe hpe
  have hbl : ∀ b, b < f.numBlocks → ∀ {X : Type} (x0 : X) {c : X → Both} {UA UV} {S : CState}, PrepOk UA UV f p → StWf UA UV S →
      (∀ x, (c x).Ok ∧ ∃ ks, At f out ks b (c x)) → Cover c S → _ :=
    fun b hb X x0 c UA UV S P hwf hc hcov =>
      complete_items (f := f) (env := env) (out := out) x0 (out.blockInstsAndEdits f b) (c := c) (hp1 b hb) hwf (P.insts b hb)
        (by rw [instsOf_eq hs b]; exact fun i hi => fit_of hwell hun hcon hb hi)
        (by rw [instsOf_eq hs b]; exact hun b hb) (hmv' b) (fun x => (hc x).1) hcov
        (fun x => (hc x).2.elim (fun ks h => h.same hs hsame))
  have hne : ∀ b, b < f.numBlocks → Nonempty (Conf f out b) := fun b hb => reached hlay (b + 1) b (by omega) hb
  have key : ∀ UA UV, PrepOk UA UV f p → ∀ b, b < f.numBlocks → ∀ S, StWf UA UV S → CInv f out b S →
      blockErrors? env S (p.insts b) = some [] ∧ ∀ S1, updates? S (p.insts b) = some S1 → ∀ c ∈ f.succs b, ∀ S2,
        updates? S1 (edgeInsts f out b c) = some S2 → CInv f out c S2 := by
    intro UA UV P b hb S hwf hinv
    obtain ⟨x0⟩ := hne b hb
    obtain ⟨h1, h2, S', h3, h4⟩ := hbl b hb x0 P hwf (fun x => x.2) hinv
    refine ⟨h1, ?_⟩
    intro S1 hS1 c hc S2 hS2
    rw [h3] at hS1
    cases hS1
    obtain ⟨k, hk⟩ := List.mem_iff_getElem?.mp hc
    have hcov : Cover (fun x : Conf f out b => (x.1.items f out (out.blockInstsAndEdits f b)).edge (edgeMoves f b k c)) S2 := by
      rcases edge_of hwell hlay hb hk with ⟨g1, g2⟩ | g1
      · rw [g1] at hS2
        simp only [updates?, Option.some.injEq] at hS2
        subst hS2
        rw [g2]
        exact h4
      · rw [g1] at hS2
        simp only [updates?] at hS2
        split at hS2
        · cases hS2
        rename_i S3 hS3
        cases hS2
        exact cover_edge h4 hS3
    intro a v hx
    apply hcov
    intro x
    obtain ⟨c, hc, ks, hat⟩ := x
    exact hx ⟨_, (h2 ⟨c, hc, ks, hat⟩).edge _, _, hat.step hk⟩
  obtain ⟨UA, UV, r, P, hr, hall⟩ := analyze_inv f p hwell.succLt (Inv := CInv f out)
    (fun c S T => CInv.meet) CInv.entry (by
      intro b hb he
      have h1 := hp1 b hb
      unfold blockInsts? at h1
      have h2 := (mapAll_get h1).1
      rw [he, List.length_nil] at h2
      have h3 := instsOf_eq (f := f) (out := out) hs b
      rw [List.eq_nil_of_length_eq_zero h2.symm] at h3
      have hne := hlay.nonempty b hb
      have : (f.insns b).1 ∈ f.blockInsts b := by
        unfold Func.blockInsts
        rw [List.mem_range']
        exact ⟨0, by omega, by omega⟩
      rw [← h3] at this
      cases this)
    (fun UA UV P b hb S hwf hinv S1 hS1 c hc S2 hS2 => (key UA UV P b hb S hwf hinv).2 S1 hS1 c hc S2 (by rw [← hp2]; exact hS2)) hlay.inOrder
  unfold run?
  rw [hp]
  dsimp only
  rw [hr]
  dsimp only
  apply Apply.findErrors_ok
  intro b hb
  obtain ⟨S, hS, hwf, hinv⟩ := hall b hb
  exact ⟨S, hS, (key UA UV P b hb S hwf hinv).1⟩

end
end

end Regalloc.Checker
