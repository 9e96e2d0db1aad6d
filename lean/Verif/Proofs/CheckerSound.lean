import Verif.Proofs.CheckerFix
import Verif.Props.Output
import Verif.Spec.Checker

namespace Regalloc.Checker
open Exec

/-- Claims hold for registers in `D`. -/
def Sat {Val : Type} (D : VReg → Prop) (S : CState) (A : Allocation → Val) (V : VReg → Val) : Prop :=
  ∀ a v, Claims S a v → D v → A a = V v

theorem get_removed (m : CMap) (v : VReg) (a : Allocation) :
    CMap.get (m.map (fun p => (p.1, CMap.dropLabel v p.2))) a = (m.get a).map (CMap.dropLabel v) :=
  CMap.get_mapVal m (CMap.dropLabel v) a

theorem applyDefs_claims (ps : List (Op × Allocation)) {m m' : CMap} (h : applyDefs? ps m = some m')
    {a : Allocation} {v : VReg} (hc : Claims (.allocs m') a v) :
    (∃ l1 p l2, ps = l1 ++ p :: l2 ∧ p.1.kind = .Def ∧ p.2 = a ∧ p.1.vreg = v ∧
      ∀ q ∈ l2, q.1.kind = .Def → q.2 ≠ a ∧ q.1.vreg ≠ v) ∨
    (Claims (.allocs m) a v ∧ ∀ q ∈ ps, q.1.kind = .Def → q.2 ≠ a ∧ q.1.vreg ≠ v) := by
  induction ps generalizing m with
  | nil => simp [applyDefs?] at h; subst h; exact .inr ⟨hc, by simp⟩
  | cons p ps ih =>
    unfold applyDefs? at h
    split at h
    · next hk =>
      rcases ih h with ⟨l1, q, l2, e1, e2⟩ | ⟨e1, e2⟩
      · exact .inl ⟨p :: l1, q, l2, by simp [e1], e2⟩
      · refine .inr ⟨e1, ?_⟩
        intro q hq hd
        rcases List.mem_cons.mp hq with rfl | hq
        · exact absurd hd hk
        · exact e2 q hq hd
    · next hk =>
      simp only [ne_eq, Decidable.not_not] at hk
      split at h
      · simp at h
      · next m1 hm1 =>
        rcases ih h with ⟨l1, q, l2, e1, e2⟩ | ⟨e1, e2⟩
        · exact .inl ⟨p :: l1, q, l2, by simp [e1], e2⟩
        · obtain ⟨s, hs, hv⟩ := e1
          simp only [CState.get] at hs
          rw [CMap.get_put] at hs
          by_cases ha : a = p.2
          · rw [if_pos ha] at hs
            simp at hs; subst hs
            simp at hv
            exact .inl ⟨[], p, ps, rfl, hk, ha.symm, hv.symm, e2⟩
          · rw [if_neg ha, CMap.removeVreg_some hm1, get_removed] at hs
            cases hg : m.get a with
            | none => rw [hg] at hs; simp at hs
            | some x =>
              rw [hg] at hs
              cases x with
              | univ => simp [CMap.dropLabel] at hs
              | vregs s0 =>
                simp [CMap.dropLabel] at hs; subst hs
                simp at hv
                refine .inr ⟨⟨s0, hg, hv.1⟩, ?_⟩
                intro q hq hd
                rcases List.mem_cons.mp hq with rfl | hq
                · exact ⟨fun e => ha e.symm, fun e => hv.2 e.symm⟩
                · exact e2 q hq hd

theorem clobber_claims (cl : List PReg) {m : CMap} {a : Allocation} {v : VReg}
    (h : Claims (.allocs (cl.foldl (fun m c => m.del (.reg c)) m)) a v) :
    Claims (.allocs m) a v ∧ a ∉ cl.map Allocation.reg := by
  induction cl generalizing m with
  | nil => exact ⟨h, by simp⟩
  | cons c cl ih =>
    obtain ⟨⟨s, hs, hv⟩, h2⟩ := ih h
    simp only [CState.get] at hs
    rw [CMap.get_del] at hs
    split at hs
    · simp at hs
    · next hne => exact ⟨⟨s, hs, hv⟩, by simp only [List.map_cons, List.mem_cons, not_or]; exact ⟨hne, h2⟩⟩

section
variable {Val L : Type} [DecidableEq L]

theorem writesFrom_other (pos : OperandPos) (g : Nat → Val) (k : Nat) (ps : List (Op × L)) (σ : L → Val) (l : L)
    (h : ∀ p ∈ ps, p.1.kind = .Def → p.1.pos = pos → p.2 ≠ l) : writesFrom pos g k ps σ l = σ l := by
  induction ps generalizing k σ with
  | nil => rfl
  | cons p ps ih =>
    unfold writesFrom
    rw [ih _ _ (fun q hq => h q (List.mem_cons_of_mem _ hq))]
    split
    · next hp => unfold upd; rw [if_neg (fun e => h p (by simp) hp.1 hp.2 e.symm)]
    · rfl

theorem writesFrom_at (pos : OperandPos) (g : Nat → Val) (k : Nat) (l1 : List (Op × L)) (p : Op × L)
    (l2 : List (Op × L)) (σ : L → Val) (hk : p.1.kind = .Def) (hp : p.1.pos = pos)
    (h : ∀ q ∈ l2, q.1.kind = .Def → q.1.pos = pos → q.2 ≠ p.2) :
    writesFrom pos g k (l1 ++ p :: l2) σ p.2 = g (k + l1.length) := by
  induction l1 generalizing k σ with
  | nil =>
    simp only [List.nil_append]
    unfold writesFrom
    rw [writesFrom_other _ _ _ _ _ _ h, if_pos ⟨hk, hp⟩]
    simp [upd]
  | cons q l1 ih =>
    simp only [List.cons_append]
    unfold writesFrom
    rw [ih]
    simp; congr 1; omega

end

/-- Locations in the original program. -/
def vlocs (ol : List (Op × Allocation)) : List (Op × VReg) := ol.map (fun p => (p.1, p.1.vreg))

theorem vlocs_zip (ops : List Op) (as : List Allocation) (h : as.length = ops.length) :
    vlocs (ops.zip as) = ops.map (fun o => (o, o.vreg)) := by
  unfold vlocs
  induction ops generalizing as with
  | nil => simp
  | cons o ops ih =>
    cases as with
    | nil => simp at h
    | cons a as => simp at h; simp [ih as h]

theorem reads_eq {Val : Type} (pos : OperandPos) (ol : List (Op × Allocation)) (A : Allocation → Val) (V : VReg → Val)
    (h : ∀ p ∈ ol, p.1.kind = .Use → p.1.pos = pos → p.1.asFixedNonallocatable = none → A p.2 = V p.1.vreg) :
    reads pos ol A = reads pos (vlocs ol) V := by
  induction ol with
  | nil => rfl
  | cons p ol ih =>
    have ih' := ih (fun q hq => h q (List.mem_cons_of_mem _ hq))
    unfold reads vlocs at ih' ⊢
    rw [List.map_cons, List.filter_cons, List.filter_cons]
    by_cases hp : p.1.kind = .Use ∧ p.1.pos = pos ∧ p.1.asFixedNonallocatable = none
    · simp only [hp, and_self, decide_true, if_true, List.map_cons]
      rw [← ih', h p (by simp) hp.1 hp.2.1 hp.2.2]
    · simp only [hp, decide_false, Bool.false_eq_true, if_false]
      exact ih'

theorem checkOps_vals {env : MachineEnv} {S : CState} {pos : OperandPos} {i : Nat} {as : List Allocation}
    (ps : List (Op × Allocation)) (h : checkOps env S pos i as ps = .ok) :
    ∀ p ∈ ps, p.1.pos = pos → checkVal env S i p.1 p.2 as = .ok := by
  induction ps with
  | nil => simp
  | cons q ps ih =>
    unfold checkOps at h
    split at h
    · next hq =>
      intro p hp hpos
      rcases List.mem_cons.mp hp with rfl | hp
      · exact absurd hpos hq
      · exact ih h p hp hpos
    · split at h
      · next hv =>
        intro p hp hpos
        rcases List.mem_cons.mp hp with rfl | hp
        · exact hv
        · exact ih h p hp hpos
      · next hv => rw [h] at hv; exact absurd rfl hv

theorem checkVal_claims {env : MachineEnv} {S : CState} {i : Nat} {o : Op} {a : Allocation} {as : List Allocation}
    (h : checkVal env S i o a as = .ok) (hk : o.kind = .Use) (hf : o.asFixedNonallocatable = none) :
    Claims S a o.vreg := by
  unfold checkVal at h
  split at h
  · simp at h
  · rw [if_pos ⟨hk, hf⟩] at h
    split at h
    · simp at h
    · simp at h
    · next vs hg =>
      split at h
      · next hm => exact ⟨vs, hg, hm⟩
      · simp at h

theorem mem_opReads {ops : List Op} {o : Op} (h : o ∈ ops) (hk : o.kind = .Use)
    (hf : o.asFixedNonallocatable = none) : o.vreg ∈ opReads ops := by
  unfold opReads
  exact List.mem_map_of_mem (List.mem_filter.mpr ⟨h, by simp [hk, hf]⟩)

theorem mem_opWrites {ops : List Op} {o : Op} (h : o ∈ ops) (hk : o.kind = .Def) : o.vreg ∈ opWrites ops := by
  unfold opWrites
  exact List.mem_map_of_mem (List.mem_filter.mpr ⟨h, by simp [hk]⟩)

theorem opWrites_split {ops : List Op} {as : List Allocation} (hlen : as.length = ops.length)
    (hnd : (opWrites ops).Nodup) {l1 l2 : List (Op × Allocation)} {p : Op × Allocation}
    (h : ops.zip as = l1 ++ p :: l2) (hk : p.1.kind = .Def) :
    ∀ q ∈ l1 ++ l2, q.1.kind = .Def → q.1.vreg ≠ p.1.vreg := by
  have hops : ops = l1.map Prod.fst ++ p.1 :: l2.map Prod.fst := by
    have : (ops.zip as).map Prod.fst = ops := by
      rw [List.map_fst_zip]; omega
    rw [h] at this
    simpa using this.symm
  rw [hops] at hnd
  unfold opWrites at hnd
  rw [List.filter_append, List.filter_cons_of_pos (by simpa using hk), List.map_append, List.map_cons,
    List.nodup_append] at hnd
  obtain ⟨_, h2, h3⟩ := hnd
  rw [List.nodup_cons] at h2
  intro q hq hqk he
  rcases List.mem_append.mp hq with hq | hq
  · refine h3 q.1.vreg ?_ p.1.vreg (by simp) he
    exact List.mem_map_of_mem (List.mem_filter.mpr ⟨List.mem_map_of_mem hq, by simpa using hqk⟩)
  · apply h2.1
    rw [← he]
    exact List.mem_map_of_mem (List.mem_filter.mpr ⟨List.mem_map_of_mem hq, by simpa using hqk⟩)

/-- One instruction in lock step. -/
theorem sim_inst {Val : Type} {f : Func} {out : Output} {env : MachineEnv} (sem : InstSem Val) {i : Nat}
    (hi : InstOk f out i) {as : List Allocation} (has : out.instAllocs i = some as) {S S' : CState}
    {D : VReg → Prop} {A : Allocation → Val} {V : VReg → Val} (hsat : Sat D S A V)
    (hD : ∀ v ∈ opReads (f.operands i), D v)
    (hu : update? S (.op i (f.operands i) as (f.clobbers i)) = some S')
    (hc1 : check env S .Early (.op i (f.operands i) as (f.clobbers i)) = .ok)
    (hc2 : check env S' .Late (.op i (f.operands i) as (f.clobbers i)) = .ok) (junk : Allocation → Val) :
    let ra := stepInst sem i ((f.operands i).zip as) A
    let ro := stepInst sem i ((f.operands i).map (fun o => (o, o.vreg))) V
    ra.1 = ro.1 ∧ Sat (fun v => D v ∨ v ∈ opWrites (f.operands i)) S'
      (fun a => if a ∈ (f.clobbers i).map Allocation.reg then junk a else ra.2 a) ro.2 := by
  obtain ⟨as', has', hlen⟩ := hi.len
  rw [has] at has'
  simp only [Option.some.injEq] at has'
  subst has'
  have horder := hi.order
  simp only [has, Option.getD_some] at horder
  rw [← vlocs_zip _ _ hlen]
  -- checker facts
  have hu' : ∃ m', applyDefs? ((f.operands i).zip as) S.defined = some m' ∧
      S' = .allocs ((f.clobbers i).foldl (fun m c => m.del (.reg c)) m') := by
    unfold update? at hu
    simp only at hu
    split at hu
    · simp at hu
    · next m' hm => exact ⟨m', hm, by simpa using hu.symm⟩
  obtain ⟨m', hm', rfl⟩ := hu'
  have hSdef : ∀ a v, Claims (.allocs S.defined) a v → Claims S a v := by
    intro a v h
    cases S with
    | top => obtain ⟨s, hs, _⟩ := h; simp [CState.defined, CState.get, CMap.get] at hs
    | allocs m => exact h
  generalize hol : (f.operands i).zip as = ol at *
  have hmem : ∀ p ∈ ol, p.1 ∈ f.operands i := by
    intro p hp; rw [← hol] at hp; exact (List.of_mem_zip hp).1
  -- early reads
  have he : reads .Early ol A = reads .Early (vlocs ol) V := by
    apply reads_eq
    intro p hp hk hpos hf
    simp only [check] at hc1
    rw [if_neg (by simp), hol] at hc1
    have := checkVal_claims (checkOps_vals _ hc1 p hp hpos) hk hf
    exact hsat _ _ this (hD _ (mem_opReads (hmem p hp) hk hf))
  -- claims about registers not defined here
  have hold : ∀ a v, Claims (.allocs m') a v → v ∉ opWrites (f.operands i) →
      Claims S a v ∧ ∀ q ∈ ol, q.1.kind = .Def → q.2 ≠ a ∧ q.1.vreg ≠ v := by
    intro a v h hv
    rcases applyDefs_claims _ hm' h with ⟨l1, p, l2, e1, e2, e3, e4, _⟩ | ⟨e1, e2⟩
    · exfalso; apply hv; rw [← e4]
      exact mem_opWrites (hmem p (by rw [e1]; simp)) e2
    · exact ⟨hSdef _ _ e1, e2⟩
  have hvl : ∀ (v : VReg), v ∉ opWrites (f.operands i) → ∀ q ∈ vlocs ol, q.1.kind = .Def → q.2 ≠ v := by
    intro v hv q hq hk
    unfold vlocs at hq
    obtain ⟨p, hp, rfl⟩ := List.mem_map.mp hq
    intro e
    apply hv
    rw [← e]
    exact mem_opWrites (hmem p hp) hk
  have hl : ∀ g, reads .Late ol (writesFrom .Early g 0 ol A) =
      reads .Late (vlocs ol) (writesFrom .Early g 0 (vlocs ol) V) := by
    intro g
    apply reads_eq
    intro p hp hk hpos hf
    by_cases hr : hasReuse (f.operands i) = true
    · exact absurd ⟨hk, hpos, hf⟩ (hi.reuse hr p.1 (hmem p hp))
    · simp only [check] at hc2
      rw [if_neg (by simp [hr]), hol] at hc2
      have hcl := checkVal_claims (checkOps_vals _ hc2 p hp hpos) hk hf
      have hv := hi.useDef _ (mem_opReads (hmem p hp) hk hf)
      obtain ⟨h1, h2⟩ := hold _ _ (clobber_claims _ hcl).1 hv
      rw [writesFrom_other _ _ _ _ _ _ (fun q hq hd _ => (h2 q hq hd).1),
        writesFrom_other _ _ _ _ _ _ (fun q hq hd _ => hvl _ hv q hq hd)]
      exact hsat _ _ h1 (hD _ (mem_opReads (hmem p hp) hk hf))
  simp only [stepInst]
  rw [← he, hl]
  refine ⟨rfl, ?_⟩
  intro a v hclm hDv
  obtain ⟨hcm, hncl⟩ := clobber_claims _ hclm
  simp only [if_neg hncl]
  by_cases hv : v ∈ opWrites (f.operands i)
  · rcases applyDefs_claims _ hm' hcm with ⟨l1, p, l2, e1, e2, rfl, rfl, e5⟩ | ⟨_, e2⟩
    · have huniq := opWrites_split hlen hi.defs (hol.trans e1) e2
      have hvl1 : vlocs ol = vlocs l1 ++ (p.1, p.1.vreg) :: vlocs l2 := by
        rw [e1]; simp [vlocs]
      have hv2 : ∀ q ∈ vlocs l2, q.1.kind = .Def → q.2 ≠ p.1.vreg := by
        intro q hq hk
        unfold vlocs at hq
        obtain ⟨r, hr, rfl⟩ := List.mem_map.mp hq
        exact huniq r (by simp [hr]) hk
      have hv1 : ∀ q ∈ vlocs l1, q.1.kind = .Def → q.2 ≠ p.1.vreg := by
        intro q hq hk
        unfold vlocs at hq
        obtain ⟨r, hr, rfl⟩ := List.mem_map.mp hq
        exact huniq r (by simp [hr]) hk
      have hlen1 : (vlocs l1).length = l1.length := by simp [vlocs]
      cases hpos : p.1.pos with
      | Late =>
        have ha := writesFrom_at .Late (sem.late i (reads .Early ol A) (reads .Late (vlocs ol)
            (writesFrom .Early (sem.early i (reads .Early ol A)) 0 (vlocs ol) V))) 0 l1 p l2
          (writesFrom .Early (sem.early i (reads .Early ol A)) 0 ol A) e2 hpos (fun q hq hk _ => (e5 q hq hk).1)
        have hb := writesFrom_at .Late (sem.late i (reads .Early ol A) (reads .Late (vlocs ol)
            (writesFrom .Early (sem.early i (reads .Early ol A)) 0 (vlocs ol) V))) 0 (vlocs l1) (p.1, p.1.vreg)
          (vlocs l2) (writesFrom .Early (sem.early i (reads .Early ol A)) 0 (vlocs ol) V) e2 hpos
          (fun q hq hk _ => hv2 q hq hk)
        rw [← e1] at ha
        rw [← hvl1] at hb
        simp only at hb
        rw [ha, hb, hlen1]
      | Early =>
        -- no late write reaches these locations
        have hla : ∀ q ∈ ol, q.1.kind = .Def → q.1.pos = .Late → q.2 ≠ p.2 := by
          intro q hq hk hpq
          rw [e1] at hq
          rcases List.mem_append.mp hq with hq | hq
          · obtain ⟨m1, m2, hm12⟩ := List.append_of_mem hq
            exact horder m1 q m2 p l2 (by rw [e1, hm12]; simp) hk hpq e2 hpos
          · rcases List.mem_cons.mp hq with rfl | hq
            · rw [hpos] at hpq; simp at hpq
            · exact (e5 q hq hk).1
        have hlv : ∀ q ∈ vlocs ol, q.1.kind = .Def → q.1.pos = .Late → q.2 ≠ p.1.vreg := by
          intro q hq hk hpq
          rw [hvl1] at hq
          rcases List.mem_append.mp hq with hq | hq
          · exact hv1 q hq hk
          · rcases List.mem_cons.mp hq with rfl | hq
            · simp only at hpq; rw [hpos] at hpq; simp at hpq
            · exact hv2 q hq hk
        rw [writesFrom_other _ _ _ _ _ _ hla, writesFrom_other _ _ _ _ _ _ hlv]
        have ha := writesFrom_at .Early (sem.early i (reads .Early ol A)) 0 l1 p l2 A e2 hpos
          (fun q hq hk _ => (e5 q hq hk).1)
        have hb := writesFrom_at .Early (sem.early i (reads .Early ol A)) 0 (vlocs l1) (p.1, p.1.vreg)
          (vlocs l2) V e2 hpos (fun q hq hk _ => hv2 q hq hk)
        rw [← e1] at ha
        rw [← hvl1] at hb
        simp only at hb
        rw [ha, hb, hlen1]
    · exfalso
      unfold opWrites at hv
      obtain ⟨o, ho, hov⟩ := List.mem_map.mp hv
      obtain ⟨ho1, ho2⟩ := List.mem_filter.mp ho
      have : o ∈ ol.map Prod.fst := by
        rw [← hol, List.map_fst_zip (by omega)]; exact ho1
      obtain ⟨p, hp, rfl⟩ := List.mem_map.mp this
      exact (e2 p hp (by simpa using ho2)).2 hov
  · obtain ⟨h1, h2⟩ := hold a v hcm hv
    rw [writesFrom_other _ _ _ _ _ _ (fun q hq hd _ => (h2 q hq hd).1),
      writesFrom_other _ _ _ _ _ _ (fun q hq hd _ => (h2 q hq hd).1),
      writesFrom_other _ _ _ _ _ _ (fun q hq hd _ => hvl v hv q hq hd),
      writesFrom_other _ _ _ _ _ _ (fun q hq hd _ => hvl v hv q hq hd)]
    rcases hDv with h | h
    · exact hsat _ _ h1 h
    · exact absurd h hv

theorem blockErrors_nil {env : MachineEnv} {S : CState} {ci : CInst} {cis : List CInst}
    (h : blockErrors? env S (ci :: cis) = some []) :
    ∃ S', update? S ci = some S' ∧ check env S .Early ci = .ok ∧ check env S' .Late ci = .ok ∧
      blockErrors? env S' cis = some [] := by
  unfold blockErrors? at h
  cases h1 : check env S .Early ci <;> cases h2 : update? S ci <;> simp only [h1, h2] at h <;>
    try (simp at h; done)
  all_goals
    rename_i S'
    cases h3 : check env S' .Late ci <;> cases h4 : blockErrors? env S' cis <;> simp only [h3, h4] at h <;>
      try (simp at h; done)
  next es => simp at h; subst h; exact ⟨S', rfl, rfl, h3, h4⟩

/-- Instructions among items. -/
def instsOf (items : List InstOrEdit) : List Nat :=
  items.filterMap (fun x => match x with | .inst i => some i | .edit _ => none)

theorem Sat.mono {Val : Type} {D D' : VReg → Prop} {S : CState} {A : Allocation → Val} {V : VReg → Val}
    (h : Sat D S A V) (hd : ∀ v, D' v → D v) : Sat D' S A V := fun a v hc hv => h a v hc (hd v hv)

theorem sim_move {Val : Type} {S S' : CState} {D : VReg → Prop} {A : Allocation → Val} {V : VReg → Val}
    (hsat : Sat D S A V) {into from_ : Allocation} (hu : update? S (.move into from_) = some S')
    (ht : S.get from_ = none → S.get into = none) : Sat D S' (upd A into (A from_)) V := by
  have hSg : ∀ a, CMap.get S.defined a = S.get a := by
    intro a; cases S <;> simp [CState.defined, CState.get, CMap.get]
  unfold update? at hu
  simp only [hSg] at hu
  split at hu
  · next x hx =>
    simp at hu; subst hu
    intro a v ⟨s, hs, hv⟩ hD
    simp only [CState.get, CMap.get_put, hSg] at hs
    unfold upd
    split at hs
    · next ha => rw [if_pos ha]; simp at hs; subst hs; exact hsat _ _ ⟨s, hx, hv⟩ hD
    · next ha => rw [if_neg ha]; exact hsat _ _ ⟨s, hs, hv⟩ hD
  · next hx =>
    simp at hu; subst hu
    intro a v ⟨s, hs, hv⟩ hD
    have hs : S.get a = some (.vregs s) := by rw [← hSg]; exact hs
    unfold upd
    split
    · next ha => subst ha; rw [ht hx] at hs; simp at hs
    · exact hsat _ _ ⟨s, hs, hv⟩ hD

theorem sim_items {Val : Type} {f : Func} {out : Output} {env : MachineEnv} (sem : Sem Val)
    (junk : Nat → Allocation → Val) (items : List InstOrEdit) :
    ∀ {cis : List CInst} {S : CState} {D : VReg → Prop} {A : Allocation → Val} {V : VReg → Val} (tr : Trace Val),
    mapAll (itemInst? f out) items = some cis → blockErrors? env S cis = some [] → MovesTracked S cis →
    Sat D S A V → InstsDefined f (instsOf items) D → (∀ i ∈ instsOf items, InstOk f out i) →
    ∃ S', updates? S cis = some S' ∧
      (allocItems f out sem junk items A tr).2 = (origInsts f sem (instsOf items) V tr).2 ∧
      Sat (fun v => D v ∨ ∃ i ∈ instsOf items, v ∈ opWrites (f.operands i)) S'
        (allocItems f out sem junk items A tr).1 (origInsts f sem (instsOf items) V tr).1 := by
  induction items with
  | nil =>
    intro cis S D A V tr hm _ _ hsat _ _
    simp [mapAll] at hm; subst hm
    exact ⟨S, rfl, rfl, by simpa [instsOf, allocItems, origInsts] using hsat⟩
  | cons it items ih =>
    intro cis S D A V tr hm he ht hsat hdef hok
    unfold mapAll at hm
    split at hm
    · next ci cis' h1 h2 =>
      simp at hm; subst hm
      obtain ⟨S', hu, hc1, hc2, he'⟩ := blockErrors_nil he
      unfold MovesTracked at ht
      have ht' := ht.2 S' hu
      cases it with
      | edit e =>
        simp only [itemInst?, Option.some.injEq] at h1
        subst h1
        have hs' := sim_move hsat hu (ht.1 _ _ rfl)
        have hio : instsOf (.edit e :: items) = instsOf items := by simp [instsOf]
        rw [hio] at hdef hok ⊢
        obtain ⟨S2, k1, k2, k3⟩ := ih tr h2 he' ht' hs' hdef hok
        refine ⟨S2, ?_, ?_⟩
        · unfold updates?; rw [hu]; exact k1
        · simp only [allocItems]; exact ⟨k2, k3⟩
      | inst i =>
        simp only [itemInst?] at h1
        split at h1
        · simp at h1
        · next as has =>
          simp at h1; subst h1
          have hio : instsOf (.inst i :: items) = i :: instsOf items := by simp [instsOf]
          rw [hio] at hdef hok ⊢
          unfold InstsDefined at hdef
          have hstep := sim_inst (sem tr) (hok i (by simp)) has hsat hdef.1 hu hc1 hc2 (junk tr.length)
          simp only at hstep
          obtain ⟨e1, e2⟩ := hstep
          obtain ⟨S2, k1, k2, k3⟩ := ih (tr ++ [(stepInst (sem tr) i ((f.operands i).zip as) A).1]) h2 he' ht' e2 hdef.2
            (fun j hj => hok j (List.mem_cons_of_mem _ hj))
          refine ⟨S2, ?_, ?_⟩
          · unfold updates?; rw [hu]; exact k1
          · simp only [allocItems, origInsts, has, Option.getD_some]
            rw [e1] at k2 k3 ⊢
            refine ⟨k2, k3.mono ?_⟩
            intro v hv
            rcases hv with h | ⟨j, hj, hjv⟩
            · exact .inl (.inl h)
            · rcases List.mem_cons.mp hj with rfl | hj
              · exact .inl (.inr hjv)
              · exact .inr ⟨j, hj, hjv⟩
    · simp at hm

theorem assignParams_other {Val : Type} (ms : List (VReg × VReg)) (V : VReg → Val) (v : VReg)
    (h : v ∉ ms.map Prod.fst) : assignParams ms V v = V v := by
  induction ms with
  | nil => rfl
  | cons m ms ih =>
    simp only [List.map_cons, List.mem_cons, not_or] at h
    simp only [assignParams]
    rw [if_neg h.1, ih h.2]

theorem assignParams_mem {Val : Type} (ms : List (VReg × VReg)) (V : VReg → Val) (hnd : (ms.map Prod.fst).Nodup)
    (m : VReg × VReg) (h : m ∈ ms) : assignParams ms V m.1 = V m.2 := by
  induction ms with
  | nil => simp at h
  | cons m' ms ih =>
    simp only [List.map_cons, List.nodup_cons] at hnd
    simp only [assignParams]
    rcases List.mem_cons.mp h with rfl | h
    · simp
    · rw [if_neg, ih hnd.2 h]
      intro e
      exact hnd.1 (e ▸ List.mem_map_of_mem h)

theorem sim_pmove {Val : Type} {S S' : CState} {D : VReg → Prop} {A : Allocation → Val} {V : VReg → Val}
    (hsat : Sat D S A V) {ms : List (VReg × VReg)} (hnd : (ms.map Prod.fst).Nodup) (hD : ∀ m ∈ ms, D m.2)
    (hu : update? S (.pmove ms) = some S') :
    Sat (fun v => D v ∨ v ∈ ms.map Prod.fst) S' A (assignParams ms V) := by
  have hSg : ∀ a, CMap.get S.defined a = S.get a := by
    intro a; cases S <;> simp [CState.defined, CState.get, CMap.get]
  simp only [update?, Option.some.injEq] at hu
  subst hu
  intro a v ⟨s, hs, hv⟩ hDv
  simp only [CState.get] at hs
  rw [CMap.get_mapVal, hSg] at hs
  cases hx : S.get a with
  | none => rw [hx] at hs; simp at hs
  | some x =>
    rw [hx] at hs
    cases x with
    | univ => simp [pmoveVal] at hs
    | vregs s0 =>
      simp only [pmoveVal, Option.map_some, Option.some.injEq, CVal.vregs.injEq] at hs
      subst hs
      rcases List.mem_append.mp hv with h | h
      · obtain ⟨h1, h2⟩ := List.mem_filter.mp h
        have h2 : v ∉ ms.map Prod.fst := by simpa using h2
        rw [assignParams_other _ _ _ h2]
        rcases hDv with h | h
        · exact hsat _ _ ⟨s0, hx, h1⟩ h
        · exact absurd h h2
      · obtain ⟨w, hw, h⟩ := List.mem_flatMap.mp h
        obtain ⟨m, hm, rfl⟩ := List.mem_map.mp h
        obtain ⟨hm1, hm2⟩ := List.mem_filter.mp hm
        have hm2 : m.2 = w := by simpa using hm2
        subst hm2
        rw [assignParams_mem _ _ hnd m hm1]
        exact hsat _ _ ⟨s0, hx, hw⟩ (hD m hm1)

theorem zipIdx_nodup {α : Type} (l : List α) (n : Nat) : (l.zipIdx n).Nodup := by
  have h : ((l.zipIdx n).map Prod.snd).Nodup := by
    rw [List.zipIdx_map_snd]; exact List.nodup_range'
  unfold List.Nodup at h ⊢
  rw [List.pairwise_map] at h
  exact h.imp (fun h e => h (by rw [e]))

theorem singleton_of_nodup {α : Type} {l : List α} {x : α} (hnd : l.Nodup) (h : ∀ y ∈ l, y = x) (hx : x ∈ l) :
    l = [x] := by
  match l, hnd, h, hx with
  | [y], _, h, _ => rw [h y (by simp)]
  | y :: z :: l, hnd, h, _ =>
    have h1 := h y (by simp)
    have h2 := h z (by simp)
    simp [h1, h2] at hnd

/-- The edge instructions are exactly the parameter assignments of that edge. -/
theorem edgeInsts_eq {f : Func} {out : Output} {b k s : Nat} (hbr : branches f out b =
      if f.isBranch (f.lastInst b) then [f.lastInst b] else [])
    (hk : (f.succs b)[k]? = some s)
    (huniq : ∀ k' : Nat, (f.succs b)[k']? = some s → k = k' ∨ f.params s = [])
    (hargs : (branches f out b).all (argsMatch f b) = true) :
    (edgeInsts f out b s = [] ∧ edgeMoves f b k s = []) ∨
      edgeInsts f out b s = [.pmove (edgeMoves f b k s)] := by
  unfold edgeInsts edgeMoves
  rw [hbr] at hargs ⊢
  by_cases hib : f.isBranch (f.lastInst b) = true
  · rw [if_pos hib] at hargs ⊢
    rw [if_pos hib]
    simp only [List.all_cons, List.all_nil, Bool.and_true, argsMatch, List.all_eq_true] at hargs
    have hlen : ∀ k' : Nat, (f.succs b)[k']? = some s → (f.args b (f.lastInst b) k').length = (f.params s).length := by
      intro k' hk'
      have := hargs (s, k') (by rw [List.mem_zipIdx_iff_getElem?]; simpa using hk')
      simpa using this
    simp only [List.flatMap_cons, List.flatMap_nil, List.append_nil]
    by_cases hp : f.params s = []
    · left
      refine ⟨?_, by simp [hp]⟩
      rw [List.map_eq_nil_iff, List.filter_eq_nil_iff]
      intro q hq
      rw [List.mem_zipIdx_iff_getElem?] at hq
      simp only [decide_eq_true_eq, not_and]
      intro hq1
      have hq' : (f.succs b)[q.2]? = some s := by simpa [hq1] using hq
      have := hlen _ hq'
      rw [this, hp]; simp
    · right
      have hl : (f.succs b).zipIdx.filter (fun p => decide (p.1 = s ∧ (f.args b (f.lastInst b) p.2).length > 0)) = [(s, k)] := by
        apply singleton_of_nodup
        · exact (zipIdx_nodup _ _).filter _
        · intro q hq
          obtain ⟨h1, h2⟩ := List.mem_filter.mp hq
          rw [List.mem_zipIdx_iff_getElem?] at h1
          simp only [decide_eq_true_eq] at h2
          have hq' : (f.succs b)[q.2]? = some s := by simpa [h2.1] using h1
          rcases huniq _ hq' with h | h
          · rw [h, ← h2.1]
          · exact absurd h hp
        · refine List.mem_filter.mpr ⟨by rw [List.mem_zipIdx_iff_getElem?]; simpa using hk, ?_⟩
          simp only [decide_eq_true_eq, true_and]
          rw [hlen k hk]
          exact List.length_pos_iff.mpr hp
      rw [hl]; simp
  · rw [if_neg hib, if_neg hib]
    left; simp

theorem update_allocs {S S' : CState} {ci : CInst} (h : update? S ci = some S') : ∃ m, S' = .allocs m := by
  unfold update? at h
  cases ci with
  | move a b => simp only at h; split at h <;> simp at h <;> exact ⟨_, h.symm⟩
  | pmove ms => simp at h; exact ⟨_, h.symm⟩
  | op i o a c =>
    simp only at h
    split at h <;> simp at h
    exact ⟨_, h.symm⟩

theorem updates_allocs {S S' : CState} {cis : List CInst} (h : updates? S cis = some S')
    (hne : cis ≠ [] ∨ ∃ m, S = .allocs m) : ∃ m, S' = .allocs m := by
  induction cis generalizing S with
  | nil =>
    simp [updates?] at h; subst h
    rcases hne with h | h
    · exact absurd rfl h
    · exact h
  | cons c cs ih =>
    unfold updates? at h
    split at h
    · simp at h
    · next S1 h1 => exact ih h (.inr (update_allocs h1))


theorem instsOf_block {f : Func} {out : Output} (h : FuncOk f out) (b : Nat) :
    instsOf (out.blockInstsAndEdits f b) = f.blockInsts b := by
  have e : instsOf (out.blockInstsAndEdits f b) = (out.blockInstsAndEdits f b).filterMap InstOrEdit.inst? := by
    unfold instsOf
    congr 1
    funext x; cases x <;> rfl
  rw [e, C20_instructions_once out f b h.sorted]

theorem mapAll_get {α β : Type} {g : α → Option β} {l : List α} {r : List β} (h : mapAll g l = some r) :
    r.length = l.length ∧ ∀ (k : Nat) a, l[k]? = some a → ∃ b, r[k]? = some b ∧ g a = some b := by
  induction l generalizing r with
  | nil => simp [mapAll] at h; subst h; simp
  | cons x l ih =>
    unfold mapAll at h
    split at h
    · next b bs h1 h2 =>
      simp at h; subst h
      obtain ⟨e1, e2⟩ := ih h2
      refine ⟨by simp [e1], ?_⟩
      intro k a hk
      cases k with
      | zero => simp at hk; subst hk; exact ⟨b, by simp, h1⟩
      | succ k => simp at hk; simpa using e2 k a hk
    · simp at h

theorem prepare_spec {f : Func} {out : Output} {p : Prep} (h : prepare? f out = some p) :
    (∀ b, b < f.numBlocks → blockInsts? f out b = some (p.insts b)) ∧ p.edges = edgeInsts f out ∧
      ∀ b, b < f.numBlocks → (branches f out b).all (argsMatch f b) = true := by
  unfold prepare? at h
  split at h
  · simp at h
  · next bb hbb =>
    split at h
    · next hall =>
      simp at h; subst h
      refine ⟨?_, rfl, ?_⟩
      · intro b hb
        obtain ⟨x, h1, h2⟩ := (mapAll_get hbb).2 b b (by simp [hb])
        simp only [h1, Option.getD_some]; exact h2
      · intro b hb
        exact (List.all_eq_true.mp hall) b (by simpa using hb)
    · simp at h

theorem findErrors_nil {f : Func} {env : MachineEnv} {p : Prep} {bbIn : List CState}
    (h : findErrors? f env p bbIn = some []) :
    ∀ b, b < f.numBlocks → ∃ S, bbIn[b]? = some S ∧ blockErrors? env S (p.insts b) = some [] := by
  unfold findErrors? at h
  split at h
  · simp at h
  · next ess hess =>
    simp only [Option.some.injEq] at h
    intro b hb
    obtain ⟨x, h1, h2⟩ := (mapAll_get hess).2 b b (by simp [hb])
    have hx : x = [] := List.flatten_eq_nil_iff.mp h x (List.mem_of_getElem? h1)
    subst hx
    split at h2
    · simp at h2
    · next S hS => exact ⟨S, hS, h2⟩

theorem filter_unique {l : List Nat} (hnd : l.Nodup) {x : Nat} (hx : x ∈ l) {q : Nat → Bool}
    (h : ∀ i ∈ l, q i = true → i = x) : l.filter q = if q x then [x] else [] := by
  by_cases hq : q x = true
  · rw [if_pos hq]
    apply singleton_of_nodup (hnd.filter _)
    · intro y hy
      obtain ⟨h1, h2⟩ := List.mem_filter.mp hy
      exact h y h1 h2
    · exact List.mem_filter.mpr ⟨hx, hq⟩
  · rw [if_neg hq, List.filter_eq_nil_iff]
    intro y hy hqy
    exact hq (h y hy hqy ▸ hqy)

theorem blockInsts_nodup (f : Func) (b : Nat) : (f.blockInsts b).Nodup := by
  unfold Func.blockInsts
  exact List.nodup_range'

theorem branches_eq {f : Func} {out : Output} (h : FuncOk f out) {b : Nat} (hb : b < f.numBlocks) :
    branches f out b = if f.isBranch (f.lastInst b) then [f.lastInst b] else [] := by
  have e : branches f out b = (f.blockInsts b).filter (fun i => f.isBranch i) := by
    unfold branches
    have := instsOf_block h b
    rw [← this]; rfl
  rw [e]
  have hne := h.nonempty b hb
  exact filter_unique (blockInsts_nodup f b) (by
    unfold Func.blockInsts Func.lastInst
    rw [List.mem_range']
    exact ⟨(f.insns b).2 - 1 - (f.insns b).1, by omega, by omega⟩) (h.branchLast b hb)

theorem map_fst_zip_sublist {α β : Type} (l : List α) (r : List β) : ((l.zip r).map Prod.fst).Sublist l := by
  induction l generalizing r with
  | nil => simp
  | cons a l ih =>
    cases r with
    | nil => simp
    | cons b r => simpa using ih r

/-- Execution in lock step along a path. -/
theorem sim_run {Val : Type} {f : Func} {out : Output} {env : MachineEnv} {p : Prep} {bbIn : List CState}
    (hf : FuncOk f out) (hp : prepare? f out = some p) (hfix : ∀ c, c < f.numBlocks → FixAt f p bbIn c)
    (herr : findErrors? f env p bbIn = some [])
    (htr : ∀ b, b < f.numBlocks → ∀ S, bbIn[b]? = some S → MovesTracked S (p.insts b))
    (sem : Sem Val) (junk : Nat → Allocation → Val) (ks : List Nat) :
    ∀ {b : Nat} {S : CState} {D : VReg → Prop} {A : Allocation → Val} {V : VReg → Val} (tr : Trace Val),
    b < f.numBlocks → bbIn[b]? = some S → Sat D S A V → NoUndefinedReads f ks b D →
    allocRun f out sem junk ks b A tr = origRun f sem ks b V tr := by
  induction ks with
  | nil =>
    intro b S D A V tr hb hS hsat hdef
    obtain ⟨h1, h2, h3⟩ := prepare_spec hp
    obtain ⟨S0, hS0, he⟩ := findErrors_nil herr b hb
    rw [hS] at hS0; simp at hS0; subst hS0
    have hio := instsOf_block hf b
    unfold NoUndefinedReads at hdef
    obtain ⟨_, _, k2, _⟩ := sim_items sem junk (out.blockInstsAndEdits f b) tr (h1 b hb) he (htr b hb S hS) hsat
      (hio ▸ hdef) (by rw [hio]; exact hf.insts b hb)
    rw [hio] at k2
    exact k2
  | cons k ks ih =>
    intro b S D A V tr hb hS hsat hdef
    obtain ⟨h1, h2, h3⟩ := prepare_spec hp
    obtain ⟨S0, hS0, he⟩ := findErrors_nil herr b hb
    rw [hS] at hS0; simp at hS0; subst hS0
    have hio := instsOf_block hf b
    unfold NoUndefinedReads at hdef
    obtain ⟨S1, k1, k2, k3⟩ := sim_items sem junk (out.blockInstsAndEdits f b) tr (h1 b hb) he (htr b hb S hS) hsat
      (hio ▸ hdef.1) (by rw [hio]; exact hf.insts b hb)
    rw [hio] at k2 k3
    unfold allocRun origRun
    simp only
    rw [k2]
    cases hs : (f.succs b)[k]? with
    | none => rfl
    | some s =>
      simp only
      have hsm : s ∈ f.succs b := List.mem_of_getElem? hs
      obtain ⟨S1', e1, e2⟩ := hfix b hb S hS
      rw [k1] at e1; simp at e1; subst e1
      obtain ⟨S2, T, e3, e4, e5⟩ := e2 s hsm
      have hS1 : ∃ m, S1 = .allocs m := by
        refine updates_allocs k1 (.inl ?_)
        intro e
        have hb1 := h1 b hb
        unfold blockInsts? at hb1
        have hlen := (mapAll_get hb1).1
        rw [e] at hlen
        have : out.blockInstsAndEdits f b = [] := List.eq_nil_of_length_eq_zero hlen.symm
        rw [this] at hio
        have hne := hf.nonempty b hb
        have : (f.blockInsts b).length = (f.insns b).2 - (f.insns b).1 := by simp [Func.blockInsts]
        rw [← hio] at this
        simp [instsOf] at this
        omega
      have hS2 := updates_allocs e3 (.inr hS1)
      rw [hs] at hdef
      simp only at hdef
      obtain ⟨hd1, hd2, hd3⟩ := hdef
      have hblk : Sat (blockDefined f b D) S1
          (allocItems f out sem junk (out.blockInstsAndEdits f b) A tr).1
          (origInsts f sem (f.blockInsts b) V tr).1 := k3
      rw [h2] at e3
      have hnd : ((edgeMoves f b k s).map Prod.fst).Nodup := by
        unfold edgeMoves
        split
        · exact (hf.params s (hf.succLt b hb s hsm)).sublist (by
            exact map_fst_zip_sublist _ _)
        · simp
      have hsat2 : Sat (fun v => blockDefined f b D v ∨ v ∈ (edgeMoves f b k s).map Prod.fst) S2
          (allocItems f out sem junk (out.blockInstsAndEdits f b) A tr).1
          (assignParams (edgeMoves f b k s) (origInsts f sem (f.blockInsts b) V tr).1) := by
        rcases edgeInsts_eq (branches_eq hf hb) hs (fun k' hk' => hf.edges b hb k k' s hs hk') (h3 b hb) with
          ⟨g1, g2⟩ | g1
        · rw [g1] at e3
          simp [updates?] at e3; subst e3
          rw [g2]
          simpa [assignParams] using hblk
        · rw [g1] at e3
          unfold updates? at e3
          split at e3
          · simp at e3
          · next S3 hu =>
            simp [updates?] at e3; subst e3
            exact sim_pmove hblk hnd hd2 hu
      refine ih _ (hf.succLt b hb s hsm) e4 (D := fun v => blockDefined f b D v ∨ v ∈ (edgeMoves f b k s).map Prod.fst) ?_ ?_
      · intro a v hc hD
        rcases e5 with e5 | ⟨_, e5⟩
        · obtain ⟨m, hm⟩ := hS2; rw [hm] at e5; simp at e5
        · exact hsat2 a v (e5 a v hc) hD
      · exact hd3

end Regalloc.Checker
