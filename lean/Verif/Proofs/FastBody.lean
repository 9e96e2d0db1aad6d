import Verif.Proofs.FastBlock

/-
Single-pass allocator: the instructions of one block.
-/
namespace Regalloc
namespace Fast
open Exec

/-- Execute allocated instructions: `eb i`, `ea i` are the edits before and after `i`
and `al i` the locations of its operands. The edits after the last one are left out. -/
def runA {Val : Type} (f : Func) (eb ea : Nat → List Edit) (al : Nat → Nat → Allocation) (sem : Sem Val)
    (junk : Nat → Allocation → Val) : List Nat → (Allocation → Val) → Trace Val → (Allocation → Val) × Trace Val
  | [], A, tr => (A, tr)
  | i :: is, A, tr =>
    let r := stepInst (sem tr) i ((f.operands i).zip ((List.range (f.operands i).length).map (al i))) (execE (eb i) A)
    let A' := clobbered f i (junk tr.length) r.2
    runA f eb ea al sem junk is (if is = [] then A' else execE (ea i) A') (tr ++ [r.1])

theorem runA_congr {Val : Type} {f : Func} {eb ea eb' ea' : Nat → List Edit} {al al' : Nat → Nat → Allocation} {sem : Sem Val}
    {junk : Nat → Allocation → Val} {is : List Nat} (h1 : ∀ i ∈ is, eb i = eb' i) (h2 : ∀ i ∈ is, ea i = ea' i)
    (h3 : ∀ i ∈ is, al i = al' i) (A : Allocation → Val) (tr : Trace Val) :
    runA f eb ea al sem junk is A tr = runA f eb' ea' al' sem junk is A tr := by
  induction is generalizing A tr with
  | nil => rfl
  | cons i is ih =>
    unfold runA
    rw [h1 i (by simp), h2 i (by simp), h3 i (by simp)]
    exact ih (fun j hj => h1 j (by simp [hj])) (fun j hj => h2 j (by simp [hj])) (fun j hj => h3 j (by simp [hj])) _ _

/-- The same, with the edits after the last instruction. -/
def runM {Val : Type} (f : Func) (eb ea : Nat → List Edit) (al : Nat → Nat → Allocation) (sem : Sem Val)
    (junk : Nat → Allocation → Val) : List Nat → (Allocation → Val) → Trace Val → (Allocation → Val) × Trace Val
  | [], A, tr => (A, tr)
  | i :: is, A, tr =>
    let r := stepInst (sem tr) i ((f.operands i).zip ((List.range (f.operands i).length).map (al i))) (execE (eb i) A)
    runM f eb ea al sem junk is (execE (ea i) (clobbered f i (junk tr.length) r.2)) (tr ++ [r.1])

theorem runM_congr {Val : Type} {f : Func} {eb ea eb' ea' : Nat → List Edit} {al al' : Nat → Nat → Allocation} {sem : Sem Val}
    {junk : Nat → Allocation → Val} {is : List Nat} (h1 : ∀ i ∈ is, eb i = eb' i) (h2 : ∀ i ∈ is, ea i = ea' i)
    (h3 : ∀ i ∈ is, al i = al' i) (A : Allocation → Val) (tr : Trace Val) :
    runM f eb ea al sem junk is A tr = runM f eb' ea' al' sem junk is A tr := by
  induction is generalizing A tr with
  | nil => rfl
  | cons i is ih =>
    unfold runM
    rw [h1 i (by simp), h2 i (by simp), h3 i (by simp)]
    exact ih (fun j hj => h1 j (by simp [hj])) (fun j hj => h2 j (by simp [hj])) (fun j hj => h3 j (by simp [hj])) _ _

/-- The edits of instructions `is`. -/
def editsOf (eb ea : Nat → List Edit) (is : List Nat) : List (Nat × Edit) :=
  is.flatMap fun i => (eb i).map (fun e => (pt i .Before, e)) ++ (ea i).map (fun e => (pt i .After, e))

theorem editsOf_congr {eb ea eb' ea' : Nat → List Edit} {is : List Nat} (h1 : ∀ i ∈ is, eb i = eb' i)
    (h2 : ∀ i ∈ is, ea i = ea' i) : editsOf eb ea is = editsOf eb' ea' is := by
  induction is with
  | nil => rfl
  | cons i is ih =>
    unfold editsOf at *
    rw [List.flatMap_cons, List.flatMap_cons, h1 i (by simp), h2 i (by simp),
      ih (fun j hj => h1 j (by simp [hj])) (fun j hj => h2 j (by simp [hj]))]

/-- Registers needed before instructions `is` if `LOut` are needed after. -/
def liveB (cx : Cx) (LOut : Nat → Prop) : List Nat → Nat → Prop
  | [] => LOut
  | i :: is => fun w => UU cx i w ∨ (liveB cx LOut is w ∧ ¬ DDi cx i w)

variable {cx : Cx} {C : Nat → VReg}

theorem liveB_C {LOut : Nat → Prop} (hO : ∀ w, LOut w → (C w).vreg = w) {is : List Nat} (hi : ∀ i ∈ is, IOk cx C i) :
    ∀ w, liveB cx LOut is w → (C w).vreg = w := by
  induction is with
  | nil => exact hO
  | cons i is ih =>
    rintro w (⟨k, o, ho, _, hn, rfl⟩ | ⟨hl, _⟩)
    · have := ((hi i (by simp)).vreg k o ho hn).1
      rw [← this]
    · exact ih (fun j hj => hi j (by simp [hj])) w hl

/-- What holds after the instructions `is` at the end of block `b` were processed,
starting from `sE`. -/
structure Body (cx : Cx) (C : Nat → VReg) (Pend : Nat → Prop) (b : Nat) (K : Nat → Prop) (sE : FS) (is : List Nat) (t : FS)
    (eb ea : Nat → List Edit) : Prop where
  run : is.reverse.foldlM (allocInst cx b) sE = .ok t
  inv : Inv cx C (fun w => Pend w ∨ ∃ i ∈ is, DDi cx i w) t
  reused : t.reused = fun _ => none
  slot : ∀ v n, sE.slot v = some n → t.slot v = some n
  ns : NS sE t
  allocs : ∀ i, i ∉ is → t.allocs i = sE.allocs i
  allocMono : ∀ w, sE.alloc w ≠ Allocation.none → t.alloc w ≠ Allocation.none ∨ ∃ i ∈ is, DDi cx i w
  stkMono : ∀ w n, sE.slot w = some n → sE.alloc w = stk n → t.alloc w = stk n ∨ ∃ i ∈ is, DDi cx i w
  good : ∀ i ∈ is, OpsGood cx i (t.allocs i) t.slot
  live : ∀ i ∈ is, ∀ w, UU cx i w → t.alloc w ≠ Allocation.none ∨ ∃ i ∈ is, DDi cx i w
  args : cx.f.isBranch (cx.f.lastInst b) = true → ∀ x ∈ branchPairs cx.f b (cx.f.lastInst b),
    t.alloc x.1.vreg ≠ Allocation.none ∨ ∃ i ∈ is, DDi cx i x.1.vreg
  edits : t.edits = editsOf eb ea is ++ sE.edits
  tr : ∀ {Val : Type} (sem : Sem Val) (junk : Nat → Allocation → Val) (F : Nat → Option Nat) (Lend LOut : Nat → Prop)
    (Vp : (VReg → Val) → VReg → Val) (V : VReg → Val) (A : Allocation → Val) (tr : Trace Val), Fin F t →
    (∀ w, Lend w → (C w).vreg = w) → (∀ w, LOut w → (C w).vreg = w) → (∀ w, Lend w → K w) →
    EdgeOk cx C b (cx.f.lastInst b) Lend LOut Vp →
    Sat F t (liveB cx LOut is) (fun w => K w ∧ liveB cx LOut is w) (fun _ _ => False) (fun w => V (C w)) A →
    ((runA cx.f eb ea t.allocs sem junk is A tr).2 = (origInsts cx.f sem is V tr).2 ∧
      ∀ w n, Lend w → F w = some n →
        (runA cx.f eb ea t.allocs sem junk is A tr).1 (stk n) = Vp (origInsts cx.f sem is V tr).1 (C w)) ∧
    ∀ pre post, is = pre ++ post → post ≠ [] → ∀ w, liveB cx LOut post w →
      (∀ n, K w → F w = some n → (runM cx.f eb ea t.allocs sem junk pre A tr).1 (stk n) = (origInsts cx.f sem pre V tr).1 (C w)) ∧
      ∀ u, post.reverse.foldlM (allocInst cx b) sE = .ok u → u.alloc w ≠ Allocation.none →
        (runM cx.f eb ea t.allocs sem junk pre A tr).1 (u.alloc w) = (origInsts cx.f sem pre V tr).1 (C w)

/-- What is asked of the function around block `b`. -/
structure BOk (cx : Cx) (C : Nat → VReg) (Pend : Nat → Prop) (b : Nat) : Prop where
  ne : (cx.f.insns b).1 < (cx.f.insns b).2
  iok : ∀ i ∈ cx.f.blockInsts b, IOk cx C i
  last : ∀ i ∈ cx.f.blockInsts b, cx.f.isBranch i = true → i = cx.f.lastInst b
  br : cx.f.isBranch (cx.f.lastInst b) = true → BrOk cx C b (cx.f.lastInst b)
  pend : ∀ i ∈ cx.f.blockInsts b, ∀ w, UU cx i w ∨ DDi cx i w → ¬ Pend w
  defUse : ∀ i ∈ cx.f.blockInsts b, ∀ i' ∈ cx.f.blockInsts b, ∀ w, DDi cx i w → UU cx i' w → i < i'
  defDef : ∀ i ∈ cx.f.blockInsts b, ∀ i' ∈ cx.f.blockInsts b, ∀ w, DDi cx i w → DDi cx i' w → i = i'

theorem mem_blockInsts {f : Func} {b i : Nat} : i ∈ f.blockInsts b ↔ (f.insns b).1 ≤ i ∧ i < (f.insns b).2 := by
  unfold Func.blockInsts
  rw [List.mem_range'_1]
  constructor <;> rintro ⟨h1, h2⟩ <;> constructor <;> omega

theorem IOk.defsConstr {i : Nat} (hi : IOk cx C i) : ∀ x ∈ cx.opsOf i, x.2.kind = .Def →
    x.2.constraint ≠ .Any ∧ x.2.constraint ≠ .Stack := by
  intro x hx hk
  have hx := mem_opsOf.mp hx
  rcases hi.defC _ _ hx hk with h | ⟨p, h, _⟩ | ⟨j, oj, h, _⟩ <;> rw [h] <;> constructor <;> intro e <;> cases e

section
variable {Pend K : Nat → Prop} {b : Nat} {sE : FS} (he : EnvOk cx) (hB : BOk cx C Pend b)
  (hbb : BB sE) (hal : ∀ i ∈ cx.f.blockInsts b, ∀ k, sE.allocs i k = Allocation.none)
include he hB hbb hal

theorem body_last {t' : FS} (I : Inv cx C Pend sE) (hr : sE.reused = fun _ => none)
    (hkd : DefTrace cx b (cx.f.lastInst b) K sE)
    (h : allocInst cx b sE (cx.f.lastInst b) = .ok t') :
    ∃ eb ea, Body cx C Pend b K sE [cx.f.lastInst b] t' eb ea := by
  have hne := hB.ne
  have hm : cx.f.lastInst b ∈ cx.f.blockInsts b := by rw [mem_blockInsts]; unfold Func.lastInst; omega
  generalize hi : cx.f.lastInst b = i at *
  have hiok := hB.iok i hm
  have hns := allocInst_ns he hiok.defsConstr h
  have hP0 : ∀ (k : Nat) o, (cx.f.operands i)[k]? = some o → o.asFixedNonallocatable = none → ¬ Pend o.vreg.vreg := by
    intro k o ho hn
    apply hB.pend i hm
    cases hk : o.kind with
    | Use => exact .inl ⟨k, o, ho, hk, hn, rfl⟩
    | Def => exact .inr ⟨k, o, ho, ⟨o, ho⟩, hk, rfl⟩
  have mk : ∀ (st : IStep cx C Pend i sE t') (Eb Ea : List Edit),
      (cx.f.isBranch i = true → ∀ x ∈ branchPairs cx.f b i, t'.alloc x.1.vreg ≠ Allocation.none) →
      t'.edits = Eb.map (fun e => (pt i .Before, e)) ++ Ea.map (fun e => (pt i .After, e)) ++ sE.edits →
      (∀ {Val : Type} (sem : InstSem Val) (junk : Allocation → Val) (F : Nat → Option Nat) (Lend LOut : Nat → Prop)
        (Vp : (VReg → Val) → VReg → Val) (V : VReg → Val) (A : Allocation → Val), Fin F t' →
        (∀ w, Lend w → (C w).vreg = w) → (∀ w, LOut w → (C w).vreg = w) → (∀ w, Lend w → K w) →
        EdgeOk cx C b i Lend LOut Vp →
        Sat F t' (liveB cx LOut [i]) (fun w => K w ∧ liveB cx LOut [i] w) (fun _ _ => False) (fun w => V (C w)) A →
        (stepInst sem i (opLocs cx t' i) (execE Eb A)).1 =
          (stepInst sem i ((cx.f.operands i).map (fun o => (o, o.vreg))) V).1 ∧
        ∀ w n, Lend w → F w = some n →
          clobbered cx.f i junk (stepInst sem i (opLocs cx t' i) (execE Eb A)).2 (stk n) =
            Vp (stepInst sem i ((cx.f.operands i).map (fun o => (o, o.vreg))) V).2 (C w)) →
      ∃ eb ea, Body cx C Pend b K sE [i] t' eb ea := by
    intro st Eb Ea ha hE hS
    refine ⟨fun _ => Eb, fun _ => Ea, ?_⟩
    constructor
    · simp only [List.reverse_singleton, List.foldlM_cons, List.foldlM_nil, h]; rfl
    · exact st.inv.congrP (by simp)
    · exact st.reused
    · exact st.slot
    · exact hns
    · intro j hj; exact st.allocs j (by simpa using hj)
    · intro w hw; exact (st.allocMono w hw).imp_right (fun h => ⟨i, by simp, h⟩)
    · intro w n h1 h2; exact (st.stkMono w n h1 h2).imp_right (fun h => ⟨i, by simp, h⟩)
    · intro j hj; rw [List.mem_singleton] at hj; subst hj; exact st.good
    · intro j hj w hw; rw [List.mem_singleton] at hj; subst hj; exact .inl (st.live w hw)
    · rw [hi]; intro hb x hx; exact .inl (ha hb x hx)
    · rw [hE]; simp [editsOf]
    · intro Val sem junk F Lend LOut Vp V A tr hF hLC hOC hLK hed hSat
      rw [hi] at hed
      obtain ⟨g1, g2⟩ := hS (sem tr) (junk tr.length) F Lend LOut Vp V A hF hLC hOC hLK hed hSat
      unfold opLocs at g1 g2
      refine ⟨⟨?_, ?_⟩, ?_⟩
      · simp only [runA, origInsts]; rw [g1]
      · intro w n hl hw
        simp only [runA, origInsts, if_true]
        exact g2 w n hl hw
      · intro pre post e hne' w hl
        cases pre with
        | nil =>
          rw [List.nil_append] at e; subst e
          refine ⟨fun n hk hw => hSat.slot w n ⟨hk, hl⟩ hw, fun u hu hn => ?_⟩
          simp only [List.reverse_singleton, List.foldlM_cons, List.foldlM_nil, h] at hu
          have hu : t' = u := Except.ok.inj hu
          subst hu
          exact hSat.here w hl hn
        | cons x pre =>
          have h1 := congrArg List.length e
          have h2 := List.length_pos_iff.mpr hne'
          simp only [List.cons_append, List.length_cons, List.length_append, List.length_nil] at h1
          omega
  by_cases hbr : cx.f.isBranch i = true
  · obtain ⟨st, ha, Eb, Ea, hE, hS⟩ := allocInst_branch he hiok I hr (hal i hm) hP0 hbb (by rw [← hi] at hbr ⊢; exact hB.br hbr) h K hbr
    refine mk st Eb Ea (fun _ => ha) hE ?_
    intro Val sem junk F Lend LOut Vp V A hF hLC hOC hLK hed hSat
    exact hS sem F Lend LOut Vp V A junk hF hLC hLK hed hSat
  · have hbr' : cx.f.isBranch i = false := by simpa using hbr
    obtain ⟨st, Eb, Ea, hE, hS⟩ := allocInst_plain (K := K) he hiok I hr (hal i hm) hP0 hkd h hbr'
    refine mk st Eb Ea (fun h => absurd h hbr) hE ?_
    intro Val sem junk F Lend LOut Vp V A hF hLC hOC hLK hed hSat
    obtain ⟨g1, _⟩ := hS sem F LOut V A junk hF.ok hOC hSat
    exact ⟨g1, fun w n hl => absurd hl (hed.nb hbr' w)⟩

theorem body_step {i : Nat} {is : List Nat} {t t' : FS} {eb ea : Nat → List Edit}
    (hBd : Body cx C Pend b K sE is t eb ea) (hne : is ≠ []) (hm : i ∈ cx.f.blockInsts b) (hsub : ∀ j ∈ is, j ∈ cx.f.blockInsts b ∧ i < j)
    (hkd : DefTrace cx b i K t) (h : allocInst cx b t i = .ok t') :
    ∃ eb' ea', Body cx C Pend b K sE (i :: is) t' eb' ea' := by
  have hiok := hB.iok i hm
  have hns := allocInst_ns he hiok.defsConstr h
  have hni : i ∉ is := fun hx => by have := (hsub i hx).2; omega
  have hnb : cx.f.isBranch i = false := by
    cases e : cx.f.isBranch i with
    | false => rfl
    | true =>
      have h1 := hB.last i hm e
      obtain ⟨j, hj⟩ := List.exists_mem_of_ne_nil _ hne
      have h2 := hsub j hj
      have h3 := mem_blockInsts.mp h2.1
      unfold Func.lastInst at h1
      omega
  have hP0 : ∀ (k : Nat) o, (cx.f.operands i)[k]? = some o → o.asFixedNonallocatable = none →
      ¬ (Pend o.vreg.vreg ∨ ∃ j ∈ is, DDi cx j o.vreg.vreg) := by
    intro k o ho hn
    have hud : UU cx i o.vreg.vreg ∨ DDi cx i o.vreg.vreg := by
      cases hk : o.kind with
      | Use => exact .inl ⟨k, o, ho, hk, hn, rfl⟩
      | Def => exact .inr ⟨k, o, ho, ⟨o, ho⟩, hk, rfl⟩
    rintro (hp | ⟨j, hj, hd⟩)
    · exact hB.pend i hm _ hud hp
    · have hlt := (hsub j hj).2
      rcases hud with hu | hd'
      · have := hB.defUse j (hsub j hj).1 i hm _ hd hu; omega
      · have := hB.defDef j (hsub j hj).1 i hm _ hd hd'; omega
  obtain ⟨st, Eb, Ea, hE, hS⟩ := allocInst_plain (K := K) he hiok hBd.inv hBd.reused
    (fun k => by rw [hBd.allocs i hni]; exact hal i hm k) hP0 hkd h hnb
  have hallocs : ∀ j ∈ is, t'.allocs j = t.allocs j := fun j hj => st.allocs j (by have := (hsub j hj).2; omega)
  have heb : ∀ j ∈ is, set1 eb i Eb j = eb j := fun j hj => set1_ne _ _ (by have := (hsub j hj).2; omega)
  have hea : ∀ j ∈ is, set1 ea i Ea j = ea j := fun j hj => set1_ne _ _ (by have := (hsub j hj).2; omega)
  refine ⟨set1 eb i Eb, set1 ea i Ea, ?_⟩
  have hrun : (i :: is).reverse.foldlM (allocInst cx b) sE = .ok t' := by
    rw [List.reverse_cons]; exact foldlM_snoc hBd.run h
  constructor
  · exact hrun
  · refine st.inv.congrP ?_
    intro w
    simp only [List.mem_cons]
    constructor
    · rintro (hp | ⟨j, rfl | hj, hd⟩)
      · exact .inl (.inl hp)
      · exact .inr hd
      · exact .inl (.inr ⟨j, hj, hd⟩)
    · rintro ((hp | ⟨j, hj, hd⟩) | hd)
      · exact .inl hp
      · exact .inr ⟨j, .inr hj, hd⟩
      · exact .inr ⟨i, .inl rfl, hd⟩
  · exact st.reused
  · exact fun v n hv => st.slot v n (hBd.slot v n hv)
  · exact hBd.ns.trans hns
  · intro j hj
    rw [List.mem_cons, not_or] at hj
    rw [st.allocs j hj.1, hBd.allocs j hj.2]
  · intro w hw
    rcases hBd.allocMono w hw with h1 | ⟨j, hj, hd⟩
    · exact (st.allocMono w h1).imp_right (fun h => ⟨i, by simp, h⟩)
    · exact .inr ⟨j, by simp [hj], hd⟩
  · intro w n h1 h2
    rcases hBd.stkMono w n h1 h2 with h3 | ⟨j, hj, hd⟩
    · exact (st.stkMono w n (hBd.slot _ _ h1) h3).imp_right (fun h => ⟨i, by simp, h⟩)
    · exact .inr ⟨j, by simp [hj], hd⟩
  · intro j hj
    rcases List.mem_cons.mp hj with rfl | hj
    · exact st.good
    · exact (hBd.good j hj).mono (hallocs j hj) st.slot
  · intro j hj w hw
    rcases List.mem_cons.mp hj with rfl | hj
    · exact .inl (st.live w hw)
    · rcases hBd.live j hj w hw with h1 | ⟨j', hj', hd⟩
      · exact (st.allocMono w h1).imp_right (fun h => ⟨i, by simp, h⟩)
      · exact .inr ⟨j', by simp [hj'], hd⟩
  · intro hb x hx
    rcases hBd.args hb x hx with h1 | ⟨j', hj', hd⟩
    · exact (st.allocMono _ h1).imp_right (fun h => ⟨i, by simp, h⟩)
    · exact .inr ⟨j', by simp [hj'], hd⟩
  · rw [hE, hBd.edits, ← editsOf_congr heb hea]
    simp only [editsOf, List.flatMap_cons, set1_same, List.append_assoc]
  · intro Val sem junk F Lend LOut Vp V A tr hF hLC hOC hLK hed hSat
    have hLB := liveB_C hOC (fun j hj => hB.iok j (hsub j hj).1)
    obtain ⟨g1, g2⟩ := hS (sem tr) F (liveB cx LOut is) V A (junk tr.length) hF.ok hLB hSat
    have hFt : Fin F t := hF.back st.slot hns
    have g3 := hBd.tr sem junk F Lend LOut Vp _ _
      (tr ++ [(stepInst (sem tr) i ((cx.f.operands i).map (fun o => (o, o.vreg))) V).1]) hFt hLC hOC hLK hed g2
    have hcg : ∀ A tr, runA cx.f (set1 eb i Eb) (set1 ea i Ea) t'.allocs sem junk is A tr =
        runA cx.f eb ea t.allocs sem junk is A tr := runA_congr heb hea hallocs
    have hcm : ∀ pre, (∀ j ∈ pre, j ∈ is) → ∀ A tr, runM cx.f (set1 eb i Eb) (set1 ea i Ea) t'.allocs sem junk pre A tr =
        runM cx.f eb ea t.allocs sem junk pre A tr := fun pre hp => runM_congr (fun j hj => heb j (hp j hj))
          (fun j hj => hea j (hp j hj)) (fun j hj => hallocs j (hp j hj))
    unfold opLocs at g1 g3
    refine ⟨?_, ?_⟩
    · simp only [runA, origInsts, set1_same, if_neg hne, hcg]
      rw [g1]
      exact g3.1
    · intro pre post e hne' w hl
      cases pre with
      | nil =>
        rw [List.nil_append] at e; subst e
        refine ⟨fun n hk hw => hSat.slot w n ⟨hk, hl⟩ hw, fun u hu hn => ?_⟩
        rw [hrun] at hu; cases hu
        exact hSat.here w hl hn
      | cons x pre =>
        rw [List.cons_append, List.cons.injEq] at e
        obtain ⟨rfl, e⟩ := e
        have := g3.2 pre post e hne' w hl
        simp only [runM, origInsts, set1_same]
        rw [hcm pre (fun j hj => by rw [e]; exact List.mem_append_left _ hj), g1]
        exact this

theorem body_pre {pre post : List Nat} (hsp : cx.f.blockInsts b = pre ++ post) (hnp : post ≠ []) {t : FS} (I : Inv cx C Pend sE)
    (hr : sE.reused = fun _ => none)
    (hK : ∀ pre' i post' u, post = pre' ++ i :: post' → post'.reverse.foldlM (allocInst cx b) sE = .ok u → DefTrace cx b i K u)
    (h : post.reverse.foldlM (allocInst cx b) sE = .ok t) :
    ∃ eb ea, Body cx C Pend b K sE post t eb ea := by
  have hne := hB.ne
  have hlast : post.reverse.head? = some (cx.f.lastInst b) := by
    have h1 : (cx.f.blockInsts b).getLast? = some (cx.f.lastInst b) := by
      unfold Func.blockInsts Func.lastInst
      rw [List.getLast?_range']
      rw [if_neg (by omega)]
      congr 1
      omega
    rw [hsp, List.getLast?_append] at h1
    rw [List.head?_reverse]
    cases hg : post.getLast? with
    | none => exact absurd (List.getLast?_eq_none_iff.mp hg) hnp
    | some x => rw [hg] at h1; exact h1
  have hsorted : (cx.f.blockInsts b).Pairwise (· < ·) := List.pairwise_lt_range'
  have key := foldlM_inv (fun pre t => pre.foldlM (allocInst cx b) sE = .ok t ∧
      ((pre = [] ∧ t = sE) ∨ (pre ≠ [] ∧ ∃ eb ea, Body cx C Pend b K sE pre.reverse t eb ea)))
    ⟨rfl, .inl ⟨rfl, rfl⟩⟩ (by
      rintro pr x po u u' hl ⟨hu, hM⟩ hf
      refine ⟨foldlM_snoc hu hf, ?_⟩
      right
      refine ⟨by simp, ?_⟩
      rw [List.reverse_append, List.reverse_singleton, List.singleton_append]
      have hl' : post = po.reverse ++ x :: pr.reverse := by
        have := congrArg List.reverse hl
        simpa using this
      have hxm : x ∈ cx.f.blockInsts b := by
        rw [hsp, hl']; simp
      have hdt : DefTrace cx b x K u := hK po.reverse x pr.reverse u hl' (by rw [List.reverse_reverse]; exact hu)
      rcases hM with ⟨rfl, rfl⟩ | ⟨hpre, eb, ea, hBd⟩
      · rw [hl] at hlast
        simp only [List.nil_append, List.head?_cons, Option.some.injEq] at hlast
        subst hlast
        exact body_last he hB hbb hal I hr hdt hf
      · refine body_step he hB hbb hal hBd (by simpa using hpre) hxm ?_ hdt hf
        intro j hj
        have hl'' : cx.f.blockInsts b = (pre ++ po.reverse) ++ x :: pr.reverse := by rw [hsp, hl', List.append_assoc]
        refine ⟨by rw [hl'']; simp only [List.mem_append, List.mem_cons]; exact .inr (.inr hj), ?_⟩
        rw [hl'', List.pairwise_append] at hsorted
        exact (List.pairwise_cons.mp hsorted.2.1).1 j hj) h
  rcases key.2 with ⟨h1, _⟩ | ⟨_, eb, ea, hBd⟩
  · rw [h1] at hlast; cases hlast
  · rw [List.reverse_reverse] at hBd
    exact ⟨eb, ea, hBd⟩

/-- Registers that are kept in their slots at the end of the block are kept there until their
definitions. -/
theorem defTrace_end (hK : ∀ i ∈ cx.f.blockInsts b, ∀ w, DDi cx i w → K w → sE.alloc w ≠ Allocation.none)
    (I : Inv cx C Pend sE) (hr : sE.reused = fun _ => none) : ∀ (post pre : List Nat) (i : Nat) (u : FS),
    cx.f.blockInsts b = pre ++ i :: post → post.reverse.foldlM (allocInst cx b) sE = .ok u → DefTrace cx b i K u := by
  intro post pre i u hl hu
  have hsorted : (cx.f.blockInsts b).Pairwise (· < ·) := List.pairwise_lt_range'
  have hm : i ∈ cx.f.blockInsts b := by rw [hl]; simp
  rw [hl, List.pairwise_append] at hsorted
  have hsub : ∀ j ∈ post, j ∈ cx.f.blockInsts b ∧ i < j := fun j hj =>
    ⟨by rw [hl]; simp [hj], (List.pairwise_cons.mp hsorted.2.1).1 j hj⟩
  have hud : ∀ (k : Nat) o, (cx.f.operands i)[k]? = some o → o.asFixedNonallocatable = none →
      UU cx i o.vreg.vreg ∨ DDi cx i o.vreg.vreg := by
    intro k o ho hn
    cases hk : o.kind with
    | Use => exact .inl ⟨k, o, ho, hk, hn, rfl⟩
    | Def => exact .inr ⟨k, o, ho, ⟨o, ho⟩, hk, rfl⟩
  by_cases hnp : post = []
  · subst hnp
    have hu : sE = u := Except.ok.inj hu
    subst hu
    refine defTrace_of he (hB.iok i hm) I hr (hal i hm) (fun k o ho hn => hB.pend i hm _ (hud k o ho hn)) ?_
    intro k o ho hk hKw
    exact (hbb _).resolve_left (hK i hm _ ⟨k, o, ho, ⟨o, ho⟩, hk, rfl⟩ hKw)
  · obtain ⟨eb, ea, hBd⟩ := body_pre (K := fun _ => False) he hB hbb hal (pre := pre ++ [i]) (by rw [hl]; simp) hnp I hr
      (fun _ _ _ _ _ _ _ _ _ _ _ _ _ _ _ _ _ _ h => h.elim) hu
    refine defTrace_of he (hB.iok i hm) hBd.inv hBd.reused (fun k => by
      rw [hBd.allocs i (fun hx => by have := (hsub i hx).2; omega)]; exact hal i hm k) ?_ ?_
    · intro k o ho hn
      rintro (hp | ⟨j, hj, hd⟩)
      · exact hB.pend i hm _ (hud k o ho hn) hp
      · have hlt := (hsub j hj).2
        rcases hud k o ho hn with hu | hd'
        · have := hB.defUse j (hsub j hj).1 i hm _ hd hu; omega
        · have := hB.defDef j (hsub j hj).1 i hm _ hd hd'; omega
    · intro k o ho hk hKw
      have hd : DDi cx i o.vreg.vreg := ⟨k, o, ho, ⟨o, ho⟩, hk, rfl⟩
      obtain ⟨n, e1, e2⟩ := (hbb _).resolve_left (hK i hm _ hd hKw)
      refine ⟨n, hBd.slot _ _ e1, (hBd.stkMono _ n e1 e2).resolve_right ?_⟩
      rintro ⟨j, hj, hd'⟩
      have := hB.defDef i hm j (hsub j hj).1 _ hd hd'
      have := (hsub j hj).2
      omega

theorem body_spec {t : FS} (hK : ∀ i ∈ cx.f.blockInsts b, ∀ w, DDi cx i w → K w → sE.alloc w ≠ Allocation.none)
    (I : Inv cx C Pend sE) (hr : sE.reused = fun _ => none)
    (h : (cx.f.blockInsts b).reverse.foldlM (allocInst cx b) sE = .ok t) :
    ∃ eb ea, Body cx C Pend b K sE (cx.f.blockInsts b) t eb ea := by
  refine body_pre he hB hbb hal (pre := []) rfl ?_ I hr (fun pre i post u hl hu => defTrace_end he hB hbb hal hK I hr post pre i u hl hu) h
  intro e
  have := hB.ne
  have := congrArg List.length e
  simp [Func.blockInsts] at this
  omega

end

end Fast
end Regalloc
