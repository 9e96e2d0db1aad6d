import Verif.Proofs.FastBody

/-
Single-pass allocator: the loop over all blocks.
-/
namespace Regalloc
namespace Fast
open Exec

variable {cx : Cx} {C : Nat → VReg}

/-- Registers whose definition is in one of the blocks `bs`. -/
def DefIn (cx : Cx) (bs : List Nat) (w : Nat) : Prop :=
  ∃ b ∈ bs, (∃ v ∈ cx.f.params b, v.vreg = w) ∨ ∃ i ∈ cx.f.blockInsts b, DDi cx i w

/-- Register `w` is read in block `b`, by an operand or as a branch argument. -/
def ReadIn (cx : Cx) (b w : Nat) : Prop :=
  (∃ i ∈ cx.f.blockInsts b, UU cx i w) ∨
    (cx.f.isBranch (cx.f.lastInst b) = true ∧ ∃ x ∈ branchPairs cx.f b (cx.f.lastInst b), x.1.vreg = w)

/-- What is asked of the function, in terms of the proofs. -/
structure FnOk (cx : Cx) (C : Nat → VReg) : Prop where
  env : EnvOk cx
  ne : ∀ b, b < cx.f.numBlocks → (cx.f.insns b).1 < (cx.f.insns b).2
  apart : ∀ b b' i, b < cx.f.numBlocks → b' < cx.f.numBlocks → i ∈ cx.f.blockInsts b → i ∈ cx.f.blockInsts b' → b = b'
  iok : ∀ b, b < cx.f.numBlocks → ∀ i ∈ cx.f.blockInsts b, IOk cx C i
  last : ∀ b, b < cx.f.numBlocks → ∀ i ∈ cx.f.blockInsts b, cx.f.isBranch i = true → i = cx.f.lastInst b
  br : ∀ b, b < cx.f.numBlocks → cx.f.isBranch (cx.f.lastInst b) = true → BrOk cx C b (cx.f.lastInst b)
  useOrder : ∀ b b' i w, b < cx.f.numBlocks → b' < cx.f.numBlocks → i ∈ cx.f.blockInsts b → UU cx i w →
    DefIn cx [b'] w → b' ≤ b
  defUse : ∀ b, b < cx.f.numBlocks → ∀ i ∈ cx.f.blockInsts b, ∀ i' ∈ cx.f.blockInsts b, ∀ w, DDi cx i w → UU cx i' w → i < i'
  defOnce : ∀ b b' w, b < cx.f.numBlocks → b' < cx.f.numBlocks → DefIn cx [b] w → DefIn cx [b'] w → b = b'
  defDef : ∀ b, b < cx.f.numBlocks → ∀ i ∈ cx.f.blockInsts b, ∀ i' ∈ cx.f.blockInsts b, ∀ w, DDi cx i w → DDi cx i' w → i = i'
  parNodup : ∀ b, b < cx.f.numBlocks → ((cx.f.params b).map VReg.vreg).Nodup
  parDef : ∀ b, b < cx.f.numBlocks → ∀ v ∈ cx.f.params b, ∀ i ∈ cx.f.blockInsts b, ¬ DDi cx i v.vreg
  pred : ∀ b, b < cx.f.numBlocks → ∀ q ∈ cx.f.preds b, ∀ o ∈ cx.f.operands (cx.f.lastInst q), o.kind = .Use

/-- `s` is the state when block `b` is about to be processed, after the blocks that follow it. -/
def AtEnd (cx : Cx) (b : Nat) (s : FS) : Prop :=
  (List.range' (b + 1) (cx.f.numBlocks - (b + 1))).reverse.foldlM (allocBlock cx) (FS.init cx) = .ok s

/-- Where block `b` defines register `w`, the register is kept in its slot. -/
def SlotAtDef (cx : Cx) (b w : Nat) : Prop :=
  ∀ s pre i post u, AtEnd cx b s → cx.f.blockInsts b = pre ++ i :: post → post.reverse.foldlM (allocInst cx b) s = .ok u →
    DefTrace cx b i (fun x => x = w) u

/-- The meaning of an allocated block, in terms of the values in slots. -/
def BlockTr (cx : Cx) (C : Nat → VReg) (b : Nat) (eb ea : Nat → List Edit) (al : Nat → Nat → Allocation)
    (F : Nat → Option Nat) : Prop :=
  ∀ (Val : Type) (sem : Sem Val) (junk : Nat → Allocation → Val) (Lend LOut : Nat → Prop)
    (Vp : (VReg → Val) → VReg → Val) (V : VReg → Val) (A : Allocation → Val) (tr : Trace Val),
    (∀ w, Lend w → (C w).vreg = w) → (∀ w, LOut w → (C w).vreg = w) →
    (∀ w, Lend w → (∃ i ∈ cx.f.blockInsts b, DDi cx i w) → ∃ b', b < b' ∧ b' < cx.f.numBlocks ∧ ReadIn cx b' w) →
    EdgeOk cx C b (cx.f.lastInst b) Lend LOut Vp →
    (∀ w n, liveB cx LOut (cx.f.blockInsts b) w → F w = some n → A (stk n) = V (C w)) →
    ((runA cx.f eb ea al sem junk (cx.f.blockInsts b) A tr).2 = (origInsts cx.f sem (cx.f.blockInsts b) V tr).2 ∧
      ∀ w n, Lend w → F w = some n →
        (runA cx.f eb ea al sem junk (cx.f.blockInsts b) A tr).1 (stk n) =
          Vp (origInsts cx.f sem (cx.f.blockInsts b) V tr).1 (C w)) ∧
    ∀ pre post, cx.f.blockInsts b = pre ++ post → post ≠ [] → ∀ w, liveB cx LOut post w →
      (∀ n, SlotAtDef cx b w → F w = some n →
        (runM cx.f eb ea al sem junk pre A tr).1 (stk n) = (origInsts cx.f sem pre V tr).1 (C w)) ∧
      ∀ s u, AtEnd cx b s → post.reverse.foldlM (allocInst cx b) s = .ok u → pre ≠ [] → u.alloc w ≠ Allocation.none →
        (runM cx.f eb ea al sem junk pre A tr).1 (u.alloc w) = (origInsts cx.f sem pre V tr).1 (C w)

theorem BlockTr.congr {b : Nat} {eb ea eb' ea' : Nat → List Edit} {al al' : Nat → Nat → Allocation} {F : Nat → Option Nat}
    (h : BlockTr cx C b eb ea al F) (h1 : ∀ i ∈ cx.f.blockInsts b, eb' i = eb i) (h2 : ∀ i ∈ cx.f.blockInsts b, ea' i = ea i)
    (h3 : ∀ i ∈ cx.f.blockInsts b, al' i = al i) : BlockTr cx C b eb' ea' al' F := by
  intro Val sem junk Lend LOut Vp V A tr a1 a2 a3 a4 a5
  rw [runA_congr h1 h2 h3]
  have := h Val sem junk Lend LOut Vp V A tr a1 a2 a3 a4 a5
  refine ⟨this.1, fun pre post e hne w hl => ?_⟩
  have hm : ∀ i ∈ pre, i ∈ cx.f.blockInsts b := fun i hi => by rw [e]; exact List.mem_append_left _ hi
  rw [runM_congr (fun i hi => h1 i (hm i hi)) (fun i hi => h2 i (hm i hi)) (fun i hi => h3 i (hm i hi))]
  exact this.2 pre post e hne w hl

/-- What holds once the blocks `bs` were processed. -/
structure Glob (cx : Cx) (C : Nat → VReg) (bs : List Nat) (t : FS) (eb ea : Nat → List Edit) : Prop where
  inv : Inv cx C (DefIn cx bs) t
  bb : BB t
  reused : t.reused = fun _ => none
  allocs : ∀ i, (∀ b ∈ bs, i ∉ cx.f.blockInsts b) → ∀ k, t.allocs i k = Allocation.none
  good : ∀ b ∈ bs, ∀ i ∈ cx.f.blockInsts b, OpsGood cx i (t.allocs i) t.slot
  live : ∀ b ∈ bs, ∀ w, ReadIn cx b w → t.alloc w ≠ Allocation.none ∨ DefIn cx bs w
  edits : t.edits = editsOf eb ea (bs.flatMap cx.f.blockInsts)
  late : ∀ b ∈ bs, ∀ w, ((∃ i ∈ cx.f.blockInsts b, DDi cx i w) → ∃ b', b < b' ∧ b' < cx.f.numBlocks ∧ ReadIn cx b' w) →
    SlotAtDef cx b w
  tr : ∀ F, Fin F t → ∀ b ∈ bs, BlockTr cx C b eb ea t.allocs F

theorem editsOf_append (eb ea : Nat → List Edit) (is js : List Nat) :
    editsOf eb ea (is ++ js) = editsOf eb ea is ++ editsOf eb ea js := by
  unfold editsOf; rw [List.flatMap_append]

theorem runA_pre {Val : Type} {f : Func} {eb ea : Nat → List Edit} {al : Nat → Nat → Allocation} {sem : Sem Val}
    {junk : Nat → Allocation → Val} {i : Nat} {is : List Nat} (hi : i ∉ is) (E : List Edit) (A : Allocation → Val) (tr : Trace Val) :
    runA f (set1 eb i (E ++ eb i)) ea al sem junk (i :: is) A tr = runA f eb ea al sem junk (i :: is) (execE E A) tr := by
  have h1 : ∀ j ∈ is, set1 eb i (E ++ eb i) j = eb j := fun j hj => set1_ne _ _ (by rintro rfl; exact hi hj)
  simp only [runA, set1_same, execE_append]
  rw [runA_congr h1 (fun _ _ => rfl) (fun _ _ => rfl)]

theorem runM_pre {Val : Type} {f : Func} {eb ea : Nat → List Edit} {al : Nat → Nat → Allocation} {sem : Sem Val}
    {junk : Nat → Allocation → Val} {i : Nat} {is : List Nat} (hi : i ∉ is) (E : List Edit) (A : Allocation → Val) (tr : Trace Val) :
    runM f (set1 eb i (E ++ eb i)) ea al sem junk (i :: is) A tr = runM f eb ea al sem junk (i :: is) (execE E A) tr := by
  simp only [runM, set1_same, execE_append]
  exact runM_congr (fun j hj => set1_ne _ _ (by rintro rfl; exact hi hj)) (fun _ _ => rfl) (fun _ _ => rfl) _ _

theorem editsOf_pre {eb ea : Nat → List Edit} {i : Nat} {is : List Nat} (hi : i ∉ is) (E : List Edit) :
    editsOf (set1 eb i (E ++ eb i)) ea (i :: is) = E.map (fun e => (pt i .Before, e)) ++ editsOf eb ea (i :: is) := by
  have h1 : ∀ j ∈ is, set1 eb i (E ++ eb i) j = eb j := fun j hj => set1_ne _ _ (by rintro rfl; exact hi hj)
  have := editsOf_congr (ea := ea) h1 (fun _ _ => rfl)
  unfold editsOf at *
  rw [List.flatMap_cons, List.flatMap_cons, this, set1_same, List.map_append]
  simp only [List.append_assoc]

theorem blockInsts_cons {f : Func} {b : Nat} (h : (f.insns b).1 < (f.insns b).2) :
    ∃ is, f.blockInsts b = (f.insns b).1 :: is ∧ (f.insns b).1 ∉ is := by
  unfold Func.blockInsts
  obtain ⟨n, hn⟩ : ∃ n, (f.insns b).2 - (f.insns b).1 = n + 1 := ⟨(f.insns b).2 - (f.insns b).1 - 1, by omega⟩
  rw [hn, List.range'_succ]
  exact ⟨_, rfl, by rw [List.mem_range'_1]; omega⟩

theorem DefIn.single {bs : List Nat} {w : Nat} (h : DefIn cx bs w) : ∃ b ∈ bs, DefIn cx [b] w := by
  obtain ⟨b, hb, h⟩ := h
  exact ⟨b, hb, b, by simp, h⟩

theorem glob_step (hf : FnOk cx C) {b : Nat} {bs : List Nat} {s s' : FS} {eb ea : Nat → List Edit}
    (hbn : b < cx.f.numBlocks) (hbs : ∀ b', b' ∈ bs ↔ b < b' ∧ b' < cx.f.numBlocks) (G : Glob cx C bs s eb ea)
    (hat : AtEnd cx b s) (h : allocBlock cx s b = .ok s') : ∃ eb' ea', Glob cx C (b :: bs) s' eb' ea' := by
  have he := hf.env
  have hnin : ∀ i ∈ cx.f.blockInsts b, ∀ b' ∈ bs, i ∉ cx.f.blockInsts b' := by
    intro i hi b' hb' hi'
    have := hf.apart b b' i hbn ((hbs b').mp hb').2 hi hi'
    have := ((hbs b').mp hb').1
    omega
  have hB : BOk cx C (DefIn cx bs) b := by
    refine ⟨hf.ne b hbn, hf.iok b hbn, hf.last b hbn, hf.br b hbn, ?_, hf.defUse b hbn, hf.defDef b hbn⟩
    rintro i hi w hud hd
    obtain ⟨b', hb', hd⟩ := hd.single
    have hb'' := (hbs b').mp hb'
    rcases hud with hu | hd'
    · have := hf.useOrder b b' i w hbn hb''.2 hi hu hd; omega
    · have := hf.defOnce b b' w hbn hb''.2 ⟨b, by simp, .inr ⟨i, hi, hd'⟩⟩ hd; omega
  unfold allocBlock at h
  split at h
  · cases h
  · next t ht =>
    have hKw : ∀ w, ((∃ i ∈ cx.f.blockInsts b, DDi cx i w) → ∃ b', b < b' ∧ b' < cx.f.numBlocks ∧ ReadIn cx b' w) →
        SlotAtDef cx b w := by
      intro w hw s0 pre i post u hs0 hl hu
      unfold AtEnd at hat hs0
      rw [hat] at hs0
      cases hs0
      refine defTrace_end he hB G.bb (fun i hi => G.allocs i (hnin i hi)) ?_ G.inv G.reused post pre i u hl hu
      rintro j hj _ hd rfl
      obtain ⟨b'', h1, h2, h3⟩ := hw ⟨j, hj, hd⟩
      exact (G.live b'' ((hbs b'').mpr ⟨h1, h2⟩) _ h3).resolve_right (hB.pend j hj _ (.inr hd))
    obtain ⟨ebB, eaB, Bd⟩ := body_pre (K := SlotAtDef cx b) he hB G.bb (fun i hi => G.allocs i (hnin i hi)) (pre := []) (post := cx.f.blockInsts b) rfl (by
        intro e
        have h1 := congrArg List.length e
        have h2 := hf.ne b hbn
        simp [Func.blockInsts] at h1
        omega) G.inv G.reused (by
        intro pre i post u hl hu s1 nc s2 h1 h2 pre' x post' t' hl' ht' hk hKx
        exact hKx s pre i post u hat hl hu s1 nc s2 h1 h2 pre' x post' t' hl' ht' hk rfl) ht
    have hP' : ∀ w, DefIn cx (b :: bs) w ↔ (DefIn cx bs w ∨ ∃ i ∈ cx.f.blockInsts b, DDi cx i w) ∨
        ∃ v ∈ cx.f.params b, v.vreg = w := by
      intro w
      unfold DefIn
      simp only [List.mem_cons]
      constructor
      · rintro ⟨b', rfl | hb', h | h⟩
        · exact .inr h
        · exact .inl (.inr h)
        · exact .inl (.inl ⟨b', hb', .inl h⟩)
        · exact .inl (.inl ⟨b', hb', .inr h⟩)
      · rintro ((⟨b', hb', h⟩ | h) | h)
        · exact ⟨b', .inr hb', h⟩
        · exact ⟨b, .inl rfl, .inr h⟩
        · exact ⟨b, .inl rfl, .inl h⟩
    obtain ⟨I', bb', R, _⟩ := reloadAtBegin_spec (P' := DefIn cx (b :: bs)) he Bd.inv (hf.parNodup b hbn) (by
        rintro v hv (hd | ⟨i, hi, hd⟩)
        · obtain ⟨b', hb', hd⟩ := hd.single
          have hb'' := (hbs b').mp hb'
          have := hf.defOnce b b' v.vreg hbn hb''.2 ⟨b, by simp, .inl ⟨v, hv, rfl⟩⟩ hd
          omega
        · exact hf.parDef b hbn v hv i hi hd) hP' (hf.pred b hbn) h
    have hns := reloadAtBegin_ns h
    obtain ⟨E, hE, hSE⟩ := R.tr
    obtain ⟨is, his, hnis⟩ := blockInsts_cons (hf.ne b hbn)
    have hsl : ∀ v n, s.slot v = some n → s'.slot v = some n := fun v n hv => R.slot v n (Bd.slot v n hv)
    have halB : ∀ i ∈ cx.f.blockInsts b, s'.allocs i = t.allocs i := fun i _ => by rw [R.allocs]
    have halG : ∀ b' ∈ bs, ∀ i ∈ cx.f.blockInsts b', s'.allocs i = s.allocs i := fun b' hb' i hi => by
      rw [R.allocs, Bd.allocs i (fun hx => hnin i hx b' hb' hi)]
    have hmono : ∀ w, s.alloc w ≠ Allocation.none ∨ DefIn cx bs w → s'.alloc w ≠ Allocation.none ∨ DefIn cx (b :: bs) w := by
      intro w hw
      rcases hw with hw | hw
      · rcases Bd.allocMono w hw with h1 | h1
        · exact (R.mono I' h1).imp_right (fun h => (hP' w).mpr (.inr h))
        · exact .inr ((hP' w).mpr (.inl (.inr h1)))
      · exact .inr ((hP' w).mpr (.inl (.inl hw)))
    have hmonoB : ∀ w, t.alloc w ≠ Allocation.none ∨ (∃ i ∈ cx.f.blockInsts b, DDi cx i w) →
        s'.alloc w ≠ Allocation.none ∨ DefIn cx (b :: bs) w := by
      intro w hw
      rcases hw with h1 | h1
      · exact (R.mono I' h1).imp_right (fun h => (hP' w).mpr (.inr h))
      · exact .inr ((hP' w).mpr (.inl (.inr h1)))
    classical
    refine ⟨fun i => if i ∈ cx.f.blockInsts b then set1 ebB (cx.f.insns b).1 (E ++ ebB (cx.f.insns b).1) i else eb i,
      fun i => if i ∈ cx.f.blockInsts b then eaB i else ea i, ?_⟩
    constructor
    · exact I'
    · exact bb'
    · rw [R.reused, Bd.reused]
    · intro i hi k
      have h1 : i ∉ cx.f.blockInsts b := hi b (by simp)
      rw [R.allocs, Bd.allocs i h1]
      exact G.allocs i (fun b' hb' => hi b' (by simp [hb'])) k
    · intro b' hb' i hi
      rcases List.mem_cons.mp hb' with rfl | hb'
      · exact (Bd.good i hi).mono (halB i hi) R.slot
      · exact (G.good b' hb' i hi).mono (halG b' hb' i hi) hsl
    · intro b' hb' w hw
      rcases List.mem_cons.mp hb' with rfl | hb'
      · rcases hw with ⟨i, hi, hu⟩ | ⟨hbr, x, hx, rfl⟩
        · exact hmonoB w (Bd.live i hi w hu)
        · exact hmonoB _ (Bd.args hbr x hx)
      · exact hmono w (G.live b' hb' w hw)
    · rw [hE, Bd.edits, G.edits, List.flatMap_cons, editsOf_append]
      have e1 : editsOf (fun i => if i ∈ cx.f.blockInsts b then set1 ebB (cx.f.insns b).1 (E ++ ebB (cx.f.insns b).1) i else eb i)
          (fun i => if i ∈ cx.f.blockInsts b then eaB i else ea i) (cx.f.blockInsts b) =
          editsOf (set1 ebB (cx.f.insns b).1 (E ++ ebB (cx.f.insns b).1)) eaB (cx.f.blockInsts b) :=
        editsOf_congr (fun i hi => by rw [if_pos hi]) (fun i hi => by rw [if_pos hi])
      have hno : ∀ i ∈ bs.flatMap cx.f.blockInsts, i ∉ cx.f.blockInsts b := by
        intro i hi hx
        obtain ⟨b', hb', hi'⟩ := List.mem_flatMap.mp hi
        exact hnin i hx b' hb' hi'
      have e2 : editsOf (fun i => if i ∈ cx.f.blockInsts b then set1 ebB (cx.f.insns b).1 (E ++ ebB (cx.f.insns b).1) i else eb i)
          (fun i => if i ∈ cx.f.blockInsts b then eaB i else ea i) (bs.flatMap cx.f.blockInsts) =
          editsOf eb ea (bs.flatMap cx.f.blockInsts) :=
        editsOf_congr (fun i hi => by rw [if_neg (hno i hi)]) (fun i hi => by rw [if_neg (hno i hi)])
      rw [e1, e2, his, editsOf_pre hnis, List.append_assoc]
    · intro b' hb'
      rcases List.mem_cons.mp hb' with rfl | hb'
      · exact hKw
      · exact G.late b' hb'
    · intro F hF b' hb'
      rcases List.mem_cons.mp hb' with rfl | hb'
      · refine BlockTr.congr (eb := set1 ebB (cx.f.insns b').1 (E ++ ebB (cx.f.insns b').1)) (ea := eaB) (al := t.allocs) ?_
          (fun i hi => by rw [if_pos hi]) (fun i hi => by rw [if_pos hi]) halB
        intro Val sem junk Lend LOut Vp V A tr a1 a2 a3 a4 a5
        have hFt : Fin F t := hF.back R.slot hns
        have hS' : Sat F s' (liveB cx LOut (cx.f.blockInsts b')) (liveB cx LOut (cx.f.blockInsts b')) (fun _ _ => False)
            (fun w => V (C w)) A := by
          refine ⟨?_, a5, fun _ _ h => h.elim⟩
          intro w hw hn
          obtain ⟨n, e1, e2⟩ := (bb' w).resolve_left hn
          rw [e2]
          exact a5 w n hw (hF.ok.ext w n e1)
        have hSt := hSE F _ _ A hF.ok hS'
        have := Bd.tr sem junk F Lend LOut Vp V (execE E A) tr hFt a1 a2 (fun w hw => hKw w (a3 w hw)) a4
          (hSt.weaken (fun _ h => h) (fun _ h => h.2) (fun _ _ h => h))
        refine ⟨?_, ?_⟩
        · have := this.1
          rw [his] at this ⊢
          rw [runA_pre hnis]
          exact this
        · intro pre post e hne w hl
          have h2 := this.2 pre post e hne w hl
          cases pre with
          | nil =>
            rw [List.nil_append] at e; subst e
            exact ⟨fun n _ hw => a5 w n hl hw, fun _ _ _ _ h => absurd rfl h⟩
          | cons x pre =>
            rw [his, List.cons_append, List.cons.injEq] at e
            obtain ⟨rfl, e⟩ := e
            rw [runM_pre (fun hx => hnis (by rw [e]; exact List.mem_append_left _ hx))]
            refine ⟨h2.1, fun s0 u hs0 hu _ => h2.2 u ?_⟩
            unfold AtEnd at hat hs0
            rw [hat] at hs0
            cases hs0
            exact hu
      · have hF' : Fin F s := hF.back hsl (Bd.ns.trans hns)
        refine (G.tr F hF' b' hb').congr ?_ ?_ (halG b' hb')
        · intro i hi
          rw [if_neg (fun hx => hnin i hx b' hb' hi)]
        · intro i hi
          rw [if_neg (fun hx => hnin i hx b' hb' hi)]

theorem init_glob (hf : FnOk cx C) : Glob cx C [] (FS.init cx) (fun _ => []) (fun _ => []) := by
  have hno : ∀ w, ¬ DefIn cx [] w := by rintro w ⟨b, hb, _⟩; cases hb
  refine ⟨?_, fun w => .inl rfl, rfl, fun _ _ _ => rfl, by simp, by simp, rfl, by simp, by simp⟩
  refine ⟨fun w => .inl rfl, ?_, ?_, ?_, fun w h => absurd h (hno w), ?_, ?_, ?_, ?_, Nat.zero_le _, ?_, lruOk_init hf.env⟩
  · intro v p h; exact absurd h.symm (reg_ne_none p)
  · intro p x h; cases h
  · intro p x h; cases h
  · intro p x h; cases h
  · intro p x h; cases h
  · intro v n h; cases h
  · intro v w n h; cases h
  · exact ⟨[], VRegSet.new_inv _, by simp, fun v h => absurd rfl h⟩

theorem atEnd_of {pre post : List Nat} {b : Nat} (hl : (List.range cx.f.numBlocks).reverse = pre ++ b :: post) {s : FS}
    (h : pre.foldlM (allocBlock cx) (FS.init cx) = .ok s) : AtEnd cx b s := by
  have hl' : List.range cx.f.numBlocks = post.reverse ++ b :: pre.reverse := by
    have := congrArg List.reverse hl
    simpa using this
  have hlen := congrArg List.length hl'
  simp only [List.length_range, List.length_append, List.length_cons, List.length_reverse] at hlen
  have hb : post.length = b := by
    have h1 : (List.range cx.f.numBlocks)[post.length]? = some b := by
      rw [hl', List.getElem?_append_right (by simp)]
      simp
    rw [List.getElem?_range (by omega)] at h1
    exact Option.some.inj h1
  have h2 : pre.reverse = List.range' (b + 1) (cx.f.numBlocks - (b + 1)) := by
    have h3 : (List.range cx.f.numBlocks).drop (b + 1) = pre.reverse := by
      rw [hl', List.drop_append, List.drop_of_length_le (by simp; omega)]
      simp [hb]
    rw [← h3, List.range_eq_range', List.drop_range']
    simp
  unfold AtEnd
  rw [← h2, List.reverse_reverse]
  exact h

theorem runEnv_spec (hf : FnOk cx C) {t : FS} (h : runEnv cx = .ok t) :
    ∃ eb ea, Glob cx C (List.range cx.f.numBlocks) t eb ea := by
  unfold runEnv at h
  have key := foldlM_inv (fun pre t => pre.foldlM (allocBlock cx) (FS.init cx) = .ok t ∧ ∃ eb ea, Glob cx C pre.reverse t eb ea)
    ⟨rfl, _, _, init_glob hf⟩ (by
    rintro pre b post s s' hl ⟨hrun, eb, ea, G⟩ hs
    refine ⟨foldlM_snoc hrun hs, ?_⟩
    rw [List.reverse_append, List.reverse_singleton, List.singleton_append]
    have hl' : List.range cx.f.numBlocks = post.reverse ++ b :: pre.reverse := by
      have := congrArg List.reverse hl
      simpa using this
    have hpw : (List.range cx.f.numBlocks).Pairwise (· < ·) := List.pairwise_lt_range
    rw [hl', List.pairwise_append] at hpw
    refine glob_step hf (by rw [← List.mem_range, hl']; simp) ?_ G (atEnd_of hl hrun) hs
    intro b'
    constructor
    · intro hb'
      refine ⟨(List.pairwise_cons.mp hpw.2.1).1 b' hb', ?_⟩
      rw [← List.mem_range, hl']
      simp only [List.mem_append, List.mem_cons]
      exact .inr (.inr hb')
    · rintro ⟨h1, h2⟩
      rw [← List.mem_range, hl'] at h2
      simp only [List.mem_append, List.mem_cons] at h2
      rcases h2 with h2 | rfl | h2
      · have := hpw.2.2 b' h2 b (by simp)
        omega
      · omega
      · exact h2) h
  rw [List.reverse_reverse] at key
  exact key.2

end Fast
end Regalloc
