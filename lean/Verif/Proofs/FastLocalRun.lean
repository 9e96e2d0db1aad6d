import Verif.Proofs.FastLocal
import Verif.Proofs.FastDebugSim

/-
Single-pass allocator: where a register that is only read in registers is reported.
-/
namespace Regalloc
namespace Fast
open Exec Debug

variable {cx : Cx} {C : Nat → VReg} {w : Nat}

/-- As long as it has no slot, the register is recorded where it is. -/
structure D2 (w : Nat) (st : FS × Dbg) : Prop where
  q : Qw w st.1
  loc : st.1.slot w = none → st.1.alloc w ≠ Allocation.none → (st.2 w).2.2 = st.1.alloc w

theorem D2.step {Cc : Prop} {st st' : FS × Dbg} (h : D2 w st) (k : Wk w False Cc st.1 st'.1)
    (hd : (st'.2 w).2.2 = (st.2 w).2.2) : D2 w st' := by
  refine ⟨k.q h.q, fun hn ha => ?_⟩
  have hn' := k.slotNone h.q hn
  have ha' : st.1.alloc w ≠ Allocation.none := fun e => ha (k.none h.q e hn (fun x => x))
  rw [hd, h.loc hn' ha', (k.keep h.q ha').2 hn]

/-- A register that becomes live is recorded in the operand's location. -/
theorem processOperand_fresh {s s' : FS} {i k : Nat} {o : Op} (q : Qw o.vreg.vreg s) (ha : s.alloc o.vreg.vreg = Allocation.none)
    (hna : o.asFixedNonallocatable = none) (hc : RegC o.constraint) (h : processOperand cx s i o k = .ok s') :
    s'.alloc o.vreg.vreg = s'.allocs i k := by
  unfold processOperand at h
  rw [hna] at h
  dsimp only at h
  split at h
  · cases h
  · next hw =>
    exfalso
    unfold withinConstraint at hw
    dsimp only at hw
    rw [ha] at hw
    rcases hc with hc | ⟨p, hc⟩
    · rw [hc] at hw
      dsimp only at hw
      split at hw
      · cases hw
      · rw [asReg_none] at hw; cases hw
    · rw [hc] at hw
      dsimp only at hw
      rw [asReg_none] at hw
      cases hw
  · rw [ha] at h
    split at h
    · cases h
    · next a s1 h1 =>
      rw [isNone_none, if_pos rfl] at h
      unfold allocOperand at h1
      split at h1
      · cases h1
      · cases h1
        unfold becomeLive at h
        split at h
        · cases h
        · cases h
          have hal : ∀ (t : FS) x, (t.setIn a x).alloc = t.alloc ∧ (t.setIn a x).allocs = t.allocs := by
            intro t x; unfold FS.setIn; split <;> exact ⟨rfl, rfl⟩
          rw [(hal _ _).1, (hal _ _).2]
          dsimp only [FS.setAllocs]
          rw [set1_same, set1_same, set1_same]

theorem opD2 {b i : Nat} {x : Nat × Op} (hwm : w ≠ VReg.MAX)
    (hc : x.2.kind = .Def → (x.2.constraint ≠ .Any ∧ x.2.constraint ≠ .Stack) ∧ x.2.vreg.vreg ≠ w)
    (hu : x.2.kind = .Use → x.2.vreg.vreg = w → RegC x.2.constraint) {st st' : FS × Dbg} (h : D2 w st)
    (hs : stepD (allocOp cx b i) (dbgOp i) st x = .ok st') : D2 w st' := by
  unfold stepD at hs
  split at hs
  · cases hs
  · next s1 h1 =>
    have hs := Except.ok.inj hs
    subst hs
    by_cases e : x.2.vreg.vreg = w
    · have hk : x.2.kind = .Use := by
        cases hk : x.2.kind with
        | Use => rfl
        | Def => exact absurd e (hc hk).2
      have hna : x.2.asFixedNonallocatable = none := na_none (by rw [e]; exact hwm)
      have k : Wk w True False st.1 s1 := allocOp_wk hc (fun k e => ⟨trivial, hu k e⟩) h1
      refine ⟨k.q h.q, fun hn ha => ?_⟩
      have hn' := k.slotNone h.q hn
      show (dbgOp i st.2 st.1 s1 x w).2.2 = _
      have hd : dbgOp i st.2 st.1 s1 x = dbgOperand st.2 st.1 s1 i x.1 x.2 := by unfold dbgOp; rw [hk]
      rw [hd]
      unfold dbgOperand
      by_cases hl : st.1.alloc w = Allocation.none
      · rw [if_neg (by rw [hna, e]; simp [hl]), e, set1_same]
        dsimp only
        symm
        unfold allocOp at h1
        rw [hk] at h1
        dsimp only at h1
        unfold allocUse at h1
        rw [← e] at hl ⊢
        split at h1
        · split at h1
          · cases h1
          · next p hp =>
            exact processOperand_fresh (o := { x.2 with constraint := .FixedReg p }) (by rw [e]; exact h.q) hl
              (na_none (by dsimp only; rw [e]; exact hwm)) (.inr ⟨p, rfl⟩) h1
        · exact processOperand_fresh (by rw [e]; exact h.q) hl hna (hu hk e) h1
      · rw [if_pos (.inr (by rw [e]; exact hl)), h.loc hn' hl, (k.keep h.q hl).2 hn]
    · have k : Wk w False False st.1 s1 := allocOp_wk hc (fun _ e' => absurd e' e) h1
      refine h.step (st' := (s1, dbgOp i st.2 st.1 s1 x)) k ?_
      · show (dbgOp i st.2 st.1 s1 x w).2.2 = _
        rw [dbgOp_ne (fun _ => e)]

theorem opsD2 {b i : Nat} (hwm : w ≠ VReg.MAX) {l : List (Nat × Op)}
    (hc : ∀ x ∈ l, x.2.kind = .Def → (x.2.constraint ≠ .Any ∧ x.2.constraint ≠ .Stack) ∧ x.2.vreg.vreg ≠ w)
    (hu : ∀ x ∈ l, x.2.kind = .Use → x.2.vreg.vreg = w → RegC x.2.constraint) {st st' : FS × Dbg} (h : D2 w st)
    (hs : l.foldlM (stepD (allocOp cx b i) (dbgOp i)) st = .ok st') : D2 w st' :=
  foldlM_pres (D2 w) h (fun x hx _ _ h' hs' => opD2 hwm (hc x hx) (hu x hx) h' hs') hs

theorem instD2 (he : EnvOk cx) {b i : Nat} (hwm : w ≠ VReg.MAX) (hi : WInst cx w b i) {st st' : FS × Dbg} (h : D2 w st)
    (hs : allocInstD cx b st i = .ok st') : D2 w st' := by
  unfold allocInstD at hs
  split at hs
  · cases hs
  next s1 nc h1 =>
  split at hs
  · cases hs
  next s2 h2 =>
  split at hs
  · cases hs
  next s3 d3 h3 =>
  split at hs
  · cases hs
  next s4 h4 =>
  split at hs
  · cases hs
  next s5 d5 h5 =>
  have hs := Except.ok.inj hs
  subst hs
  have a2 : D2 w (s2, st.2) := h.step (Cc := False) ((instSetup_wk h1).trans (instEvict_wk h2)) rfl
  rw [instOpsD_eq] at h3
  have a3 := opsD2 hwm (fun x hx => hi.def' x (mem_opsAt_all hx)) (fun x hx => hi.use x (mem_opsAt_all hx)) a2 h3
  have a4 : D2 w (s4, d3) := a3.step (Cc := False) (foldlM_wk (fun x _ t t' => useMove_wk) h4) rfl
  have a5 : D2 w (s5, d5) := by
    split at h5
    · have hp : processBranch cx s4 b i = .ok s5 := by rw [← processBranchD_fst (s4, d3), h5]; rfl
      refine a4.step (Cc := True) (processBranch_wk he trivial hi.par hp) ?_
      unfold processBranchD at h5
      split at h5
      · cases h5
      · next r d hr =>
        split at h5
        · cases h5
        · have h5 := Except.ok.inj h5
          cases h5
          exact (branchD hr w).2
    · cases h5; exact a4
  exact a5.step (Cc := False) (Wk.of_eq rfl rfl rfl) rfl

theorem reloadD_eq {b : Nat} (hp : ∀ v ∈ cx.f.params b, v.vreg ≠ w) {stm st' : FS × Dbg}
    (hs : reloadAtBeginD cx stm b = .ok st') : (st'.2 w).2.2 = (stm.2 w).2.2 := by
  unfold reloadAtBeginD at hs
  split at hs
  · cases hs
  · next s1 d1 h2 =>
    split at hs
    · cases hs
    · have hs := Except.ok.inj hs
      subst hs
      have : (s1, d1).2 w = stm.2 w := by
        refine foldlM_pres (s := (reset cx stm.1, stm.2)) (s' := (s1, d1)) (fun t : FS × Dbg => t.2 w = stm.2 w) rfl ?_ h2
        intro v hv t t' ht hf
        unfold stepD at hf
        split at hf
        · cases hf
        · have hf := Except.ok.inj hf
          subst hf
          show dbgParam cx b t.2 t.1 _ v w = _
          unfold dbgParam
          split
          · exact ht
          · rw [set1_ne _ _ (fun e => hp v hv e.symm)]; exact ht
      show (d1 w).2.2 = _
      rw [show d1 w = stm.2 w from this]

theorem blockD2 (he : EnvOk cx) {b : Nat} (hwm : w ≠ VReg.MAX) (hi : ∀ i ∈ cx.f.blockInsts b, WInst cx w b i)
    (hp : ∀ v ∈ cx.f.params b, v.vreg ≠ w) {st st' : FS × Dbg} (h : D2 w st)
    (hs : allocBlockD cx st b = .ok st') : D2 w st' := by
  unfold allocBlockD at hs
  split at hs
  · cases hs
  · next stm hm =>
    have h1 : D2 w stm := foldlM_pres (D2 w) h (fun i hx _ _ h' hs' => instD2 he hwm (hi i (List.mem_reverse.mp hx)) h' hs') hm
    have hre : reloadAtBegin cx stm.1 b = .ok st'.1 := by rw [← reloadAtBeginD_fst, hs]; rfl
    exact h1.step (Cc := True) (reloadAtBegin_wk trivial hp hre) (reloadD_eq hp hs)

theorem D2.init (w : Nat) : D2 w (FS.init cx, Dbg.init) := by
  refine ⟨⟨?_, ?_, ?_⟩, fun _ h => absurd rfl h⟩
  · intro n h; cases h
  · intro _; rfl
  · intro _ p x h; cases h

/-! ### The definition -/

/-- Stepping to the operand that defines the register. -/
theorem inst_split (he : EnvOk cx) {b i : Nat} (hi : IOk cx C i) {st st' : FS × Dbg} (h : allocInstD cx b st i = .ok st')
    {s1 s2 : FS} {nc : Nat} (h1 : instSetup cx st.1 i = .ok (s1, nc)) (h2 : instEvict cx s1 nc i = .ok s2)
    {pre post : List (Nat × Op)} {x : Nat × Op} (hl : opsAt cx i .Late ++ opsAt cx i .Early = pre ++ x :: post)
    (hk : x.2.kind = .Def) {t : FS} (ht : pre.foldlM (allocOp cx b i) s2 = .ok t) :
    ∃ dt s', pre.foldlM (stepD (allocOp cx b i) (dbgOp i)) (s2, st.2) = .ok (t, dt) ∧ allocOp cx b i t x = .ok s' ∧
      NS s' st'.1 ∧ (st'.2 x.2.vreg.vreg).2.2 = (dbgOp i dt t s' x x.2.vreg.vreg).2.2 := by
  have hns := hi.defsConstr
  obtain ⟨q1, q2, q3, q4, q5⟩ := ops_order hl
  unfold allocInstD at h
  rw [h1] at h
  dsimp only at h
  rw [h2] at h
  dsimp only at h
  split at h
  · cases h
  next s3 d3 h3 =>
  split at h
  · cases h
  next s4 h4 =>
  split at h
  · cases h
  next s5 d5 h5 =>
  have h := Except.ok.inj h
  subst h
  rw [instOpsD_eq, hl, foldlM_append] at h3
  split at h3
  · cases h3
  next sp hp =>
  have e : sp.1 = t := by
    have := foldlM_fst (stepD_fst (allocOp cx b i) (dbgOp i)) pre (s2, st.2)
    rw [hp, ht] at this
    exact Except.ok.inj this
  obtain ⟨t', dt⟩ := sp
  dsimp only at e
  subst e
  rw [List.foldlM_cons] at h3
  dsimp only [bind, Except.bind] at h3
  split at h3
  · cases h3
  next sx hx =>
  unfold stepD at hx
  split at hx
  · cases hx
  next s' hs' =>
  have hx := Except.ok.inj hx
  subst hx
  have hm : ∀ y ∈ post, y ∈ cx.opsOf i := fun y hy => mem_opsAt_all (by rw [hl]; simp [hy])
  obtain ⟨n1, hw⟩ := opsD (fun y hy => hns y (hm y hy)) h3
  have hne : ∀ y ∈ post, y.2.asFixedNonallocatable = none → y.2.vreg.vreg ≠ x.2.vreg.vreg := by
    intro y hy hna e
    obtain ⟨p1, p2, hpp⟩ := List.append_of_mem hy
    have hl' : opsAt cx i .Late ++ opsAt cx i .Early = (pre ++ x :: p1) ++ y :: p2 := by rw [hl, hpp]; simp
    have hq := (ops_order hl').2.1
    refine hi.defUniq x.1 y.1 x.2 y.2 q1 (mem_opsOf.mp (hm y hy)) ?_ hk hna e.symm
    intro e'
    exact hq ⟨x.2, by rw [← e']; simp⟩
  obtain ⟨a1, -⟩ := hw x.2.vreg.vreg (fun y hy _ hna => hne y hy hna)
  have a1 := a1 (fun y hy hk' => hne y hy (hi.defNa y.1 y.2 (mem_opsOf.mp (hm y hy)) hk'))
  have n4 : NS s3 s4 := foldlM_ns (fun x _ t t' hx => useMove_ns hx) h4
  have h5' : NS s4 s5 ∧ (d5 x.2.vreg.vreg).2.2 = (d3 x.2.vreg.vreg).2.2 := by
    split at h5
    · have hp : processBranch cx s4 b i = .ok s5 := by rw [← processBranchD_fst (s4, d3), h5]; rfl
      refine ⟨processBranch_ns he hp, ?_⟩
      unfold processBranchD at h5
      split at h5
      · cases h5
      · next r d hr =>
        split at h5
        · cases h5
        · have h5 := Except.ok.inj h5
          cases h5
          exact (branchD hr _).2
    · cases h5; exact ⟨NS.refl _, rfl⟩
  refine ⟨dt, s', hp, hs', n1.trans (n4.trans (h5'.1.trans (NS.of_eq rfl rfl))), ?_⟩
  show (d5 x.2.vreg.vreg).2.2 = _
  rw [h5'.2]
  exact congrArg (fun z => z.2.2) a1

/-- A register defined while it has no slot gets none. -/
theorem def_noslot (he : EnvOk cx) {b i : Nat} (hi : IOk cx C i) {P0 W : Nat → Prop} {s s' : FS} {loc : Nat → Option Allocation}
    {done : Nat → Prop} {k : Nat} {o : Op} (st : Stp cx C P0 i W s loc done)
    (ho : (cx.f.operands i)[k]? = some o) (hk : o.kind = .Def) (hnd : ¬ done k)
    (ord : o.pos = .Late → ∀ (k' : Nat) o', (cx.f.operands i)[k']? = some o' → done k' → o'.pos = .Late)
    (hP0 : ¬ P0 o.vreg.vreg) (q : Qw o.vreg.vreg s) (hs : s.slot o.vreg.vreg = none) (ha : s.alloc o.vreg.vreg ≠ Allocation.none)
    (h : allocDef cx s b i o k = .ok s') : s'.slot o.vreg.vreg = none := by
  have hna := hi.defNa k o ho hk
  have hnP := not_PD (P0 := P0) hi ho hna hnd hP0
  have hdP : ∀ (k' : Nat) o', (cx.f.operands i)[k']? = some o' → done k' → o'.kind = .Def →
      PD cx i P0 done o'.vreg.vreg := fun k' o' h1 h2 h3 => .inr ⟨k', o', h1, h2, h3, rfl⟩
  unfold allocDef at h
  split at h
  · cases h
  · next s1 h1 =>
    obtain ⟨eo, hef, h1, hcon, hreg⟩ := defOperand_eff (loc := loc) (done := done) hi ho hk h1
    obtain ⟨a, po⟩ := processOperand_spec he hi st.inv st.scr st.j hef ho hna hnd ord hdP hnP h1
    have kw : Wk o.vreg.vreg True True s s1 := processOperand_wk (fun _ => ⟨trivial, hreg⟩) h1
    have h0 : s1.slot o.vreg.vreg = none := by
      cases e : s1.slot o.vreg.vreg with
      | none => rfl
      | some n =>
        have e1 := ((kw.q q).at' n e).1
        have e2 : s1.alloc o.vreg.vreg = s.alloc o.vreg.vreg := po.allocV ha
        rcases st.inv.alloc o.vreg.vreg with h' | ⟨p, x, h', _⟩ | ⟨n', h', _⟩
        · exact absurd h' ha
        · rw [e2, h'] at e1
          exact absurd e1 (reg_ne_stk (po.inv.slot29 e))
        · rw [hs] at h'; cases h'
    split at h
    · cases h
    · next s2 h2 =>
      unfold storeDef at h2
      rw [h0] at h2
      cases h2
      unfold freealloc at h
      dsimp only at h
      split at h
      · cases h
      · split at h
        · cases h
        · cases h; exact h0

/-! ### The whole run -/

/-- Every instruction that reads the register reads it in a register. -/
def RegReads (f : Func) (w : Nat) : Prop :=
  ∀ b, b < f.numBlocks → ∀ i ∈ f.blockInsts b, ∀ o ∈ f.operands i, o.kind = .Use → o.vreg.vreg = w → RegC o.constraint

section
variable (he : EnvOk cx) (hf : FuncOk cx.f C)
include he hf

theorem glob_at {preB postB : List Nat} {b : Nat} (hl : (List.range cx.f.numBlocks).reverse = preB ++ b :: postB) {s : FS}
    (h : preB.foldlM (allocBlock cx) (FS.init cx) = .ok s) :
    (∃ eb ea, Glob cx C preB.reverse s eb ea) ∧ (∀ b', b' ∈ preB.reverse ↔ b < b' ∧ b' < cx.f.numBlocks) := by
  have H := fnOk he hf
  have hbs : ∀ {preB postB : List Nat} {b : Nat}, (List.range cx.f.numBlocks).reverse = preB ++ b :: postB →
      ∀ b', b' ∈ preB.reverse ↔ b < b' ∧ b' < cx.f.numBlocks := by
    intro pre post b hl b'
    have hl' : List.range cx.f.numBlocks = post.reverse ++ b :: pre.reverse := by
      have := congrArg List.reverse hl
      simpa using this
    have hpw : (List.range cx.f.numBlocks).Pairwise (· < ·) := List.pairwise_lt_range
    rw [hl', List.pairwise_append] at hpw
    constructor
    · intro hb'
      refine ⟨(List.pairwise_cons.mp hpw.2.1).1 b' hb', ?_⟩
      rw [← List.mem_range, hl']
      simp only [List.mem_append, List.mem_cons]
      exact .inr (.inr hb')
    · rintro ⟨h1, h2⟩
      rw [← List.mem_range, hl'] at h2
      simp only [List.mem_append, List.mem_cons] at h2
      rcases h2 with h2 | rfl | h2
      · have := hpw.2.2 b' h2 b (by simp)
        omega
      · omega
      · exact h2
  refine ⟨?_, hbs hl⟩
  have key := foldlM_inv (fun pre (t : FS) => pre.foldlM (allocBlock cx) (FS.init cx) = .ok t ∧
      ∃ eb ea, Glob cx C pre.reverse t eb ea) ⟨rfl, _, _, init_glob H⟩ (by
    rintro pre b' post s s' hp ⟨hrun, eb, ea, G⟩ hs
    rw [List.reverse_append, List.reverse_singleton, List.singleton_append]
    have hl2 : (List.range cx.f.numBlocks).reverse = pre ++ b' :: (post ++ b :: postB) := by rw [hl, hp]; simp
    have hbn : b' < cx.f.numBlocks := by rw [← List.mem_range, ← List.mem_reverse, hl2]; simp
    obtain ⟨eb', ea', G'⟩ := glob_step H hbn (hbs hl2) G (atEnd_of hl2 hrun) hs
    exact ⟨foldlM_snoc hrun hs, eb', ea', G'⟩) h
  exact key.2

theorem bok_at {b : Nat} {bs : List Nat} (hbn : b < cx.f.numBlocks) (hbs : ∀ b', b' ∈ bs ↔ b < b' ∧ b' < cx.f.numBlocks) :
    BOk cx C (DefIn cx bs) b := by
  have H := fnOk he hf
  refine ⟨H.ne b hbn, H.iok b hbn, H.last b hbn, H.br b hbn, ?_, H.defUse b hbn, H.defDef b hbn⟩
  rintro i hi w hud hd
  obtain ⟨b', hb', hd⟩ := hd.single
  have hb'' := (hbs b').mp hb'
  rcases hud with hu | hd'
  · have := H.useOrder b b' i w hbn hb''.2 hi hu hd; omega
  · have := H.defOnce b b' w hbn hb''.2 ⟨b, by simp, .inr ⟨i, hi, hd'⟩⟩ hd; omega

theorem winst_of {b0 i0 b i : Nat} (hb0 : b0 < cx.f.numBlocks) (hi0 : i0 ∈ cx.f.blockInsts b0) (hd0 : DDi cx i0 w)
    (hb : b < cx.f.numBlocks) (hi : i ∈ cx.f.blockInsts b) (hne : i ≠ i0) (hw : RegReads cx.f w) : WInst cx w b i := by
  have H := fnOk he hf
  have hio := H.iok b hb i hi
  constructor
  · intro x hx hk
    refine ⟨hio.defsConstr x hx hk, ?_⟩
    intro e
    have hd : DDi cx i w := ⟨x.1, x.2, mem_opsOf.mp hx, ⟨x.2, mem_opsOf.mp hx⟩, hk, e⟩
    have := H.defOnce b b0 w hb hb0 ⟨b, by simp, .inr ⟨i, hi, hd⟩⟩ ⟨b0, by simp, .inr ⟨i0, hi0, hd0⟩⟩
    subst this
    exact hne (H.defDef b hb i hi i0 hi0 w hd hd0)
  · intro x hx hk e
    exact hw b hb i hi x.2 (List.mem_of_getElem? (mem_opsOf.mp hx)) hk e
  · intro x hx p hp e
    obtain ⟨k, s, j, v, hs, hv, rfl⟩ := mem_pairs.mp hx
    have hpm : p ∈ cx.f.params s := List.mem_of_getElem? hp
    have hsn := hf.succs b hb s (List.mem_of_getElem? hs)
    have := H.defOnce s b0 w hsn hb0 ⟨s, by simp, .inl ⟨p, hpm, e⟩⟩ ⟨b0, by simp, .inr ⟨i0, hi0, hd0⟩⟩
    subst this
    exact H.parDef s hsn p hpm i0 hi0 (by rw [e]; exact hd0)

theorem nopar_of {b0 i0 b : Nat} (hb0 : b0 < cx.f.numBlocks) (hi0 : i0 ∈ cx.f.blockInsts b0) (hd0 : DDi cx i0 w)
    (hb : b < cx.f.numBlocks) : ∀ v ∈ cx.f.params b, v.vreg ≠ w := by
  have H := fnOk he hf
  intro p hpm e
  have := H.defOnce b b0 w hb hb0 ⟨b, by simp, .inl ⟨p, hpm, e⟩⟩ ⟨b0, by simp, .inr ⟨i0, hi0, hd0⟩⟩
  subst this
  exact H.parDef b hb p hpm i0 hi0 (by rw [e]; exact hd0)

/-- The run up to the operand that defines the register, and what is reported in the end. -/
theorem run_split {tf : FS} {df : Dbg} (h : runEnvD cx = .ok (tf, df)) {b i : Nat} (hb : b < cx.f.numBlocks)
    {pre post : List Nat} (hsp : cx.f.blockInsts b = pre ++ i :: post) {ops1 ops2 : List (Nat × Op)} {x : Nat × Op}
    (hop : opsAt cx i .Late ++ opsAt cx i .Early = ops1 ++ x :: ops2) (hk : x.2.kind = .Def)
    (hw : RegReads cx.f x.2.vreg.vreg) :
    ∃ bs s u s1 nc s2 t dt s' eb ea, AtEnd cx b s ∧ (∀ b', b' ∈ bs ↔ b < b' ∧ b' < cx.f.numBlocks) ∧ Glob cx C bs s eb ea ∧
      Qw x.2.vreg.vreg s ∧
      post.reverse.foldlM (allocInst cx b) s = .ok u ∧ instSetup cx u i = .ok (s1, nc) ∧ instEvict cx s1 nc i = .ok s2 ∧
      ops1.foldlM (allocOp cx b i) s2 = .ok t ∧ D2 x.2.vreg.vreg (t, dt) ∧ allocOp cx b i t x = .ok s' ∧ NS s' tf ∧
      (df x.2.vreg.vreg).2.2 = (dbgOp i dt t s' x x.2.vreg.vreg).2.2 := by
  have H := fnOk he hf
  have hi : i ∈ cx.f.blockInsts b := by rw [hsp]; simp
  have hxo := (ops_order hop).1
  obtain ⟨w, ew⟩ : ∃ w, w = x.2.vreg.vreg := ⟨_, rfl⟩
  rw [← ew] at hw ⊢
  have hio := H.iok b hb i hi
  have hwm : w ≠ VReg.MAX := by
    have := (hio.vreg x.1 x.2 hxo (hio.defNa x.1 x.2 hxo hk)).2
    have := hio.max
    omega
  have hd0 : DDi cx i w := ⟨x.1, x.2, hxo, ⟨x.2, hxo⟩, hk, ew.symm⟩
  unfold runEnvD at h
  obtain ⟨preB, postB, hl⟩ := List.append_of_mem (List.mem_reverse.mpr (List.mem_range.mpr hb))
  have hltB : ∀ b' ∈ preB ++ b :: postB, b' < cx.f.numBlocks := by
    intro b' hb'
    rw [← hl] at hb'
    exact List.mem_range.mp (List.mem_reverse.mp hb')
  have hndB : (preB ++ b :: postB).Nodup := by
    rw [← hl]
    exact List.pairwise_reverse.mpr (List.nodup_range.imp (fun h => h.symm))
  rw [hl, foldlM_append] at h
  split at h
  · cases h
  next sd hsd =>
  rw [List.foldlM_cons] at h
  dsimp only [bind, Except.bind] at h
  split at h
  · cases h
  next se hse =>
  have hs : preB.foldlM (allocBlock cx) (FS.init cx) = .ok sd.1 := by
    rw [← foldlM_fst (allocBlockD_fst (cx := cx)) preB (FS.init cx, Dbg.init), hsd]; rfl
  obtain ⟨⟨eb, ea, G⟩, hbs⟩ := glob_at he hf hl hs
  have hne : ∀ b' ∈ preB ++ b :: postB, ∀ j ∈ cx.f.blockInsts b', b' ≠ b → j ≠ i := by
    rintro b' hb' j hj hn rfl
    exact hn (H.apart b' b j (hltB b' hb') hb hj hi)
  have hnb1 : ∀ b' ∈ preB, b' ≠ b := by
    intro b' hb'
    exact (List.nodup_append.mp hndB).2.2 b' hb' b (by simp)
  have hnb2 : ∀ b' ∈ postB, b' ≠ b := by
    rintro b' hb' rfl
    exact (List.nodup_cons.mp (List.nodup_append.mp hndB).2.1).1 hb'
  have Ds : D2 w sd := by
    refine foldlM_pres (D2 w) (D2.init w) ?_ hsd
    intro b' hb' _ _ h' hs'
    have hbn := hltB b' (List.mem_append_left _ hb')
    exact blockD2 he hwm (fun j hj => winst_of he hf hb hi hd0 hbn hj (hne b' (List.mem_append_left _ hb') j hj (hnb1 b' hb')) hw)
      (nopar_of he hf hb hi hd0 hbn) h' hs'
  unfold allocBlockD at hse
  split at hse
  · cases hse
  next sm hsm =>
  have hrev : (cx.f.blockInsts b).reverse = post.reverse ++ i :: pre.reverse := by rw [hsp]; simp
  rw [hrev, foldlM_append] at hsm
  split at hsm
  · cases hsm
  next ud hud =>
  rw [List.foldlM_cons] at hsm
  dsimp only [bind, Except.bind] at hsm
  split at hsm
  · cases hsm
  next ue hue =>
  have hsorted : (cx.f.blockInsts b).Pairwise (· < ·) := List.pairwise_lt_range'
  rw [hsp, List.pairwise_append] at hsorted
  have hpost : ∀ j ∈ post, i < j := (List.pairwise_cons.mp hsorted.2.1).1
  have hpre : ∀ j ∈ pre, j < i := fun j hj => hsorted.2.2 j hj i (by simp)
  have Du : D2 w ud := by
    refine foldlM_pres (D2 w) Ds ?_ hud
    intro j hj _ _ h' hs'
    have hj := List.mem_reverse.mp hj
    refine instD2 he hwm (winst_of he hf hb hi hd0 hb (by rw [hsp]; simp [hj]) ?_ hw) h' hs'
    have := hpost j hj
    omega
  have hu : post.reverse.foldlM (allocInst cx b) sd.1 = .ok ud.1 := by
    rw [← foldlM_fst (allocInstD_fst (cx := cx) (b := b)) _ sd, hud]; rfl
  have hue' : allocInst cx b ud.1 i = .ok ue.1 := by rw [← allocInstD_fst, hue]; rfl
  obtain ⟨s1, nc, s2, s3, s4, s5, h1, h2, h3, h4, h5, e⟩ := allocInst_split hue'
  have h3 := instOps_eq h3
  rw [hop, foldlM_append] at h3
  split at h3
  · cases h3
  next t ht =>
  obtain ⟨dt, s', g1, g2, g3, g4⟩ := inst_split he hio hue h1 h2 hop hk ht
  rw [← ew] at g4
  have D0 : D2 w (s2, ud.2) := Du.step (Cc := False) ((instSetup_wk h1).trans (instEvict_wk h2)) rfl
  have hdef1 : ∀ y ∈ ops1, y ∈ cx.opsOf i := fun y hy => mem_opsAt_all (by rw [hop]; simp [hy])
  have hnw : ∀ y ∈ ops1, y.2.asFixedNonallocatable = none → y.2.vreg.vreg ≠ w := by
    intro y hy hna e
    refine hio.defUniq x.1 y.1 x.2 y.2 hxo (mem_opsOf.mp (hdef1 y hy)) ?_ hk hna (by rw [← ew, e])
    intro e'
    exact (ops_order hop).2.1 ⟨y.2, by rw [e']; exact hy⟩
  have Dt : D2 w (t, dt) := by
    refine opsD2 hwm (fun y hy hk' => ⟨hio.defsConstr y (hdef1 y hy) hk', ?_⟩) (fun y hy hk' e' => ?_) D0 g1
    · exact hnw y hy (hio.defNa y.1 y.2 (mem_opsOf.mp (hdef1 y hy)) hk')
    · exact hw b hb i hi y.2 (List.mem_of_getElem? (mem_opsOf.mp (hdef1 y hy))) hk' e'
  -- what follows does not touch the record
  have hnotUD : ∀ b' , b' < cx.f.numBlocks → b' ≤ b → ∀ j ∈ cx.f.blockInsts b', j < i → ¬ UU cx j w ∧ ¬ DDi cx j w := by
    intro b' hb' hle j hj hlt
    constructor
    · intro hu'
      have := H.useOrder b' b j w hb' hb hj hu' ⟨b, by simp, .inr ⟨i, hi, hd0⟩⟩
      have : b' = b := by omega
      subst this
      have := H.defUse b' hb i hi j hj w hd0 hu'
      omega
    · intro hd'
      have := H.defOnce b' b w hb' hb ⟨b', by simp, .inr ⟨j, hj, hd'⟩⟩ ⟨b, by simp, .inr ⟨i, hi, hd0⟩⟩
      subst this
      have := H.defDef b' hb i hi j hj w hd0 hd'
      omega
  have hreload : ∀ (b' : Nat) (q q' : FS × Dbg), b' < cx.f.numBlocks → reloadAtBeginD cx q b' = .ok q' →
      NS q.1 q'.1 ∧ (q'.2 w).2.2 = (q.2 w).2.2 := by
    intro b' q q' hb' hq
    have hre : reloadAtBegin cx q.1 b' = .ok q'.1 := by rw [← reloadAtBeginD_fst, hq]; rfl
    exact ⟨reloadAtBegin_ns hre, reloadD_eq (nopar_of he hf hb hi hd0 hb') hq⟩
  obtain ⟨n1, i1⟩ := instsD (C := C) he (l := pre.reverse)
    (fun j hj => H.iok b hb j (by rw [hsp]; simp [List.mem_reverse.mp hj])) hsm
  have i1 := (i1 w).1 (fun j hj => hnotUD b hb (Nat.le_refl _) j (by rw [hsp]; simp [List.mem_reverse.mp hj])
    (hpre j (List.mem_reverse.mp hj)))
  obtain ⟨n2, i2⟩ := hreload b sm se hb hse
  have hrest : NS se.1 tf ∧ (df w).2.2 = (se.2 w).2.2 := by
    have := foldlM_inv (fun _ (q : FS × Dbg) => NS se.1 q.1 ∧ (q.2 w).2.2 = (se.2 w).2.2) ⟨NS.refl _, rfl⟩ (by
      rintro pr b' po q q' hpp ⟨z1, z2⟩ hq
      have hb'm : b' ∈ postB := by rw [hpp]; simp
      have hb' : b' < cx.f.numBlocks := hltB b' (by simp [hb'm])
      have hnb := hnb2 b' hb'm
      have hlt : b' < b := by
        rcases Nat.lt_trichotomy b' b with h | h | h
        · exact h
        · exact absurd h hnb
        · have := (hbs b').mpr ⟨h, hb'⟩
          have := (List.nodup_append.mp hndB).2.2 b' (List.mem_reverse.mp this) b' (by simp [hb'm])
          exact absurd rfl this
      unfold allocBlockD at hq
      split at hq
      · cases hq
      next qm hqm =>
      obtain ⟨n3, i3⟩ := instsD (C := C) he (l := (cx.f.blockInsts b').reverse)
        (fun j hj => H.iok b' hb' j (List.mem_reverse.mp hj)) hqm
      have i3 := (i3 w).1 (fun j hj => by
        have hj := List.mem_reverse.mp hj
        refine hnotUD b' hb' (by omega) j hj ?_
        have h4 := insns_mono hf hlt hb
        rw [mem_blockInsts] at hj hi
        omega)
      obtain ⟨n4, i4⟩ := hreload b' qm q' hb' hq
      exact ⟨z1.trans (n3.trans n4), by rw [i4, i3, z2]⟩) h
    exact this
  refine ⟨preB.reverse, sd.1, ud.1, s1, nc, s2, t, dt, s', eb, ea, atEnd_of hl hs, hbs, G, Ds.q, hu, h1, h2, ht, Dt, g2, ?_, ?_⟩
  · exact g3.trans (n1.trans (n2.trans hrest.1))
  · rw [hrest.2, i2, i1, g4]

/-- Where a register defined in block `b` is reported: in the slot where it was when defined, or else
where it was at every point after its definition, as long as it was somewhere. -/
theorem local_loc {tf : FS} {df : Dbg} (h : runEnvD cx = .ok (tf, df)) {b : Nat} (hb : b < cx.f.numBlocks)
    (hd : ∃ i ∈ cx.f.blockInsts b, DDi cx i w) (hw : RegReads cx.f w) :
    (SlotAtDef cx b w ∧ ∃ n, tf.slot w = some n ∧ (df w).2.2 = stk n) ∨
    ∃ bs s eb ea, AtEnd cx b s ∧ (∀ b', b' ∈ bs ↔ b < b' ∧ b' < cx.f.numBlocks) ∧ Glob cx C bs s eb ea ∧ ∀ pre post u, cx.f.blockInsts b = pre ++ post → (∃ i ∈ pre, DDi cx i w) →
      post.reverse.foldlM (allocInst cx b) s = .ok u → u.alloc w ≠ Allocation.none → u.alloc w = (df w).2.2 := by
  have H := fnOk he hf
  by_cases hsl : SlotAtDef cx b w
  · left
    refine ⟨hsl, ?_⟩
    obtain ⟨i, hi, k, o, ho, _, hk, rfl⟩ := hd
    obtain ⟨pre, post, hsp⟩ := List.append_of_mem hi
    have hm : (k, o) ∈ opsAt cx i .Late ++ opsAt cx i .Early := by
      rw [List.mem_append]
      cases hp : o.pos with
      | Late => exact .inl (mem_opsAt.mpr ⟨ho, hp⟩)
      | Early => exact .inr (mem_opsAt.mpr ⟨ho, hp⟩)
    obtain ⟨ops1, ops2, hop⟩ := List.append_of_mem hm
    obtain ⟨bs, s, u, s1, nc, s2, t, dt, s', eb, ea, a1, a2, a3, aq, a4, a5, a6, a7, a8, a9, a10, a11⟩ :=
      run_split he hf h hb hsp hop hk hw
    obtain ⟨n, e1, e2⟩ := hsl s pre i post u a1 hsp a4 s1 nc s2 a5 a6 ops1 (k, o) ops2 t hop a7 hk rfl
    have e3 : s'.slot o.vreg.vreg = some n :=
      (allocOp_ns (fun hk' => (H.iok b hb i hi).defsConstr (k, o) (mem_opsOf.mpr ho) hk') a9).old _ _ e1
    refine ⟨n, a10.old _ _ e3, ?_⟩
    rw [a11, dbgOp_def (x := (k, o)) hk e3]
  · right
    unfold SlotAtDef DefTrace DefAtSlot at hsl
    simp only [Classical.not_forall] at hsl
    obtain ⟨s0, pre, i, post, u0, z1, hsp, z2, s10, nc0, s20, z3, z4, ops1, x, ops2, t0, hop, z5, hk, ew, hno⟩ := hsl
    have ew : x.2.vreg.vreg = w := ew
    subst ew
    obtain ⟨bs, s, u, s1, nc, s2, t, dt, s', eb, ea, a1, a2, a3, aq, a4, a5, a6, a7, a8, a9, a10, a11⟩ :=
      run_split he hf h hb hsp hop hk hw
    have e0 : s0 = s := by unfold AtEnd at z1 a1; rw [z1] at a1; exact Except.ok.inj a1
    subst e0
    rw [z2] at a4; cases a4
    rw [z3] at a5; cases a5
    rw [z4] at a6; cases a6
    rw [z5] at a7; cases a7
    have hi : i ∈ cx.f.blockInsts b := by rw [hsp]; simp
    have hio := H.iok b hb i hi
    have hxo := (ops_order hop).1
    have hd0 : DDi cx i x.2.vreg.vreg := ⟨x.1, x.2, hxo, ⟨x.2, hxo⟩, hk, rfl⟩
    have hts : t0.slot x.2.vreg.vreg = none := by
      cases e : t0.slot x.2.vreg.vreg with
      | none => rfl
      | some n => exact absurd ⟨n, e, (a8.q.at' n e).1⟩ hno
    refine ⟨bs, s0, eb, ea, z1, a2, a3, ?_⟩
    intro pre2 post2 u2 hsp2 hdp hu2 hal
    have hsorted : (cx.f.blockInsts b).Pairwise (· < ·) := List.pairwise_lt_range'
    have hip : i ∈ pre2 := by
      obtain ⟨i', hi', hd'⟩ := hdp
      rw [H.defDef b hb i hi i' (by rw [hsp2]; simp [hi']) _ hd0 hd']
      exact hi'
    obtain ⟨mid, hmid⟩ : ∃ mid, post = mid ++ post2 := by
      obtain ⟨p1, p2, hp⟩ := List.append_of_mem hip
      rw [hsp2, hp] at hsp
      rw [hsp2, hp] at hsorted
      rw [List.append_assoc, List.cons_append] at hsp hsorted
      refine ⟨p2, ?_⟩
      rcases List.append_eq_append_iff.mp hsp with ⟨a, e1, e2⟩ | ⟨c, e1, e2⟩
      · cases a with
        | nil => rw [List.nil_append, List.cons.injEq] at e2; exact e2.2.symm
        | cons y a =>
          rw [List.cons_append, List.cons.injEq] at e2
          have h1 := (List.pairwise_append.mp hsorted).2.1
          have := (List.pairwise_cons.mp h1).1 i (by rw [e2.2]; simp)
          omega
      · cases c with
        | nil => rw [List.nil_append, List.cons.injEq] at e2; exact e2.2
        | cons y c =>
          rw [List.cons_append, List.cons.injEq] at e2
          have := (List.pairwise_append.mp hsorted).2.2 y (by rw [e1]; simp) i (by simp)
          omega
    have hpost : ∀ j ∈ post, j ∈ cx.f.blockInsts b ∧ i < j := by
      rw [hsp, List.pairwise_append] at hsorted
      exact fun j hj => ⟨by rw [hsp]; simp [hj], (List.pairwise_cons.mp hsorted.2.1).1 j hj⟩
    have hwi : ∀ j ∈ post, WInst cx x.2.vreg.vreg b j := fun j hj => by
      have := hpost j hj
      exact winst_of he hf hb hi hd0 hb this.1 (by omega) hw
    have k1 : Wk x.2.vreg.vreg True True s0 u2 := foldlM_wk (fun j hj _ _ =>
      allocInst_wk he (hwi j (by rw [hmid]; simp [List.mem_reverse.mp hj]))) hu2
    have k2 : Wk x.2.vreg.vreg True True u2 u0 := by
      rw [hmid, List.reverse_append, foldlM_append, hu2] at z2
      exact foldlM_wk (fun j hj _ _ => allocInst_wk he (hwi j (by rw [hmid]; simp [List.mem_reverse.mp hj]))) z2
    have hdef1 : ∀ y ∈ ops1, y ∈ cx.opsOf i := fun y hy => mem_opsAt_all (by rw [hop]; simp [hy])
    have k3 : Wk x.2.vreg.vreg True True s20 t0 := by
      refine foldlM_wk (fun y hy _ _ => allocOp_wk (fun hk' => ⟨hio.defsConstr y (hdef1 y hy) hk', ?_⟩) (fun hk' e' => ⟨trivial, ?_⟩)) z5
      · intro e
        refine hio.defUniq x.1 y.1 x.2 y.2 hxo (mem_opsOf.mp (hdef1 y hy)) ?_ hk
          (hio.defNa y.1 y.2 (mem_opsOf.mp (hdef1 y hy)) hk') e.symm
        intro e'
        exact (ops_order hop).2.1 ⟨y.2, by rw [e']; exact hy⟩
      · exact hw b hb i hi y.2 (List.mem_of_getElem? (mem_opsOf.mp (hdef1 y hy))) hk' e'
    have k4 : Wk x.2.vreg.vreg True True u2 t0 := k2.trans (((instSetup_wk z3).trans (instEvict_wk z4)).trans k3)
    obtain ⟨c1, c2⟩ := k4.keep (k1.q aq) hal
    have c2 := c2 hts
    have hdt : (dt x.2.vreg.vreg).2.2 = t0.alloc x.2.vreg.vreg := a8.loc hts c1
    -- the state when the definition is processed
    have hB := bok_at he hf hb a2
    have hnin : ∀ j ∈ cx.f.blockInsts b, ∀ b' ∈ bs, j ∉ cx.f.blockInsts b' := by
      intro j hj b' hb' hj'
      have := H.apart b b' j hb ((a2 b').mp hb').2 hj hj'
      have := ((a2 b').mp hb').1
      omega
    have hst : ∃ P0 : Nat → Prop, Inv cx C P0 u0 ∧ u0.reused = (fun _ => none) ∧ (∀ k, u0.allocs i k = Allocation.none) ∧
        (∀ (k : Nat) o, (cx.f.operands i)[k]? = some o → o.asFixedNonallocatable = none → ¬ P0 o.vreg.vreg) := by
      have hud : ∀ (k : Nat) o, (cx.f.operands i)[k]? = some o → o.asFixedNonallocatable = none →
          UU cx i o.vreg.vreg ∨ DDi cx i o.vreg.vreg := by
        intro k o ho hn
        cases hk : o.kind with
        | Use => exact .inl ⟨k, o, ho, hk, hn, rfl⟩
        | Def => exact .inr ⟨k, o, ho, ⟨o, ho⟩, hk, rfl⟩
      by_cases hnp : post = []
      · subst hnp
        have hu : s0 = u0 := Except.ok.inj z2
        subst hu
        exact ⟨_, a3.inv, a3.reused, a3.allocs i (hnin i hi), fun k o ho hn => hB.pend i hi _ (hud k o ho hn)⟩
      · obtain ⟨eb', ea', hBd⟩ := body_pre (K := fun _ => False) he hB a3.bb (fun j hj => a3.allocs j (hnin j hj))
          (pre := pre ++ [i]) (by rw [hsp]; simp) hnp a3.inv a3.reused
          (fun _ _ _ _ _ _ _ _ _ _ _ _ _ _ _ _ _ _ h => h.elim) z2
        refine ⟨_, hBd.inv, hBd.reused, fun k => by
          rw [hBd.allocs i (fun hx => by have := (hpost i hx).2; omega)]; exact a3.allocs i (hnin i hi) k, ?_⟩
        intro k o ho hn
        rintro (hp | ⟨j, hj, hd⟩)
        · exact hB.pend i hi _ (hud k o ho hn) hp
        · have hlt := (hpost j hj).2
          rcases hud k o ho hn with hu | hd'
          · have := hB.defUse j (hpost j hj).1 i hi _ hd hu; omega
          · have := hB.defDef j (hpost j hj).1 i hi _ hd hd'; omega
    obtain ⟨P0, I0, hr0, hal0, hP0⟩ := hst
    obtain ⟨st0, _⟩ := start_spec (b := b) he hio I0 hr0 hal0 z3 z4
    obtain ⟨loc, st1, _⟩ := opsPre_spec (K := fun _ => False) he hio hP0 st0
      (fun _ _ _ _ _ _ _ h => h.elim) hop z5
    obtain ⟨q1, q2, q3, q4, q5⟩ := ops_order hop
    have hs' : s'.slot x.2.vreg.vreg = none := by
      unfold allocOp at a9
      rw [hk] at a9
      refine def_noslot he hio st1 hxo hk q2 ?_ (hP0 x.1 x.2 hxo (hio.defNa x.1 x.2 hxo hk)) a8.q hts c1 a9
      rintro hp k' o' ho' ⟨o2, hd⟩
      have := q3 k' o2 hd
      rw [ho'] at this; cases this
      exact q4 hp k' o' hd
    rw [a11]
    unfold dbgOp
    rw [hk]
    dsimp only
    unfold dbgDef
    rw [set1_same, hs']
    dsimp only
    unfold dbgOperand
    rw [if_pos (.inr c1), hdt, c2]

omit he in
theorem readLater_back {b j : Nat} (hb : b < cx.f.numBlocks) (hj : j ∈ cx.f.blockInsts b)
    (hn : ∀ i ∈ List.range' (cx.f.insns b).1 (j - (cx.f.insns b).1), ¬ DDi cx i w) (h : FastDebug.ReadLater cx.f b j w) :
    FastDebug.ReadLater cx.f b (cx.f.insns b).1 w := by
  rw [mem_blockInsts] at hj
  have hsp : List.range' (cx.f.insns b).1 ((cx.f.insns b).2 - (cx.f.insns b).1) =
      List.range' (cx.f.insns b).1 (j - (cx.f.insns b).1) ++ List.range' j ((cx.f.insns b).2 - j) := by
    have h1 := List.range'_append_1 (s := (cx.f.insns b).1) (m := j - (cx.f.insns b).1) (n := (cx.f.insns b).2 - j)
    rw [show (cx.f.insns b).1 + (j - (cx.f.insns b).1) = j from by omega] at h1
    rw [h1]
    congr 1
    omega
  have hw : Liveness.Access.write w ∉
      (List.range' (cx.f.insns b).1 (j - (cx.f.insns b).1)).flatMap (fun i => Liveness.instTrace (cx.f.operands i)) := by
    intro hm
    obtain ⟨i, hi, hm⟩ := List.mem_flatMap.mp hm
    refine hn i hi ?_
    have : ∀ p, w ∈ Liveness.regsAt (cx.f.operands i) .Def p → DDi cx i w := by
      intro p hp
      unfold Liveness.regsAt at hp
      obtain ⟨o, ho, e⟩ := List.mem_map.mp hp
      obtain ⟨h1, h2⟩ := List.mem_filter.mp ho
      obtain ⟨k, hk⟩ := List.mem_iff_getElem?.mp h1
      have := of_decide_eq_true h2
      exact ⟨k, o, hk, ⟨o, hk⟩, this.1, e⟩
    unfold Liveness.instTrace at hm
    simp only [List.mem_append, List.mem_map, Liveness.Access.write.injEq, reduceCtorEq, and_false, exists_false, or_false, false_or,
      exists_eq_right] at hm
    rcases hm with hm | hm
    · exact this _ hm
    · exact this _ hm
  obtain ⟨t, hx, p, q, e, hnw⟩ := h
  refine ⟨(List.range' (cx.f.insns b).1 (j - (cx.f.insns b).1)).flatMap (fun i => Liveness.instTrace (cx.f.operands i)) ++ t, ?_, _, q,
    by rw [e, ← List.append_assoc], ?_⟩
  · unfold FastDebug.ExecFrom at hx ⊢
    dsimp only at hx ⊢
    rw [hsp, List.flatMap_append]
    rcases hx with rfl | ⟨i, c, t', h1, h2, rfl⟩
    · exact .inl rfl
    · exact .inr ⟨i, c, t', h1, h2, by rw [List.append_assoc]⟩
  · rw [List.mem_append, not_or]
    exact ⟨hw, hnw⟩

/-- The state between two instructions. -/
theorem mid_state {tf : FS} {df : Dbg} (h : runEnvD cx = .ok (tf, df)) {b : Nat} (hb : b < cx.f.numBlocks) {s : FS} (hat : AtEnd cx b s)
    {pre post : List Nat} (hsp : cx.f.blockInsts b = pre ++ post) : ∃ u, post.reverse.foldlM (allocInst cx b) s = .ok u := by
  have ht : runEnv cx = .ok tf := by rw [← runEnvD_fst, h]; rfl
  unfold runEnv at ht
  obtain ⟨preB, postB, hl⟩ := List.append_of_mem (List.mem_reverse.mpr (List.mem_range.mpr hb))
  rw [hl, foldlM_append] at ht
  split at ht
  · cases ht
  next s' hs' =>
  have hat' := atEnd_of hl hs'
  have e : s = s' := by unfold AtEnd at hat hat'; rw [hat] at hat'; exact Except.ok.inj hat'
  subst e
  rw [List.foldlM_cons] at ht
  dsimp only [bind, Except.bind] at ht
  split at ht
  · cases ht
  next se hse =>
  unfold allocBlock at hse
  split at hse
  · cases hse
  next sm hsm =>
  rw [hsp, List.reverse_append, foldlM_append] at hsm
  split at hsm
  · cases hsm
  next u hu => exact ⟨u, hu⟩

/-- A register still to be read is somewhere. -/
theorem live_alloc {b : Nat} {bs : List Nat} {s u : FS} {eb ea : Nat → List Edit} (hb : b < cx.f.numBlocks)
    (hbs : ∀ b', b' ∈ bs ↔ b < b' ∧ b' < cx.f.numBlocks) (G : Glob cx C bs s eb ea) {pre post : List Nat}
    (hsp : cx.f.blockInsts b = pre ++ post) (hne : post ≠ []) (hu : post.reverse.foldlM (allocInst cx b) s = .ok u)
    (hd : ∃ i ∈ pre, DDi cx i w) {ks : List Nat} (hl : liveB cx (LOutK cx b ks) post w) : u.alloc w ≠ Allocation.none := by
  have H := fnOk he hf
  have hB := bok_at he hf hb hbs
  have hnin : ∀ j ∈ cx.f.blockInsts b, ∀ b' ∈ bs, j ∉ cx.f.blockInsts b' := by
    intro j hj b' hb' hj'
    have := H.apart b b' j hb ((hbs b').mp hb').2 hj hj'
    have := ((hbs b').mp hb').1
    omega
  obtain ⟨eb', ea', Bd⟩ := body_pre (K := fun _ => False) he hB G.bb (fun j hj => G.allocs j (hnin j hj)) hsp hne G.inv G.reused
    (fun _ _ _ _ _ _ _ _ _ _ _ _ _ _ _ _ _ _ h => h.elim) hu
  obtain ⟨i, hi, hdi⟩ := hd
  have him : i ∈ cx.f.blockInsts b := by rw [hsp]; simp [hi]
  have hnd : ¬ ∃ j ∈ post, DDi cx j w := by
    rintro ⟨j, hj, hd'⟩
    have hsorted : (cx.f.blockInsts b).Pairwise (· < ·) := List.pairwise_lt_range'
    have h1 := H.defDef b hb i him j (by rw [hsp]; simp [hj]) w hdi hd'
    rw [hsp, List.pairwise_append] at hsorted
    have := hsorted.2.2 i hi j hj
    omega
  have key : ∀ (is : List Nat) (L : Nat → Prop), liveB cx L is w → (∃ j ∈ is, UU cx j w) ∨ L w := by
    intro is L
    induction is with
    | nil => exact .inr
    | cons j is ih =>
      rintro (h | ⟨h, _⟩)
      · exact .inl ⟨j, by simp, h⟩
      · rcases ih h with ⟨j', hj', h'⟩ | h'
        · exact .inl ⟨j', by simp [hj'], h'⟩
        · exact .inr h'
  rcases key post _ hl with ⟨j, hj, hu'⟩ | h'
  · exact (Bd.live j hj w hu').resolve_right hnd
  · cases ks with
    | nil => exact h'.elim
    | cons k ks =>
      unfold LOutK at h'
      dsimp only at h'
      cases hs : (cx.f.succs b)[k]? with
      | none => rw [hs] at h'; exact h'.elim
      | some c =>
        rw [hs] at h'
        dsimp only at h'
        have hcn := hf.succs b hb c (List.mem_of_getElem? hs)
        rcases h' with ⟨h', _⟩ | ⟨m, hm, e⟩
        · obtain ⟨b', h1, h2, h3⟩ := live_reader hf he hcn hb h' ⟨i, him, hdi⟩
          have hal : s.alloc w ≠ Allocation.none := by
            refine (G.live b' ((hbs b').mpr ⟨h1, h2⟩) w h3).resolve_right ?_
            exact hB.pend i him w (.inr hdi)
          exact (Bd.allocMono w hal).resolve_right hnd
        · obtain ⟨hbr, j, hj1, hj2⟩ := mem_edgeMoves hm
          have := Bd.args hbr (m.2, (cx.f.params c)[j]?) (mem_pairs.mpr ⟨k, c, j, m.2, hs, hj2, rfl⟩)
          rw [← e]
          refine this.resolve_right ?_
          rw [e]; exact hnd

/-- The location reported for a register that is only read in registers, and live within one block
only, holds its value wherever it is still to be read. -/
theorem local_holds {tf : FS} {df : Dbg} (h : runEnvD cx = .ok (tf, df)) {eb ea : Nat → List Edit}
    (G : Glob cx C (List.range cx.f.numBlocks) tf eb ea) {b j : Nat}
    (hb : b < cx.f.numBlocks) (hj : j ∈ cx.f.blockInsts b) (hst : ¬ FastDebug.LiveAtStart cx.f w) (hw : RegReads cx.f w)
    (hrl : FastDebug.ReadLater cx.f b j w) : FastDebug.HoldsBefore cx.f (outputOf cx tf) (C w) (df w).2.2 b j := by
  have hjm := hj
  rw [mem_blockInsts] at hj
  have hsp : cx.f.blockInsts b = List.range' (cx.f.insns b).1 (j - (cx.f.insns b).1) ++ List.range' j ((cx.f.insns b).2 - j) := by
    unfold Func.blockInsts
    have h1 := List.range'_append_1 (s := (cx.f.insns b).1) (m := j - (cx.f.insns b).1) (n := (cx.f.insns b).2 - j)
    rw [show (cx.f.insns b).1 + (j - (cx.f.insns b).1) = j from by omega] at h1
    rw [h1]
    congr 1
    omega
  have hne : List.range' j ((cx.f.insns b).2 - j) ≠ [] := by
    intro h
    have := congrArg List.length h
    simp at this
    omega
  have hdp : ∃ i ∈ List.range' (cx.f.insns b).1 (j - (cx.f.insns b).1), DDi cx i w := by
    by_cases hc : ∃ i ∈ List.range' (cx.f.insns b).1 (j - (cx.f.insns b).1), DDi cx i w
    · exact hc
    · exact absurd ⟨b, hb, readLater_back hf hb hjm (fun i hi hd => hc ⟨i, hi, hd⟩) hrl⟩ hst
  have hpne : List.range' (cx.f.insns b).1 (j - (cx.f.insns b).1) ≠ [] := by
    obtain ⟨i, hi, _⟩ := hdp
    exact List.ne_nil_of_mem hi
  obtain ⟨ks', hl⟩ := readLater_live hf hb hj.1 hrl
  have hL := local_loc he hf h hb (by
    obtain ⟨i, hi, hd⟩ := hdp
    exact ⟨i, by rw [hsp]; exact List.mem_append_left _ hi, hd⟩) hw
  intro Val sem junk ks V V' A A' trA trV h1 h2
  obtain ⟨e, hr, hA⟩ := reach_sim he hf G sem junk ks' ks _ .entry V A [] (by
    intro w n hl
    obtain ⟨v, hv, _⟩ := LIn_defined (hf.defined _) hl
    exact hv.elim) h1 h2
  subst e
  obtain ⟨m1, m2⟩ := mid_block he hf G sem junk ks' hr trA hA hsp hne hl
  have key : (runM cx.f eb ea tf.allocs sem junk (List.range' (cx.f.insns b).1 (j - (cx.f.insns b).1)) A' trA).1 (df w).2.2 =
      (origInsts cx.f sem (List.range' (cx.f.insns b).1 (j - (cx.f.insns b).1)) V' trA).1 (C w) := by
    rcases hL with ⟨hsl, n, e1, e2⟩ | ⟨bs, s, eb', ea', hat, hbs, G', hloc⟩
    · rw [e2]; exact m1 n hsl e1
    · obtain ⟨u, hu⟩ := mid_state he hf h hb hat hsp
      have hal := live_alloc he hf hb hbs G' hsp hne hu hdp hl
      rw [← hloc _ _ u hsp hdp hu hal]
      exact m2 s u hat hu hpne hal
  rw [← key]
  rw [if_neg (by
    intro hle
    apply hpne
    rw [show j - (cx.f.insns b).1 = 0 from by omega]
    rfl)]
  have hed : (outputOf cx tf).edits = editsOf eb ea (List.range' 0 cx.f.numInsts) := by
    show tf.edits = _
    rw [G.edits, insts_range hf]
  have hlt : j < cx.f.numInsts := inst_lt hf hb hjm
  unfold upTo
  rw [show 2 * j - 1 + 1 - 2 * (cx.f.insns b).1 = 2 * (j - (cx.f.insns b).1) from by
    have : (cx.f.insns b).1 < j := by
      rcases Nat.lt_or_ge (cx.f.insns b).1 j with h | h
      · exact h
      · exact absurd (by rw [show j - (cx.f.insns b).1 = 0 from by omega]; rfl) hpne
    omega]
  rw [allocItems_points (al := tf.allocs) hed (fun i hi => instAllocs_outputOf cx tf hi) _ _ _ _ (by omega)]

end

end Fast
end Regalloc
