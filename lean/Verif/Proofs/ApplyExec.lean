import Verif.Proofs.ApplyRun

/-
One instruction of the emitted code does what the instruction does on virtual registers.
-/
namespace Regalloc.Apply

open Exec ResolveMoves

section
variable {Val L : Type} [DecidableEq L]

theorem writes_at (pos : OperandPos) (g : Nat → Val) (ol : List (Op × L)) (σ : L → Val) {k : Nat} {o : Op} {l : L}
    (hk : ol[k]? = some (o, l)) (hd : o.kind = .Def) (hp : o.pos = pos)
    (h : ∀ (k' : Nat) q, ol[k']? = some q → k' ≠ k → q.1.kind = .Def → q.2 ≠ l) : writesFrom pos g 0 ol σ l = g k := by
  obtain ⟨hlt, hge⟩ := List.getElem?_eq_some_iff.mp hk
  have hspl : ol = ol.take k ++ (o, l) :: ol.drop (k + 1) := by
    rw [← hge, ← List.drop_eq_getElem_cons hlt, List.take_append_drop]
  have := Checker.writesFrom_at pos g 0 (ol.take k) (o, l) (ol.drop (k + 1)) σ hd hp (by
    intro q hq hqd _
    obtain ⟨j, hj⟩ := List.mem_iff_getElem?.mp hq
    rw [List.getElem?_drop] at hj
    exact h _ q hj (by omega) hqd)
  rw [← hspl] at this
  rw [this, List.length_take, Nat.min_eq_left (by omega), Nat.zero_add]

/-- A location no definition is written to. -/
theorem step_other (sem : InstSem Val) (i : Nat) (ol : List (Op × L)) (σ : L → Val) {l : L}
    (h : ∀ q ∈ ol, q.1.kind = .Def → q.2 ≠ l) : (stepInst sem i ol σ).2 l = σ l := by
  unfold stepInst
  dsimp only
  rw [Checker.writesFrom_other _ _ _ _ _ _ (fun q hq hd _ => h q hq hd), Checker.writesFrom_other _ _ _ _ _ _ (fun q hq hd _ => h q hq hd)]

/-- The value of a definition, given what was read. -/
def defVal (sem : InstSem Val) (i : Nat) (t : Nat × List Val × List Val) (o : Op) (k : Nat) : Val :=
  match o.pos with
  | .Early => sem.early i t.2.1 k
  | .Late => sem.late i t.2.1 t.2.2 k

/-- The location of a definition. -/
theorem step_def (sem : InstSem Val) (i : Nat) (ol : List (Op × L)) (σ : L → Val) {k : Nat} {o : Op} {l : L}
    (hk : ol[k]? = some (o, l)) (hd : o.kind = .Def)
    (h : ∀ (k' : Nat) q, ol[k']? = some q → k' ≠ k → q.1.kind = .Def → q.2 ≠ l) :
    (stepInst sem i ol σ).2 l = defVal sem i (stepInst sem i ol σ).1 o k := by
  unfold stepInst defVal
  dsimp only
  cases hp : o.pos with
  | Late => exact writes_at .Late _ ol _ hk hd hp h
  | Early =>
    rw [Checker.writesFrom_other .Late]
    · exact writes_at .Early _ ol _ hk hd hp h
    · intro q hq hqd hqp he
      obtain ⟨k', hk'⟩ := List.mem_iff_getElem?.mp hq
      by_cases hkk : k' = k
      · subst hkk
        rw [hk] at hk'
        cases hk'
        rw [hp] at hqp
        cases hqp
      · exact h k' q hk' hkk hqd he
end

variable {Val : Type}

/-- The operands of an instruction with their locations. -/
abbrev opLocs (f : Func) (al : Nat → Nat → Allocation) (i : Nat) : List (Op × Allocation) :=
  (f.operands i).zip ((List.range (f.operands i).length).map (al i))

theorem opLocs_get (f : Func) (al : Nat → Nat → Allocation) (i k : Nat) (q : Op × Allocation) :
    (opLocs f al i)[k]? = some q ↔ (f.operands i)[k]? = some q.1 ∧ q.2 = al i k := by
  rw [List.getElem?_zip_eq_some]
  constructor
  · rintro ⟨h1, h2⟩
    refine ⟨h1, ?_⟩
    rw [List.getElem?_map] at h2
    obtain ⟨hlt, _⟩ := List.getElem?_eq_some_iff.mp h1
    rw [List.getElem?_range hlt] at h2
    exact (Option.some.inj h2).symm
  · rintro ⟨h1, h2⟩
    refine ⟨h1, ?_⟩
    obtain ⟨hlt, _⟩ := List.getElem?_eq_some_iff.mp h1
    rw [List.getElem?_map, List.getElem?_range hlt, h2]
    rfl

theorem opLocs_mem (f : Func) (al : Nat → Nat → Allocation) (i : Nat) (q : Op × Allocation) (h : q ∈ opLocs f al i) :
    ∃ k : Nat, (f.operands i)[k]? = some q.1 ∧ q.2 = al i k := by
  obtain ⟨k, hk⟩ := List.mem_iff_getElem?.mp h
  exact ⟨k, (opLocs_get f al i k q).mp hk⟩

theorem vlocs_opLocs (f : Func) (al : Nat → Nat → Allocation) (i : Nat) :
    Checker.vlocs (opLocs f al i) = (f.operands i).map (fun o => (o, o.vreg)) :=
  Checker.vlocs_zip _ _ (by simp)

theorem vops_get (f : Func) (i k : Nat) (q : Op × VReg) :
    ((f.operands i).map (fun o => (o, o.vreg)))[k]? = some q ↔ (f.operands i)[k]? = some q.1 ∧ q.2 = q.1.vreg := by
  rw [List.getElem?_map, Option.map_eq_some_iff]
  constructor
  · rintro ⟨o, h, rfl⟩; exact ⟨h, rfl⟩
  · rintro ⟨h1, h2⟩; exact ⟨q.1, h1, by rw [← h2]⟩

section
variable {x : Env} {e : ResolveMoves.MoveEnv} {num : Nat} (hf : FuncOk x) (hv : Valid x e num)
  {ms : List InsertedMove} {allocs al1 al2 : Nat → Nat → Allocation} {srcs psrcs : Nat → Nat → Option Allocation}
  {pdests : List PDest} (D : Done x ms allocs srcs psrcs pdests al1 al2)
include hf hv D

theorem allocs_nonalloc {i k : Nat} {o : Op} {p : PReg} (hi : ∃ b, b < x.f.numBlocks ∧ i ∈ x.f.blockInsts b)
    (ho : (x.f.operands i)[k]? = some o) (hp : o.asFixedNonallocatable = some p) : allocs i k = Allocation.reg p := by
  rcases D.alloc3 i k with ⟨k', o', h1, h2, _⟩ | ⟨_, h1⟩
  · obtain ⟨_, _, o2, h3, _⟩ := hf.reuse i k' k o' h1 h2
    have := h3.2.1
    rw [ho] at this
    cases this
    have := h3.2.2
    rw [hp] at this
    cases this
  · rw [h1]
    rcases D.alloc2 i k with ⟨fx, h2, h3, h4, _⟩ | ⟨_, h2⟩
    · obtain ⟨o2, _, h5, _⟩ := fixup_op hv h2 h3
      rw [h4] at h5
      have := h5.2.1
      rw [ho] at this
      cases this
      have := h5.2.2
      rw [hp] at this
      cases this
    · rw [h2]
      exact al1_nonalloc hv D hi ho hp

/-- The location of a definition of another register differs from that of a range. -/
theorem def_apart {b i k v : Nat} {o : Op} {r : FRange} (hb : b < x.f.numBlocks) (hi : i ∈ x.f.blockInsts b)
    (ho : (x.f.operands i)[k]? = some o) (hd : o.kind = .Def) (hr : r ∈ x.ranges v) (h : r.Has (ptAfter i))
    (hne : ¬ (o.asFixedNonallocatable = none ∧ o.vreg.vreg = v)) : allocs i k ≠ r.alloc := by
  cases hn : o.asFixedNonallocatable with
  | some p =>
    rw [allocs_nonalloc hf hv D ⟨b, hb, hi⟩ ho hn]
    exact ((hv.nonalloc b hb i hi k o p ho hn).2 v r hr).symm
  | none =>
    have hoa : OpAt x.f i k o := ⟨⟨b, hb, hi⟩, ho, hn⟩
    obtain ⟨r', h1, _, _, _, _, h2, h3⟩ := al2_def hf hv D hoa hd
    rw [allocs_def hf hv D hoa hd, h3]
    have h4 := (hv.defs i k o hoa hd r' h1 h2).1
    refine hv.apart _ v (ptAfter i) (fun e => hne ⟨hn, e⟩) r' h1 r hr ⟨?_, ?_⟩ h
    · have h5 := h2.1
      rcases defPoint_or i o with h6 | h6 <;> rw [h6] at h5
      · exact Nat.le_trans h5 (Nat.le_succ _)
      · exact h5
    · have h4 : 2 * (i + 1) ≤ r'.range.to := h4
      show 2 * i + 1 < _
      omega

omit D in
/-- Different registers have different names. -/
theorem name_apart {b i k v : Nat} {o : Op} (hb : b < x.f.numBlocks) (hi : i ∈ x.f.blockInsts b)
    (ho : (x.f.operands i)[k]? = some o) {r : FRange} (hr : r ∈ x.ranges v)
    (hne : ¬ (o.asFixedNonallocatable = none ∧ o.vreg.vreg = v)) : o.vreg ≠ x.vreg v := by
  have hlt : v < x.numVregs := by
    rcases Nat.lt_or_ge v x.numVregs with h | h
    · exact h
    · rw [hv.only v h] at hr; cases hr
  have hmem := List.mem_of_getElem? ho
  intro he
  by_cases hn : o.asFixedNonallocatable = none
  · exact hne ⟨hn, by rw [he, hf.index v hlt]⟩
  · exact hv.nonalloc_name i o hmem hn v hlt he

/-- Everything an instruction needs is in place; `Q` says which values are right for a register. -/
structure Pre (x : Env) (allocs : Nat → Nat → Allocation) (i : Nat) (σ : Allocation → Val) (Q : Nat → Val → Prop) : Prop where
  uses : ∀ k o, OpAt x.f i k o → o.kind = .Use → Q o.vreg.vreg (σ (allocs i k))
  ranges : ∀ v, ∀ r ∈ x.ranges v, r.Has (ptAfter i) → ¬ DefAt x.f v (ptBefore i) → ¬ DefAt x.f v (ptAfter i) → Q v (σ r.alloc)

/-- After an instruction. -/
def Post (x : Env) (i : Nat) (σ : Allocation → Val) (Q : Nat → Val → Prop) : Prop :=
  ∀ v, ∀ r ∈ x.ranges v, r.Has (ptAfter i) → Q v (σ r.alloc)

/-- The value is that of the register. -/
def Is (x : Env) (V : VReg → Val) (v : Nat) (a : Val) : Prop := a = V (x.vreg v)

theorem late_use_range {i k : Nat} {o : Op} (ho : OpAt x.f i k o) (hk : o.kind = .Use) (hp : o.pos = .Late) :
    ∃ r ∈ x.ranges o.vreg.vreg, r.Has (ptAfter i) ∧ allocs i k = r.alloc := by
  have h1 : allocs i k = al2 i k := by
    rcases D.alloc3 i k with ⟨k', o', h1, h2, _⟩ | ⟨_, h1⟩
    · obtain ⟨_, _, o2, h3, _, h4, _⟩ := hf.reuse i k' k o' h1 h2
      have := ho.eq h3
      subst this
      rw [hp] at h4
      cases h4
    · exact h1
  rw [h1]
  rcases al2_op hf hv D ho with ⟨_, _, _, _, _, _, _, h⟩ | ⟨r, h2, _, _, _, _, h3, h4⟩
  · rw [hp] at h; cases h
  · refine ⟨r, h2, ?_, h4⟩
    have : Build.recordPoint x.f i o = ptAfter i := by
      unfold Build.recordPoint Build.usePoint
      rw [hk]
      dsimp only
      rw [if_pos (.inl hp)]
    rw [← this]
    exact h3

/-- The range in which a defined register is after the instruction is the one the definition is
recorded in, and no other operand defines the register. -/
theorem def_range {b i k : Nat} (hb : b < x.f.numBlocks) (hi : i ∈ x.f.blockInsts b) {o : Op} (ho : OpAt x.f i k o) (hd : o.kind = .Def)
    {r : FRange} (hr : r ∈ x.ranges o.vreg.vreg) (hhas : r.Has (ptAfter i)) :
    allocs i k = r.alloc ∧ ∀ (k' : Nat) o', (x.f.operands i)[k']? = some o' → k' ≠ k → o'.kind = .Def →
    ¬ (o'.asFixedNonallocatable = none ∧ o'.vreg.vreg = o.vreg.vreg) := by
  -- the other operands
  have hne : ∀ (k' : Nat) o', (x.f.operands i)[k']? = some o' → k' ≠ k → o'.kind = .Def →
      ¬ (o'.asFixedNonallocatable = none ∧ o'.vreg.vreg = o.vreg.vreg) := by
    intro k' o' g1 g2 g3 ⟨g4, g5⟩
    have := hf.ready.once i k' k o' o g1 ho.2.1 g2 g4 ho.2.2 g5
    rw [this] at g3
    cases g3
  -- the range has recorded the definition
  have hdp : r.Has (Build.defPoint i o) := by
    rcases defPoint_or i o with h1 | h1 <;> rw [h1]
    · apply has_before hf hv hr hhas
      rintro ⟨b', hb', i', hi', o', ho', g1, g2, g3, g4⟩
      have : i' = i := by
        have g5 := defPoint_div i' o'
        rw [← g4] at g5
        have g5 : (2 * i + 1) / 2 = i' := g5
        omega
      subst this
      obtain ⟨k', hk'⟩ := List.mem_iff_getElem?.mp ho'
      by_cases hkk : k' = k
      · subst hkk
        rw [ho.2.1] at hk'
        cases hk'
        rw [h1] at g4
        have g4 : 2 * i' + 1 = 2 * i' := g4
        omega
      · exact hne k' o' hk' hkk g2 ⟨g1, g3⟩
    · exact hhas
  obtain ⟨_, u, hu, hu1, hu2⟩ := hv.defs i k o ho hd r hr hdp
  obtain ⟨r', hr', u', hu', hu1', hu2', _, hal⟩ := al2_def hf hv D ho hd
  have hrr : r = r' := by
    refine hv.once _ r hr u hu r' hr' u' hu' ?_ (hu1.trans hu1'.symm)
    rw [hu2, hu2', recordPoint_div, defPoint_div]
  subst hrr
  have hal : allocs i k = r.alloc := by rw [allocs_def hf hv D ho hd, hal]
  exact ⟨hal, hne⟩

theorem inst_exec {b i : Nat} (hb : b < x.f.numBlocks) (hi : i ∈ x.f.blockInsts b) (sem : InstSem Val) (junk : Nat → Allocation → Val) (n : Nat)
    {σ : Allocation → Val} {V : VReg → Val} (P : Pre x allocs i σ (Is x V)) :
    (stepA x.f allocs sem junk i n σ).1 = (stepInst sem i ((x.f.operands i).map (fun o => (o, o.vreg))) V).1 ∧
    Post x i (stepA x.f allocs sem junk i n σ).2 (Is x (stepInst sem i ((x.f.operands i).map (fun o => (o, o.vreg))) V).2) := by
  have hin : ∃ b, b < x.f.numBlocks ∧ i ∈ x.f.blockInsts b := ⟨b, hb, hi⟩
  -- the values read
  have hearly : reads .Early (opLocs x.f allocs i) σ = reads .Early ((x.f.operands i).map (fun o => (o, o.vreg))) V := by
    rw [← vlocs_opLocs x.f allocs i]
    apply Checker.reads_eq
    intro q hq h1 h2 h3
    obtain ⟨k, h4, h5⟩ := opLocs_mem _ _ _ _ hq
    rw [h5]
    exact (P.uses k q.1 ⟨hin, h4, h3⟩ h1).trans (by rw [← (hf.named i q.1 (List.mem_of_getElem? h4) h3).1])
  have hlate : ∀ g, reads .Late (opLocs x.f allocs i) (writesFrom .Early g 0 (opLocs x.f allocs i) σ) =
      reads .Late ((x.f.operands i).map (fun o => (o, o.vreg))) (writesFrom .Early g 0 ((x.f.operands i).map (fun o => (o, o.vreg))) V) := by
    intro g
    conv => lhs; rw [Checker.reads_eq .Late (opLocs x.f allocs i) _ (writesFrom .Early g 0 ((x.f.operands i).map (fun o => (o, o.vreg))) V) (by
      intro q hq h1 h2 h3
      obtain ⟨k, h4, h5⟩ := opLocs_mem _ _ _ _ hq
      have ho : OpAt x.f i k q.1 := ⟨hin, h4, h3⟩
      obtain ⟨r, hr, hhas, hal⟩ := late_use_range hf hv D ho h1 h2
      have hnd : ∀ (k' : Nat) o', (x.f.operands i)[k']? = some o' → o'.kind = .Def →
          ¬ (o'.asFixedNonallocatable = none ∧ o'.vreg.vreg = q.1.vreg.vreg) := by
        intro k' o' g1 g2 ⟨g3, g4⟩
        have := not_def_of_use hf hv ho h1 (p := Build.defPoint i o') (defPoint_div i o')
        exact this ⟨b, hb, i, hi, o', List.mem_of_getElem? g1, g3, g2, g4, rfl⟩
      rw [Checker.writesFrom_other, Checker.writesFrom_other]
      · rw [h5]
        exact (P.uses k q.1 ho h1).trans (by rw [← (hf.named i q.1 (List.mem_of_getElem? h4) h3).1])
      · intro q' hq' g1 _
        obtain ⟨k', hk'⟩ := List.mem_iff_getElem?.mp hq'
        obtain ⟨g2, g3⟩ := (vops_get x.f i k' q').mp hk'
        rw [g3, (hf.named i q.1 (List.mem_of_getElem? h4) h3).1]
        exact name_apart hf hv hb hi g2 hr (hnd k' q'.1 g2 g1)
      · intro q' hq' g1 _
        obtain ⟨k', g2, g3⟩ := opLocs_mem _ _ _ _ hq'
        rw [g3, h5, hal]
        exact def_apart hf hv D hb hi g2 g1 hr hhas (hnd k' q'.1 g2 g1))]
    rw [vlocs_opLocs]
  have htr : (stepInst sem i (opLocs x.f allocs i) σ).1 = (stepInst sem i ((x.f.operands i).map (fun o => (o, o.vreg))) V).1 := by
    unfold stepInst
    dsimp only
    rw [hearly, hlate]
  refine ⟨htr, ?_⟩
  intro v r hr hhas
  unfold Is
  show (if r.alloc ∈ (x.f.clobbers i).map Allocation.reg then junk n r.alloc else (stepInst sem i (opLocs x.f allocs i) σ).2 r.alloc) = _
  rw [if_neg (by
    intro hm
    obtain ⟨p, hp, hpe⟩ := List.mem_map.mp hm
    exact hv.clobbers b hb i hi p hp v r hr hhas hpe.symm)]
  by_cases hdef : ∃ k o, OpAt x.f i k o ∧ o.kind = .Def ∧ o.vreg.vreg = v
  · obtain ⟨k, o, ho, hd, rfl⟩ := hdef
    obtain ⟨hal, hne⟩ := def_range hf hv D hb hi ho hd hr hhas
    rw [step_def sem i (opLocs x.f allocs i) σ (k := k) (o := o) ((opLocs_get _ _ _ _ _).mpr ⟨ho.2.1, hal.symm⟩) hd (by
      intro k' q g1 g2 g3
      obtain ⟨g4, g5⟩ := (opLocs_get _ _ _ _ _).mp g1
      rw [g5]
      exact def_apart hf hv D hb hi g4 g3 hr hhas (hne k' q.1 g4 g2 g3))]
    rw [htr]
    rw [← (hf.named i o (List.mem_of_getElem? ho.2.1) ho.2.2).1]
    rw [step_def sem i ((x.f.operands i).map (fun o => (o, o.vreg))) V (k := k) (o := o) ((vops_get _ _ _ _).mpr ⟨ho.2.1, rfl⟩) hd (by
      intro k' q g1 g2 g3
      obtain ⟨g4, g5⟩ := (vops_get _ _ _ _).mp g1
      rw [g5, (hf.named i o (List.mem_of_getElem? ho.2.1) ho.2.2).1]
      exact name_apart hf hv hb hi g4 hr (hne k' q.1 g4 g2 g3))]
  · have hne : ∀ (k' : Nat) o', (x.f.operands i)[k']? = some o' → o'.kind = .Def →
        ¬ (o'.asFixedNonallocatable = none ∧ o'.vreg.vreg = v) :=
      fun k' o' g1 g2 ⟨g3, g4⟩ => hdef ⟨k', o', ⟨hin, g1, g3⟩, g2, g4⟩
    have hnd : ∀ p, p / 2 = i → ¬ DefAt x.f v p := by
      rintro p hp ⟨b', hb', i', hi', o', ho', g1, g2, g3, g4⟩
      have : i' = i := by rw [← hp, g4, defPoint_div]
      subst this
      obtain ⟨k', hk'⟩ := List.mem_iff_getElem?.mp ho'
      exact hne k' o' hk' g2 ⟨g1, g3⟩
    rw [step_other, step_other]
    · exact P.ranges v r hr hhas (hnd _ (show 2 * i / 2 = i by omega)) (hnd _ (show (2 * i + 1) / 2 = i by omega))
    · intro q hq g1
      obtain ⟨k', hk'⟩ := List.mem_iff_getElem?.mp hq
      obtain ⟨g4, g5⟩ := (vops_get _ _ _ _).mp hk'
      rw [g5]
      exact name_apart hf hv hb hi g4 hr (hne k' q.1 g4 g1)
    · intro q hq g1
      obtain ⟨k', g4, g5⟩ := opLocs_mem _ _ _ _ hq
      rw [g5]
      exact def_apart hf hv D hb hi g4 g1 hr hhas (hne k' q.1 g4 g1)
end

end Regalloc.Apply
