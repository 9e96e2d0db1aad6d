import Verif.Model.Liveness
import Verif.Spec.Liveness
import Verif.Spec.Cfg
import Verif.Proofs.IndexSet

/-! Helper lemmas for C24. -/
namespace Regalloc.Liveness
open AdaptiveMap IndexSet

/-! ### Sets -/

theorem get_set {s : IndexSet} (h : s.elems.Wf) {i j : Nat} (hi : i < 2 ^ 38) (hj : j < 2 ^ 38) (v : Bool) :
    (s.set i v).get j = if j = i then v else s.get j := by
  rw [get_eq, look_set h, wordIndex_eq hj, wordIndex_eq hi, get_eq, wordIndex_eq hj]
  have hm : i % 64 < 64 := by omega
  have hm' : j % 64 < 64 := by omega
  by_cases e : j = i
  · subst e
    cases v <;> simp [PRegSet.one_shl_getLsbD _ _ hm]
  · simp only [e, if_false]
    by_cases ew : j / 64 = i / 64
    · have : j % 64 ≠ i % 64 := by omega
      rw [if_pos ew]
      cases v with
      | true =>
        simp only [if_true, BitVec.getLsbD_or, PRegSet.one_shl_getLsbD _ _ hm, this]
        simp
      | false =>
        simp only [Bool.false_eq_true, if_false, BitVec.getLsbD_and, BitVec.getLsbD_not,
          PRegSet.one_shl_getLsbD _ _ hm, this, hm']
        simp
    · rw [if_neg ew]

theorem new_wf : IndexSet.new.elems.Wf :=
  ⟨List.nodup_nil, by simp [IndexSet.new, AdaptiveMap.new, entries], by intro es h; cases h; simp⟩

theorem get_new (j : Nat) : IndexSet.new.get j = false := by
  simp [IndexSet.new, AdaptiveMap.new, IndexSet.get, AdaptiveMap.get, entries]

theorem get_union (ord : HashOrder) {s t : IndexSet} (hs : s.elems.Wf) (ht : t.elems.Wf) (j : Nat) :
    (s.unionWith ord t).1.get j = (s.get j || t.get j) := by
  rw [get_eq, (unionWith_spec ord hs ht).2.1, BitVec.getLsbD_or, ← get_eq, ← get_eq]

theorem look_high {s : IndexSet} (hs : s.elems.Wf) {k : Nat} (b : Nat) (hh : 2 ^ 32 ≤ k) :
    (look s.elems.entries k).getLsbD b = false := by
  rw [look_of_not_mem]
  · simp
  · intro hk
    obtain ⟨e, he, rfl⟩ := List.mem_map.mp hk
    have := hs.bound e he
    omega

theorem union_changed (ord : HashOrder) {s t : IndexSet} (hs : s.elems.Wf) (ht : t.elems.Wf) :
    (s.unionWith ord t).2 = true ↔ ∃ j, j < 2 ^ 38 ∧ t.get j = true ∧ s.get j = false := by
  rw [(unionWith_spec ord hs ht).2.2]
  constructor
  · rintro ⟨k, i, h1, h2⟩
    have hk : k < 2 ^ 32 := by
      apply Decidable.byContradiction
      intro h; rw [look_high ht i (by omega)] at h1; simp at h1
    have hi : i < 64 := by
      apply Decidable.byContradiction
      intro h; rw [BitVec.getLsbD_of_ge _ _ (by omega)] at h1; simp at h1
    have hj : 64 * k + i < 2 ^ 38 := by omega
    have e1 : (64 * k + i) / 64 = k := by omega
    have e2 : (64 * k + i) % 64 = i := by omega
    exact ⟨64 * k + i, hj, by rw [get_eq, wordIndex_eq hj, e1, e2]; exact h1, by rw [get_eq, wordIndex_eq hj, e1, e2]; exact h2⟩
  · rintro ⟨j, hj, h1, h2⟩
    rw [get_eq, wordIndex_eq hj] at h1
    rw [get_eq, wordIndex_eq hj] at h2
    exact ⟨_, _, h1, h2⟩

theorem isEmpty_iff {s : IndexSet} (hw : s.elems.Wf) : s.isEmpty = true ↔ ∀ j, j < 2 ^ 38 → s.get j = false := by
  unfold IndexSet.isEmpty AdaptiveMap.isEmpty
  rw [List.all_eq_true]
  constructor
  · intro hz j hj
    rw [get_eq]
    by_cases hk : wordIndex j ∈ s.elems.entries.map (·.1)
    · obtain ⟨e, he, e1⟩ := List.mem_map.mp hk
      rw [← e1, look_of_mem hw.nodup he]
      have := hz e he
      simp only [beq_iff_eq] at this
      rw [this]; simp
    · rw [look_of_not_mem hk]; simp
  · intro hz e he
    simp only [beq_iff_eq]
    apply BitVec.eq_of_getLsbD_eq
    intro i hi
    have hk := hw.bound e he
    have hj : 64 * e.1 + i < 2 ^ 38 := by omega
    have e1 : (64 * e.1 + i) / 64 = e.1 := by omega
    have e2 : (64 * e.1 + i) % 64 = i := by omega
    have := hz _ hj
    rw [get_eq, wordIndex_eq hj, e1, e2, look_of_mem hw.nodup he] at this
    simpa using this

theorem vreg_lt (v : VReg) : v.vreg < 2 ^ 30 := by
  unfold VReg.vreg
  rw [UInt32.toNat_shiftRight]
  have := v.bits.toNat_lt
  have e : 2 ^ ((2 : UInt32).toNat % 32) = 4 := rfl
  rw [Nat.shiftRight_eq_div_pow, e]
  omega

/-- Well-formed, with members below `2^30` only. -/
structure Good (s : IndexSet) : Prop where
  wf : s.elems.Wf
  small : ∀ j, j < 2 ^ 38 → s.get j = true → j < 2 ^ 30

theorem Good.new : Good IndexSet.new := ⟨new_wf, by intro j _ h; rw [get_new] at h; simp at h⟩

theorem Good.set {s : IndexSet} (h : Good s) (v : VReg) (x : Bool) : Good (s.set v.vreg x) := by
  have hv := vreg_lt v
  refine ⟨set_wf h.wf _ _, ?_⟩
  intro j hj hg
  rw [get_set h.wf (by omega) hj] at hg
  split at hg
  · omega
  · exact h.small j hj hg

theorem Good.union (ord : HashOrder) {s t : IndexSet} (hs : Good s) (ht : Good t) : Good (s.unionWith ord t).1 := by
  refine ⟨(unionWith_spec ord hs.wf ht.wf).1, ?_⟩
  intro j hj hg
  rw [get_union ord hs.wf ht.wf, Bool.or_eq_true] at hg
  exact hg.elim (hs.small j hj) (ht.small j hj)

theorem Good.get_set {s : IndexSet} (h : Good s) (v : VReg) {j : Nat} (hj : j < 2 ^ 30) (x : Bool) :
    (s.set v.vreg x).get j = if j = v.vreg then x else s.get j := by
  have hv := vreg_lt v
  exact Liveness.get_set h.wf (by omega) (by omega) x

theorem Good.isEmpty_iff {s : IndexSet} (h : Good s) : s.isEmpty = true ↔ ∀ j, j < 2 ^ 30 → s.get j = false := by
  rw [Liveness.isEmpty_iff h.wf]
  constructor
  · intro hz j hj; exact hz j (by omega)
  · intro hz j hj
    cases hg : s.get j
    · rfl
    · have := hz j (h.small j hj hg)
      rw [hg] at this; exact this

theorem Good.union_changed (ord : HashOrder) {s t : IndexSet} (hs : Good s) (ht : Good t) :
    (s.unionWith ord t).2 = true ↔ ∃ j, j < 2 ^ 30 ∧ t.get j = true ∧ s.get j = false := by
  rw [Liveness.union_changed ord hs.wf ht.wf]
  constructor
  · rintro ⟨j, hj, h1, h2⟩; exact ⟨j, ht.small j hj h1, h1, h2⟩
  · rintro ⟨j, hj, h1, h2⟩; exact ⟨j, by omega, h1, h2⟩

/-! ### Traces -/

theorem readsFirst_append (v : Nat) (t1 t2 : List Access) :
    ReadsFirst v (t1 ++ t2) ↔ ReadsFirst v t1 ∨ (.write v ∉ t1 ∧ ReadsFirst v t2) := by
  constructor
  · rintro ⟨pre, post, h, hw⟩
    rcases List.append_eq_append_iff.mp h with ⟨a, rfl, e⟩ | ⟨a, rfl, e⟩
    · right
      exact ⟨fun h => hw (List.mem_append_left _ h), a, post, e, fun h => hw (List.mem_append_right _ h)⟩
    · cases a with
      | nil =>
        right
        simp only [List.nil_append] at e
        simp only [List.append_nil]
        exact ⟨hw, [], post, by simp [e], by simp⟩
      | cons x a =>
        left
        simp only [List.cons_append, List.cons.injEq] at e
        obtain ⟨rfl, _⟩ := e
        exact ⟨pre, a, rfl, hw⟩
  · rintro (⟨pre, post, rfl, hw⟩ | ⟨hw, pre, post, rfl, hp⟩)
    · exact ⟨pre, post ++ t2, by simp, hw⟩
    · refine ⟨t1 ++ pre, post, by simp, ?_⟩
      rw [List.mem_append]; rintro (h | h)
      · exact hw h
      · exact hp h

theorem readsFirst_reads (v : Nat) (l : List Nat) : ReadsFirst v (l.map .read) ↔ v ∈ l := by
  constructor
  · rintro ⟨pre, post, h, _⟩
    have : Access.read v ∈ l.map Access.read := by rw [h]; simp
    simpa using this
  · intro h
    obtain ⟨a, b, rfl⟩ := List.append_of_mem h
    exact ⟨a.map .read, b.map .read, by simp, by simp⟩

theorem readsFirst_writes (v : Nat) (l : List Nat) : ¬ ReadsFirst v (l.map .write) := by
  rintro ⟨pre, post, h, _⟩
  have : Access.read v ∈ l.map Access.write := by rw [h]; simp
  simp at this

/-- The trace of one position of an instruction. -/
def phase (ops : List Op) (p : OperandPos) : List Access :=
  (regsAt ops .Use p).map .read ++ (regsAt ops .Def p).map .write

theorem instTrace_eq (ops : List Op) : instTrace ops = phase ops .Early ++ phase ops .Late := by
  unfold instTrace phase; simp

theorem readsFirst_phase (v : Nat) (ops : List Op) (p : OperandPos) (t : List Access) :
    ReadsFirst v (phase ops p ++ t) ↔ v ∈ regsAt ops .Use p ∨ (v ∉ regsAt ops .Def p ∧ ReadsFirst v t) := by
  unfold phase
  rw [readsFirst_append, readsFirst_append, readsFirst_reads]
  have := readsFirst_writes v (regsAt ops .Def p)
  simp only [List.mem_append, List.mem_map]
  constructor
  · rintro ((h | h) | ⟨h, h'⟩)
    · exact .inl h
    · exact absurd h.2 this
    · by_cases hu : v ∈ regsAt ops .Use p
      · exact .inl hu
      · right; exact ⟨fun hc => h (.inr ⟨v, hc, rfl⟩), h'⟩
  · rintro (h | ⟨h, h'⟩)
    · exact .inl (.inl h)
    · right
      refine ⟨?_, h'⟩
      rintro (⟨a, _, ha⟩ | ⟨a, ha, e⟩)
      · cases ha
      · cases e; exact h ha

/-! ### Transfer function -/

theorem opStep_good {s : IndexSet} (h : Good s) (p : OperandPos) (o : Op) : Good (opStep p s o) := by
  unfold opStep
  split
  · exact h
  split
  · split
    · exact h.set _ _
    · exact h.set _ _
  · exact h

theorem opFold_good (ops : List Op) (p : OperandPos) : ∀ s, Good s → Good (ops.foldl (opStep p) s) := by
  induction ops with
  | nil => intro s h; exact h
  | cons o ops ih => intro s h; exact ih _ (opStep_good h p o)

theorem opFold_get (ops : List Op) (p : OperandPos) (v : Nat) (hv : v < 2 ^ 30)
    (nt : v ∈ regsAt ops .Use p → v ∉ regsAt ops .Def p) :
    ∀ s, Good s → ((ops.foldl (opStep p) s).get v = true ↔
      v ∈ regsAt ops .Use p ∨ (v ∉ regsAt ops .Def p ∧ s.get v = true)) := by
  induction ops with
  | nil => intro s _; simp [regsAt]
  | cons o ops ih =>
    intro s hs
    rw [List.foldl_cons]
    have cu : ∀ k, v ∈ regsAt (o :: ops) k p ↔
        ((o.kind = k ∧ o.pos = p ∧ o.asFixedNonallocatable = none) ∧ o.vreg.vreg = v) ∨ v ∈ regsAt ops k p := by
      intro k
      unfold regsAt
      rw [List.filter_cons]
      split
      · rename_i hc
        rw [decide_eq_true_eq] at hc
        rw [List.map_cons, List.mem_cons]
        constructor
        · rintro (h | h)
          · exact .inl ⟨hc, h.symm⟩
          · exact .inr h
        · rintro (h | h)
          · exact .inl h.2.symm
          · exact .inr h
      · rename_i hc
        rw [decide_eq_true_eq] at hc
        constructor
        · exact .inr
        · rintro (h | h)
          · exact absurd h.1 hc
          · exact h
    rw [cu, cu] at nt
    rw [cu, cu]
    have ih := ih (by grind) _ (opStep_good hs p o)
    rw [ih]
    have hg : (opStep p s o).get v = if o.pos = p ∧ o.asFixedNonallocatable = none ∧ o.vreg.vreg = v then decide (o.kind = .Use) else s.get v := by
      unfold opStep
      cases hf : o.asFixedNonallocatable with
      | some r => simp
      | none =>
        simp only [Option.isSome_none, Bool.false_eq_true, if_false]
        split
        · rename_i hp
          cases hk : o.kind
          all_goals
            simp only
            rw [hs.get_set _ hv]
            by_cases e : v = o.vreg.vreg
            · simp [e, hp]
            · have : o.vreg.vreg ≠ v := fun h => e h.symm
              simp [e, this]
        · rename_i hp; simp [hp]
    rw [hg]
    cases hk : o.kind <;> grind

theorem instStep_good {f : Func} {s : IndexSet} (h : Good s) (i : Nat) : Good (instStep f s i) := by
  unfold instStep
  simp only [List.foldl_cons, List.foldl_nil]
  exact opFold_good _ _ _ (opFold_good _ _ _ h)

theorem instStep_get {f : Func} (nt : NoTies f) {s : IndexSet} (h : Good s) (i v : Nat) (hv : v < 2 ^ 30) :
    (instStep f s i).get v = true ↔
      ReadsFirst v (instTrace (f.operands i)) ∨ (.write v ∉ instTrace (f.operands i) ∧ s.get v = true) := by
  unfold instStep
  simp only [List.foldl_cons, List.foldl_nil]
  rw [opFold_get _ _ v hv (nt i .Early v) _ (opFold_good _ _ _ h), opFold_get _ _ v hv (nt i .Late v) _ h]
  rw [instTrace_eq, readsFirst_phase]
  have e : phase (f.operands i) .Late = phase (f.operands i) .Late ++ [] := by simp
  have hm : ∀ p, Access.write v ∈ phase (f.operands i) p ↔ v ∈ regsAt (f.operands i) .Def p := by
    intro p; unfold phase; simp
  rw [List.mem_append, hm, hm]
  have r : ReadsFirst v (phase (f.operands i) .Late) ↔ v ∈ regsAt (f.operands i) .Use .Late := by
    rw [e, readsFirst_phase]
    constructor
    · rintro (h | ⟨_, pre, post, h, _⟩)
      · exact h
      · simp at h
    · exact .inl
  rw [r]
  grind

theorem insts_good {f : Func} (l : List Nat) : ∀ s, Good s → Good (l.foldl (instStep f) s) := by
  induction l with
  | nil => intro s h; exact h
  | cons i l ih => intro s h; exact ih _ (instStep_good h i)

theorem insts_get {f : Func} (nt : NoTies f) (v : Nat) (hv : v < 2 ^ 30) (l : List Nat) {s : IndexSet} (h : Good s) :
    (l.reverse.foldl (instStep f) s).get v = true ↔
      ReadsFirst v (l.flatMap (fun i => instTrace (f.operands i))) ∨
      (.write v ∉ l.flatMap (fun i => instTrace (f.operands i)) ∧ s.get v = true) := by
  induction l with
  | nil =>
    simp only [List.reverse_nil, List.foldl_nil, List.flatMap_nil, List.not_mem_nil, not_false_iff, true_and]
    constructor
    · exact .inr
    · rintro (⟨_, _, h, _⟩ | h)
      · simp at h
      · exact h
  | cons i l ih =>
    rw [List.reverse_cons, List.foldl_append, List.foldl_cons, List.foldl_nil,
      instStep_get nt (insts_good _ _ h) i v hv, ih, List.flatMap_cons, readsFirst_append, List.mem_append]
    grind

theorem setFold_good (x : Bool) (l : List VReg) : ∀ s, Good s → Good (l.foldl (fun s (p : VReg) => s.set p.vreg x) s) := by
  induction l with
  | nil => intro s h; exact h
  | cons i l ih => intro s h; exact ih _ (h.set i x)

theorem setFold_get (x : Bool) (v : Nat) (hv : v < 2 ^ 30) (l : List VReg) : ∀ s, Good s →
    (l.foldl (fun s (p : VReg) => s.set p.vreg x) s).get v = if v ∈ l.map VReg.vreg then x else s.get v := by
  induction l with
  | nil => intro s _; simp
  | cons p l ih =>
    intro s hs
    rw [List.foldl_cons, ih _ (hs.set p x), hs.get_set p hv]
    simp only [List.map_cons, List.mem_cons]
    by_cases h1 : v ∈ l.map VReg.vreg <;> by_cases h2 : v = p.vreg <;> simp [h1, h2]

theorem argFold_good (f : Func) (b : Nat) (l : List Nat) : ∀ s, Good s →
    Good (l.foldl (fun live i => (f.args b (f.lastInst b) i).foldl (fun live (p : VReg) => live.set p.vreg true) live) s) := by
  induction l with
  | nil => intro s h; exact h
  | cons i l ih => intro s h; exact ih _ (setFold_good true _ _ h)

theorem argFold_get (f : Func) (b : Nat) (v : Nat) (hv : v < 2 ^ 30) (l : List Nat) : ∀ s, Good s →
    ((l.foldl (fun live i => (f.args b (f.lastInst b) i).foldl (fun live (p : VReg) => live.set p.vreg true) live) s).get v = true ↔
      (∃ i ∈ l, v ∈ (f.args b (f.lastInst b) i).map VReg.vreg) ∨ s.get v = true) := by
  induction l with
  | nil => intro s _; simp
  | cons i l ih =>
    intro s hs
    rw [List.foldl_cons, ih _ (setFold_good true _ _ hs), setFold_get true v hv _ _ hs]
    by_cases h : v ∈ (f.args b (f.lastInst b) i).map VReg.vreg
    · rw [if_pos h]
      constructor
      · intro _; exact .inl ⟨i, by simp, h⟩
      · intro _; exact .inr rfl
    · rw [if_neg h]
      constructor
      · rintro (⟨k, hk, hm⟩ | h')
        · exact .inl ⟨k, by simp [hk], hm⟩
        · exact .inr h'
      · rintro (⟨k, hk, hm⟩ | h')
        · rcases List.mem_cons.mp hk with rfl | hk
          · exact absurd hm h
          · exact .inl ⟨k, hk, hm⟩
        · exact .inr h'

/-- The register is an argument passed to some successor. -/
def InArgs (f : Func) (b v : Nat) : Prop :=
  ∃ i c, (f.succs b)[i]? = some c ∧ v ∈ (f.args b (f.lastInst b) i).map VReg.vreg

theorem branchStep_good {f : Func} {b : Nat} {s : IndexSet} (h : Good s) : Good (branchStep f b s) := by
  unfold branchStep
  split
  · exact argFold_good f b _ _ h
  · exact h

theorem branchStep_get {f : Func} (hb : BranchesOk f) (b v : Nat) (hv : v < 2 ^ 30) {s : IndexSet} (h : Good s) :
    (branchStep f b s).get v = true ↔ InArgs f b v ∨ s.get v = true := by
  unfold branchStep InArgs
  split
  · rw [argFold_get f b v hv _ _ h]
    simp only [List.mem_range]
    constructor
    · rintro (⟨i, hi, hm⟩ | h)
      · exact .inl ⟨i, _, List.getElem?_eq_getElem hi, hm⟩
      · exact .inr h
    · rintro (⟨i, c, hc, hm⟩ | h)
      · obtain ⟨hi, _⟩ := List.getElem?_eq_some_iff.mp hc
        exact .inl ⟨i, hi, hm⟩
      · exact .inr h
  · rename_i hn
    have : f.succs b = [] := by
      apply Decidable.byContradiction
      intro hne; exact hn (hb b hne)
    simp [this]

theorem transfer_good {f : Func} {b : Nat} {s : IndexSet} (h : Good s) : Good (transfer f b s) :=
  setFold_good false _ _ (insts_good _ _ (branchStep_good h))

theorem transfer_get {f : Func} (nt : NoTies f) (hb : BranchesOk f) (b v : Nat) (hv : v < 2 ^ 30) {s : IndexSet} (h : Good s) :
    (transfer f b s).get v = true ↔
      ReadsFirst v (blockTrace f b) ∨ (.write v ∉ blockTrace f b ∧ (InArgs f b v ∨ s.get v = true)) := by
  unfold transfer blockTrace
  rw [setFold_get false v hv _ _ (insts_good _ _ (branchStep_good h)), readsFirst_append, List.mem_append]
  have hp : Access.write v ∈ (f.params b).map (fun p => Access.write p.vreg) ↔ v ∈ (f.params b).map VReg.vreg := by simp
  have hr : ¬ ReadsFirst v ((f.params b).map (fun p => Access.write p.vreg)) := by
    have := readsFirst_writes v ((f.params b).map VReg.vreg)
    rwa [List.map_map] at this
  rw [hp]
  have hi := insts_get nt v hv (f.blockInsts b) (branchStep_good (f := f) (b := b) h)
  rw [branchStep_get hb b v hv h] at hi
  by_cases hm : v ∈ (f.params b).map VReg.vreg
  · rw [if_pos hm]
    simp only [Bool.false_eq_true, false_iff]
    grind
  · rw [if_neg hm, hi]
    grind

/-! ### The fixpoint loop -/

/-- Registers missing from a set. -/
def deficit (s : IndexSet) : Nat := (List.range (2 ^ 30)).countP (fun v => !s.get v)

theorem deficit_le (s : IndexSet) : deficit s ≤ 2 ^ 30 := by
  have := List.countP_le_length (p := fun v => !s.get v) (l := List.range (2 ^ 30))
  rw [List.length_range] at this
  exact this

theorem countP_lt {p q : Nat → Bool} (l : List Nat) (h : ∀ x ∈ l, p x = true → q x = true)
    {y : Nat} (hy : y ∈ l) (hp : p y = false) (hq : q y = true) : l.countP p < l.countP q := by
  induction l with
  | nil => simp at hy
  | cons a l ih =>
    rw [List.countP_cons, List.countP_cons]
    have hmono : l.countP p ≤ l.countP q := List.countP_mono_left (fun x hx => h x (by simp [hx]))
    rcases List.mem_cons.mp hy with rfl | hy
    · simp only [hp, hq]; simp; omega
    · have := ih (fun x hx => h x (by simp [hx])) hy
      have ha := h a (by simp)
      cases hpa : p a <;> cases hqa : q a <;> simp_all <;> omega

theorem deficit_mono {s t : IndexSet} (h : ∀ v, v < 2 ^ 30 → s.get v = true → t.get v = true) : deficit t ≤ deficit s := by
  unfold deficit
  apply List.countP_mono_left
  intro v hv
  have := h v (List.mem_range.mp hv)
  revert this
  cases s.get v <;> cases t.get v <;> simp

theorem deficit_lt {s t : IndexSet} (h : ∀ v, v < 2 ^ 30 → s.get v = true → t.get v = true) {j : Nat} (hj : j < 2 ^ 30)
    (h1 : t.get j = true) (h2 : s.get j = false) : deficit t < deficit s := by
  unfold deficit
  refine countP_lt _ ?_ (List.mem_range.mpr hj) (by simp [h1]) (by simp [h2])
  intro v hv
  have := h v (List.mem_range.mp hv)
  revert this
  cases s.get v <;> cases t.get v <;> simp

attribute [irreducible] deficit

/-- Sum of the deficits. -/
def total (n : Nat) (g : Nat → IndexSet) : Nat := ((List.range n).map (fun b => deficit (g b))).sum

theorem sum_upd (l : List Nat) (hn : l.Nodup) (g : Nat → Nat) (p x : Nat) (hp : p ∈ l) :
    (l.map (upd g p x)).sum + g p = (l.map g).sum + x := by
  induction l with
  | nil => simp at hp
  | cons a l ih =>
    simp only [List.map_cons, List.sum_cons, List.nodup_cons] at *
    by_cases e : a = p
    · subst e
      have : l.map (upd g a x) = l.map g := by
        apply List.map_congr_left
        intro y hy
        have : y ≠ a := fun h => hn.1 (h ▸ hy)
        simp [upd, this]
      rw [this]; simp [upd]; omega
    · have hp' : p ∈ l := by
        rcases List.mem_cons.mp hp with h | h
        · exact absurd h.symm e
        · exact h
      have := ih hn.2 hp'
      have e2 : upd g p x a = g a := by simp [upd, e]
      rw [e2]; omega

theorem total_upd {n : Nat} (g : Nat → IndexSet) {p : Nat} (hp : p < n) (x : IndexSet) :
    total n (upd g p x) + deficit (g p) = total n g + deficit x := by
  unfold total
  have := sum_upd (List.range n) List.nodup_range (fun b => deficit (g b)) p (deficit x) (List.mem_range.mpr hp)
  have e : (List.range n).map (fun b => deficit (upd g p x b)) = (List.range n).map (upd (fun b => deficit (g b)) p (deficit x)) := by
    apply List.map_congr_left
    intro b _
    simp only [upd]
    by_cases hb : b = p
    · rw [if_pos hb, if_pos hb]
    · rw [if_neg hb, if_neg hb]
  rw [e]
  exact this

/-- Invariant of the loop. -/
structure Inv (f : Func) (st : State) : Prop where
  inGood : ∀ b, Good (st.liveins b)
  outGood : ∀ b, Good (st.liveouts b)
  queued : ∀ b, b ∈ st.queued ↔ b ∈ st.queue
  nodup : st.queue.Nodup
  lt : ∀ b ∈ st.queue, b < f.numBlocks
  inSound : ∀ b v, v < 2 ^ 30 → (st.liveins b).get v = true → MayRead f b v
  outSound : ∀ b v, v < 2 ^ 30 → (st.liveouts b).get v = true → MayReadAfter f b v
  fix : ∀ b, Reaches f.succs f.entry b → b ∉ st.queue →
    (∀ v, v < 2 ^ 30 → (st.liveins b).get v = (transfer f b (st.liveouts b)).get v) ∧
    ∀ p ∈ f.preds b, ∀ v, v < 2 ^ 30 → (st.liveins b).get v = true → (st.liveouts p).get v = true

theorem transfer_sound {f : Func} (nt : NoTies f) (hb : BranchesOk f) (b v : Nat) (hv : v < 2 ^ 30) {s : IndexSet} (h : Good s)
    (hs : s.get v = true → MayReadAfter f b v) (ht : (transfer f b s).get v = true) : MayRead f b v := by
  rw [transfer_get nt hb b v hv h] at ht
  rcases ht with ht | ⟨hw, ⟨i, c, hc, hm⟩ | hg⟩
  · exact ⟨_, .stop b, ht⟩
  · refine ⟨_, .step hc (.stop c), ?_⟩
    rw [List.append_assoc, readsFirst_append]
    refine .inr ⟨hw, ?_⟩
    rw [readsFirst_append]
    left
    have := (readsFirst_reads v ((f.args b (f.lastInst b) i).map VReg.vreg)).mpr hm
    rwa [List.map_map] at this
  · obtain ⟨c, hc, t, ht, hr⟩ := hs hg
    obtain ⟨i, hi⟩ := List.mem_iff_getElem?.mp hc
    refine ⟨_, .step hi ht, ?_⟩
    rw [List.append_assoc, readsFirst_append]
    refine .inr ⟨hw, ?_⟩
    rw [readsFirst_append]
    refine .inr ⟨by simp, hr⟩

/-- What the predecessor loop does. -/
structure PredsOk (n : Nat) (live : IndexSet) (done : List Nat) (st st' : State) : Prop where
  ins : st'.liveins = st.liveins
  good : ∀ b, Good (st'.liveouts b)
  queued : ∀ b, b ∈ st'.queued ↔ b ∈ st'.queue
  get : ∀ b v, v < 2 ^ 30 → (st'.liveouts b).get v = ((st.liveouts b).get v || (decide (b ∈ done) && live.get v))
  sub : ∀ b ∈ st.queue, b ∈ st'.queue
  nodup : st'.queue.Nodup
  lt : ∀ b ∈ st'.queue, b < n
  push : ∀ b, b ∉ st'.queue → ∀ v, v < 2 ^ 30 → (st'.liveouts b).get v = (st.liveouts b).get v
  meas : total n st'.liveouts + st'.queue.length ≤ total n st.liveouts + st.queue.length

theorem predStep_ok {n : Nat} (ord : HashOrder) {live : IndexSet} (hl : Good live) {done : List Nat} {st st' : State}
    (h : PredsOk n live done st st') (p : Nat) (hp : p < n) :
    PredsOk n live (done ++ [p]) st (predStep ord live st' p) := by
  have hgp := h.good p
  have hu := hgp.union ord hl
  have hget : ∀ b v, v < 2 ^ 30 → (upd st'.liveouts p ((st'.liveouts p).unionWith ord live).1 b).get v =
      ((st.liveouts b).get v || (decide (b ∈ done ++ [p]) && live.get v)) := by
    intro b v hv
    unfold upd
    by_cases e : b = p
    · subst e
      rw [if_pos rfl, get_union ord hgp.wf hl.wf, h.get b v hv]
      simp
      grind
    · rw [if_neg e, h.get b v hv]
      simp [e]
  have hmono : ∀ v, v < 2 ^ 30 → (st'.liveouts p).get v = true → ((st'.liveouts p).unionWith ord live).1.get v = true := by
    intro v _ hg
    rw [get_union ord hgp.wf hl.wf, hg]; rfl
  have hgood : ∀ b, Good (upd st'.liveouts p ((st'.liveouts p).unionWith ord live).1 b) := by
    intro b
    unfold upd
    split
    · exact hu
    · exact h.good b
  have htot := total_upd st'.liveouts hp ((st'.liveouts p).unionWith ord live).1
  have hm := h.meas
  unfold predStep
  simp only
  by_cases hc : ((st'.liveouts p).unionWith ord live).2 = true
  · rw [if_pos hc]
    obtain ⟨j, hj, h1, h2⟩ := (hgp.union_changed ord hl).mp hc
    have hlt := deficit_lt hmono hj (by rw [get_union ord hgp.wf hl.wf, h1]; simp) h2
    by_cases hq : p ∈ st'.queued
    · rw [if_pos hq]
      refine ⟨h.ins, hgood, h.queued, hget, h.sub, h.nodup, h.lt, ?_, ?_⟩
      · intro b hb v hv
        simp only at hb ⊢
        have : b ≠ p := fun e => hb (by rw [e]; exact (h.queued p).mp hq)
        unfold upd
        rw [if_neg this]
        exact h.push b hb v hv
      · simp only; omega
    · rw [if_neg hq]
      refine ⟨h.ins, hgood, ?_, hget, ?_, ?_, ?_, ?_, ?_⟩
      · intro b
        simp only [List.mem_cons, List.mem_append, List.not_mem_nil, or_false]
        rw [h.queued]
        constructor
        · rintro (h | h)
          · exact .inr h
          · exact .inl h
        · rintro (h | h)
          · exact .inr h
          · exact .inl h
      · intro b hb; simp only [List.mem_append]; exact .inl (h.sub b hb)
      · simp only
        rw [List.nodup_append]
        refine ⟨h.nodup, by simp, ?_⟩
        intro a ha b hb
        rw [List.mem_singleton] at hb
        subst hb
        rintro rfl
        exact hq ((h.queued a).mpr ha)
      · intro b hb
        simp only [List.mem_append, List.mem_singleton] at hb
        rcases hb with hb | rfl
        · exact h.lt b hb
        · exact hp
      · intro b hb v hv
        simp only [List.mem_append, List.mem_cons, List.not_mem_nil, or_false, not_or] at hb ⊢
        unfold upd
        rw [if_neg hb.2]
        exact h.push b hb.1 v hv
      · simp only [List.length_append, List.length_cons, List.length_nil]; omega
  · rw [if_neg hc]
    have hsame : ∀ v, v < 2 ^ 30 → ((st'.liveouts p).unionWith ord live).1.get v = (st'.liveouts p).get v := by
      intro v hv
      rw [get_union ord hgp.wf hl.wf]
      cases h1 : live.get v
      · simp
      · cases h2 : (st'.liveouts p).get v
        · exact absurd ((hgp.union_changed ord hl).mpr ⟨v, hv, h1, h2⟩) hc
        · rfl
    have hle := deficit_mono hmono
    refine ⟨h.ins, hgood, h.queued, hget, h.sub, h.nodup, h.lt, ?_, ?_⟩
    · intro b hb v hv
      simp only at hb ⊢
      unfold upd
      split
      · rename_i e; subst e
        rw [hsame v hv]; exact h.push b hb v hv
      · exact h.push b hb v hv
    · simp only; omega

theorem preds_ok {n : Nat} (ord : HashOrder) {live : IndexSet} (hl : Good live) {st : State} (l : List Nat) :
    ∀ (done : List Nat) (st' : State), PredsOk n live done st st' → (∀ p ∈ l, p < n) →
    PredsOk n live (done ++ l) st (l.foldl (predStep ord live) st') := by
  induction l with
  | nil => intro done st' h _; simpa using h
  | cons p l ih =>
    intro done st' h hl'
    have := ih (done ++ [p]) _ (predStep_ok ord hl h p (hl' p (by simp))) (fun q hq => hl' q (by simp [hq]))
    simpa using this

theorem transfer_congr {f : Func} (nt : NoTies f) (hb : BranchesOk f) (b : Nat) {s t : IndexSet} (hs : Good s) (ht : Good t)
    (h : ∀ v, v < 2 ^ 30 → s.get v = t.get v) (v : Nat) (hv : v < 2 ^ 30) : (transfer f b s).get v = (transfer f b t).get v := by
  rw [Bool.eq_iff_iff, transfer_get nt hb b v hv hs, transfer_get nt hb b v hv ht, h v hv]

theorem visit_inv {f : Func} (ord : HashOrder) (he : EdgesMatch f) (nt : NoTies f) (hb : BranchesOk f) {st : State} {block : Nat} {rest : List Nat}
    (hq : st.queue = block :: rest) (h : Inv f st) :
    let st' := visit ord f { st with queue := rest } block
    Inv f st' ∧ total f.numBlocks st'.liveouts + st'.queue.length < total f.numBlocks st.liveouts + st.queue.length := by
  intro st'
  have hn := h.nodup
  have hlt := h.lt
  rw [hq] at hn
  have hblk : block < f.numBlocks := hlt block (by rw [hq]; simp)
  have hlive := transfer_good (f := f) (b := block) (h.outGood block)
  have hP := preds_ok (n := f.numBlocks) ord hlive (st := { st with queue := rest, queued := st.queued.filter (· ≠ block) })
    (f.preds block) [] { st with queue := rest, queued := st.queued.filter (· ≠ block) }
    ⟨rfl, h.outGood, by
      intro b
      simp only [List.mem_filter, decide_eq_true_eq]
      rw [h.queued b, hq, List.mem_cons]
      constructor
      · rintro ⟨h1 | h1, h2⟩
        · exact absurd h1 h2
        · exact h1
      · intro h1
        refine ⟨.inr h1, ?_⟩
        rintro rfl
        exact (List.nodup_cons.mp hn).1 h1,
      by intro b v _; simp, fun b hb => hb, (List.nodup_cons.mp hn).2, fun b hb => hlt b (by rw [hq]; simp [hb]), fun b _ v _ => rfl, Nat.le_refl _⟩
    (fun p hp => he.predLt p block hblk hp)
  rw [List.nil_append] at hP
  have hst' : st' = { ((f.preds block).foldl (predStep ord (transfer f block (st.liveouts block)))
      { st with queue := rest, queued := st.queued.filter (· ≠ block) }) with
      liveins := upd ((f.preds block).foldl (predStep ord (transfer f block (st.liveouts block)))
      { st with queue := rest, queued := st.queued.filter (· ≠ block) }).liveins block (transfer f block (st.liveouts block)) } := rfl
  generalize hfold : ((f.preds block).foldl (predStep ord (transfer f block (st.liveouts block)))
      { st with queue := rest, queued := st.queued.filter (· ≠ block) }) = stp at hP hst'
  have hsound : ∀ v, v < 2 ^ 30 → (transfer f block (st.liveouts block)).get v = true → MayRead f block v :=
    fun v hv => transfer_sound nt hb block v hv (h.outGood block) (h.outSound block v hv)
  have hmeas := hP.meas
  simp only at hmeas
  refine ⟨?_, ?_⟩
  · rw [hst']
    refine ⟨?_, hP.good, hP.queued, hP.nodup, hP.lt, ?_, ?_, ?_⟩
    · intro b
      simp only [upd]
      split
      · exact hlive
      · rw [hP.ins]; exact h.inGood b
    · intro b v hv
      simp only [upd]
      split
      · rename_i e; subst e; exact hsound v hv
      · rw [hP.ins]; exact h.inSound b v hv
    · intro b v hv hg
      simp only at hg
      rw [hP.get b v hv, Bool.or_eq_true, Bool.and_eq_true, decide_eq_true_eq] at hg
      rcases hg with hg | ⟨hm, hg⟩
      · exact h.outSound b v hv hg
      · refine ⟨block, ?_, hsound v hv hg⟩
        exact (he.iff b block (he.predLt b block hblk hm) hblk).mp hm
    · intro b hr hnq
      simp only at hnq ⊢
      have hsame := hP.push b hnq
      simp only at hsame
      by_cases e : b = block
      · subst e
        simp only [upd, if_true]
        refine ⟨?_, ?_⟩
        · intro v hv
          exact transfer_congr nt hb b (h.outGood b) (hP.good b) (fun v hv => (hsame v hv).symm) v hv
        · intro p hp v hv hg
          rw [hP.get p v hv]
          simp [hp, hg]
      · have hnq' : b ∉ st.queue := by
          rw [hq, List.mem_cons]
          rintro (h1 | h1)
          · exact e h1
          · exact hnq (hP.sub b h1)
        obtain ⟨f1, f2⟩ := h.fix b hr hnq'
        simp only [upd, e, if_false, hP.ins]
        refine ⟨?_, ?_⟩
        · intro v hv
          rw [f1 v hv]
          exact transfer_congr nt hb b (h.outGood b) (hP.good b) (fun v hv => (hsame v hv).symm) v hv
        · intro p hp v hv hg
          rw [hP.get p v hv, f2 p hp v hv hg]; rfl
  · rw [hst', hq]
    simp only [List.length_cons]
    omega

theorem sum_le (g : Nat → Nat) (K : Nat) (h : ∀ b, g b ≤ K) (n : Nat) : ((List.range n).map g).sum ≤ K * n := by
  induction n with
  | zero => simp
  | succ n ih =>
    rw [List.range_succ, List.map_append, List.sum_append, Nat.mul_succ]
    have := h n
    simp only [List.map_cons, List.map_nil, List.sum_cons, List.sum_nil]
    omega

theorem fuel_ok (f : Func) (po : List Nat) :
    total f.numBlocks (start po).liveouts + (start po).queue.length < fuel f po := by
  have h := sum_le (fun b => deficit ((start po).liveouts b)) (2 ^ 30) (fun b => deficit_le _) f.numBlocks
  have e : (start po).queue = po := rfl
  rw [e]
  unfold fuel total
  omega

end Regalloc.Liveness
