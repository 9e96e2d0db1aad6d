import Verif.Spec.Pipeline
import Verif.Props.FixMulti
import Verif.Props.LiveRanges
import Verif.Proofs.LiveRangesPregs

namespace Regalloc.Pipeline

open Apply (OpAt DefAt entryPt exitPt)
open Build (InBlock DefinedAt UsedAt LiveAt PassedOn Covered usePoint defPoint recordPoint RecordedAs mem_blockInsts)
open Liveness (MayRead MayReadAfter Exec ReadsFirst blockTrace instTrace regsAt Access)

/-- The passes before the merging of bundles succeeded. -/
structure MidOk (i : Input) (fr : Front) : Prop where
  info : Cfg.init i.f = .ok fr.info
  po : Postorder.calculate? i.f.numBlocks i.f.entry i.f.succs = some (.ok fr.info.postorder)
  ls : Liveness.compute i.ord i.f fr.info.postorder = some (.ok fr.ls)
  b0 : Build.build i.ord i.multi i.f fr.ls.liveouts = .ok fr.b0
  b1 : Build.fixupMulti i.env i.f.numVregs fr.b0 = .ok (fr.b1, fr.second)

/-- The passes of the first half succeeded. -/
structure FrontOk (i : Input) (fr : Front) : Prop extends MidOk i fr where
  st : Ion.mergeVregBundles i.env i.f i.cls ((sortedOuts fr.b1.outs).map (fun o => (o.fromVreg, o.toVreg)))
    (arenas i.f.numVregs fr.b1.ranges) = some fr.st

theorem cfg_postorder {f : Func} {info : Cfg.Info} (hinfo : Cfg.init f = .ok info) :
    Postorder.calculate? f.numBlocks f.entry f.succs = some (.ok info.postorder) := by
  unfold Cfg.init at hinfo
  split at hinfo
  · cases hinfo
  · cases hinfo
  rename_i post hpost
  split at hinfo
  · cases hinfo
  split at hinfo
  · cases hinfo
  · cases hinfo
  split at hinfo
  · cases hinfo
  cases hinfo
  exact hpost

theorem front_ok {i : Input} {fr : Front} (h : front i = .ok fr) : FrontOk i fr := by
  unfold front at h
  split at h
  · cases h
  · cases h
  rename_i info hinfo
  split at h
  · cases h
  · cases h
  rename_i ls hls
  split at h
  · cases h
  · cases h
  rename_i b0 hb0
  split at h
  · cases h
  rename_i b1 second hb1
  split at h
  · cases h
  rename_i st hst
  cases h
  exact ⟨⟨hinfo, cfg_postorder hinfo, hls, hb0, hb1⟩, hst⟩

/-! ### No use before the definition -/

section
variable {i : Input} (hp : ProgramOk i) {fr : Front} (hf : MidOk i fr)
include hp

theorem ProgramOk.ready : Build.Ready i.f := hp.func.ready
theorem ProgramOk.edges : EdgesMatch i.f := hp.func.edges

/-- Points lie in one block. -/
theorem block_unique {a b p : Nat} (ha : a < i.f.numBlocks) (hb : b < i.f.numBlocks) (h1 : InBlock i.f a p) (h2 : InBlock i.f b p) : a = b := by
  have e1 : 2 * (i.f.insns a).1 ≤ p := h1.1
  have e2 : p < 2 * (i.f.insns a).2 := h1.2
  have e3 : 2 * (i.f.insns b).1 ≤ p := h2.1
  have e4 : p < 2 * (i.f.insns b).2 := h2.2
  rcases Nat.lt_trichotomy a b with h | h | h
  · have := hp.ready.ordered a b h hb; omega
  · exact h
  · have := hp.ready.ordered b a h ha; omega

theorem inst_block {b j p : Nat} (hj : j ∈ i.f.blockInsts b) (hpj : p / 2 = j) : InBlock i.f b p := by
  have := mem_blockInsts.mp hj
  unfold InBlock ptBefore
  omega

theorem insts_unique {a b j : Nat} (ha : a < i.f.numBlocks) (hb : b < i.f.numBlocks) (h1 : j ∈ i.f.blockInsts a) (h2 : j ∈ i.f.blockInsts b) :
    a = b := block_unique hp ha hb (inst_block hp (p := 2 * j) h1 (by omega)) (inst_block hp h2 (by omega))

omit hp in
theorem defPoint_div {j : Nat} {o : Op} : defPoint j o / 2 = j := by
  unfold defPoint ptAfter ptBefore; split <;> omega

omit hp in
theorem usePoint_div {f : Func} {j : Nat} {o : Op} : usePoint f j o / 2 = j := by
  unfold usePoint ptAfter ptBefore; split <;> omega

omit hp in
theorem recordPoint_div {f : Func} {j : Nat} {o : Op} : recordPoint f j o / 2 = j := by
  unfold recordPoint; split
  · exact usePoint_div
  · exact defPoint_div

omit hp in
theorem opAt_of_defined {b v d : Nat} (hb : b < i.f.numBlocks) (h : DefinedAt i.f b v d) :
    ∃ j k o, j ∈ i.f.blockInsts b ∧ OpAt i.f j k o ∧ o.kind = .Def ∧ o.vreg.vreg = v ∧ d = defPoint j o := by
  obtain ⟨j, hj, o, ho, h1, h2, h3, h4⟩ := h
  obtain ⟨k, hk⟩ := List.mem_iff_getElem?.mp ho
  exact ⟨j, k, o, hj, ⟨⟨b, hb, hj⟩, hk, h1⟩, h2, h3, h4⟩

omit hp in
theorem opAt_of_used {b v d : Nat} (hb : b < i.f.numBlocks) (h : UsedAt i.f b v d) :
    ∃ j k o, j ∈ i.f.blockInsts b ∧ OpAt i.f j k o ∧ o.kind = .Use ∧ o.vreg.vreg = v ∧ d = usePoint i.f j o := by
  obtain ⟨j, hj, o, ho, h1, h2, h3, h4⟩ := h
  obtain ⟨k, hk⟩ := List.mem_iff_getElem?.mp ho
  exact ⟨j, k, o, hj, ⟨⟨b, hb, hj⟩, hk, h1⟩, h2, h3, h4⟩

/-- There is one point of definition. -/
theorem def_unique {b b' v d d' : Nat} (hb : b < i.f.numBlocks) (hb' : b' < i.f.numBlocks) (h : DefinedAt i.f b v d)
    (h' : DefinedAt i.f b' v d') : b = b' ∧ d = d' := by
  obtain ⟨j, k, o, h1, h2, h3, h4, h5⟩ := opAt_of_defined hb h
  obtain ⟨j', k', o', h1', h2', h3', h4', h5'⟩ := opAt_of_defined hb' h'
  obtain ⟨rfl, rfl⟩ := hp.one_def j j' k k' o o' h2 h2' h3 h3' (by rw [h4, h4'])
  have : o = o' := by
    have := h2.2.1
    rw [h2'.2.1] at this
    exact (Option.some.inj this).symm
  subst this
  exact ⟨insts_unique hp hb hb' h1 h1', by rw [h5, h5']⟩

theorem defined_div {b v d : Nat} (h : DefinedAt i.f b v d) : InBlock i.f b d := by
  obtain ⟨j, hj, o, ho, h1, h2, h3, h4⟩ := h
  exact inst_block hp hj (by rw [h4]; exact defPoint_div)

theorem used_div {b v d : Nat} (h : UsedAt i.f b v d) : InBlock i.f b d := by
  obtain ⟨j, hj, o, ho, h1, h2, h3, h4⟩ := h
  exact inst_block hp hj (by rw [h4]; exact usePoint_div)

/-- An instruction does not use a register it defines. -/
theorem use_ne_def {b v u d : Nat} (hu : UsedAt i.f b v u) (hd : DefinedAt i.f b v d) : u / 2 ≠ d / 2 := by
  obtain ⟨j, hj, o, ho, h1, h2, h3, h4⟩ := hu
  obtain ⟨j', hj', o', ho', h1', h2', h3', h4'⟩ := hd
  rw [h4, h4', usePoint_div, defPoint_div]
  rintro rfl
  obtain ⟨k, hk⟩ := List.mem_iff_getElem?.mp ho
  obtain ⟨k', hk'⟩ := List.mem_iff_getElem?.mp ho'
  have := hp.ready.once j k' k o' o hk' hk (by
    rintro rfl
    rw [hk] at hk'
    cases hk'
    rw [h2] at h2'
    cases h2') h1' h1 (by rw [h3, h3'])
  rw [h2'] at this
  cases this

omit hp in
theorem write_mem_inst {ops : List Op} {v : Nat} (h : Access.write v ∈ instTrace ops) :
    ∃ o ∈ ops, o.asFixedNonallocatable = none ∧ o.kind = .Def ∧ o.vreg.vreg = v := by
  unfold instTrace regsAt at h
  simp only [List.mem_append, List.mem_map, List.mem_filter, decide_eq_true_eq, reduceCtorEq, and_false, exists_false, or_false, false_or,
    Access.write.injEq] at h
  rcases h with ⟨_, ⟨o, ⟨h1, h2⟩, h3⟩, rfl⟩ | ⟨_, ⟨o, ⟨h1, h2⟩, h3⟩, rfl⟩
  · exact ⟨o, h1, h2.2.2, h2.1, h3⟩
  · exact ⟨o, h1, h2.2.2, h2.1, h3⟩

omit hp in
theorem read_mem_inst {ops : List Op} {o : Op} (h : o ∈ ops) (h1 : o.asFixedNonallocatable = none) (h2 : o.kind = .Use) :
    Access.read o.vreg.vreg ∈ instTrace ops := by
  unfold instTrace regsAt
  simp only [List.mem_append, List.mem_map, List.mem_filter, decide_eq_true_eq, reduceCtorEq, and_false, exists_false, or_false, false_or,
    Access.read.injEq]
  cases h3 : o.pos
  · exact .inl ⟨_, ⟨o, ⟨h, h2, h3, h1⟩, rfl⟩, rfl⟩
  · exact .inr ⟨_, ⟨o, ⟨h, h2, h3, h1⟩, rfl⟩, rfl⟩

omit hp in
theorem write_mem_block {f : Func} {b v : Nat} (h : Access.write v ∈ blockTrace f b) :
    v ∈ (f.params b).map VReg.vreg ∨ ∃ d, DefinedAt f b v d := by
  unfold blockTrace at h
  rcases List.mem_append.mp h with h | h
  · left
    obtain ⟨p, h1, h2⟩ := List.mem_map.mp h
    cases h2
    exact List.mem_map.mpr ⟨p, h1, rfl⟩
  · right
    obtain ⟨j, h1, h2⟩ := List.mem_flatMap.mp h
    obtain ⟨o, h3, h4, h5, h6⟩ := write_mem_inst h2
    exact ⟨_, j, h1, o, h3, h4, h5, h6, rfl⟩

/-- A use that no definition precedes is exposed. -/
theorem mayRead_of_used {b v u : Nat} (hu : UsedAt i.f b v u) (hd : ∀ d, DefinedAt i.f b v d → u < d)
    (hpar : v ∉ (i.f.params b).map VReg.vreg) : MayRead i.f b v := by
  refine ⟨_, .stop b, ?_⟩
  obtain ⟨j, hj, o, ho, h1, h2, h3, h4⟩ := id hu
  have hsplit : i.f.blockInsts b = (i.f.blockInsts b).filter (fun x => decide (x < j)) ++ j :: (i.f.blockInsts b).filter (fun x => decide (j < x)) := by
    unfold Func.blockInsts
    have hj := mem_blockInsts.mp hj
    have e1 : ∀ (s n : Nat), s ≤ j → j < s + n → List.range' s n = (List.range' s n).filter (fun x => decide (x < j)) ++
        j :: (List.range' s n).filter (fun x => decide (j < x)) := by
      intro s n hs hn
      obtain ⟨a, rfl⟩ : ∃ a, j = s + a := ⟨j - s, by omega⟩
      obtain ⟨c, rfl⟩ : ∃ c, n = a + (1 + c) := ⟨n - a - 1, by omega⟩
      have h0 : List.range' s (a + (1 + c)) = List.range' s a ++ (s + a) :: List.range' (s + a + 1) c := by
        rw [← List.range'_append_1, Nat.add_comm 1 c, List.range'_succ]
      rw [h0]
      have k1 : ∀ x ∈ List.range' s a, x < s + a := by intro x hx; rw [List.mem_range'_1] at hx; omega
      have k2 : ∀ x ∈ List.range' (s + a + 1) c, s + a < x := by intro x hx; rw [List.mem_range'_1] at hx; omega
      rw [List.filter_append, List.filter_append, List.filter_cons, List.filter_cons]
      have f1 : (List.range' s a).filter (fun x => decide (x < s + a)) = List.range' s a :=
        List.filter_eq_self.mpr (fun x hx => decide_eq_true (k1 x hx))
      have f2 : (List.range' (s + a + 1) c).filter (fun x => decide (x < s + a)) = [] :=
        List.filter_eq_nil_iff.mpr (fun x hx => by have := k2 x hx; rw [decide_eq_true_eq]; omega)
      have f3 : (List.range' s a).filter (fun x => decide (s + a < x)) = [] :=
        List.filter_eq_nil_iff.mpr (fun x hx => by have := k1 x hx; rw [decide_eq_true_eq]; omega)
      have f4 : (List.range' (s + a + 1) c).filter (fun x => decide (s + a < x)) = List.range' (s + a + 1) c :=
        List.filter_eq_self.mpr (fun x hx => decide_eq_true (k2 x hx))
      rw [f1, f2, f3, f4]
      simp
    exact e1 _ _ hj.1 (by omega)
  unfold blockTrace
  rw [hsplit, List.flatMap_append, List.flatMap_cons]
  obtain ⟨p1, p2, hpp⟩ := List.append_of_mem (read_mem_inst ho h1 h2)
  rw [hpp, h3]
  refine ⟨(i.f.params b).map (fun p => .write p.vreg) ++ ((i.f.blockInsts b).filter (fun x => decide (x < j))).flatMap
    (fun i_1 => instTrace (i.f.operands i_1)) ++ p1, p2 ++ (((i.f.blockInsts b).filter (fun x => decide (j < x))).flatMap
    (fun i_1 => instTrace (i.f.operands i_1))), by simp, ?_⟩
  intro hw
  rcases List.mem_append.mp hw with hw | hw
  · rcases List.mem_append.mp hw with hw | hw
    · obtain ⟨p, e1, e2⟩ := List.mem_map.mp hw
      cases e2
      exact hpar (List.mem_map.mpr ⟨p, e1, rfl⟩)
    · obtain ⟨x, e1, e2⟩ := List.mem_flatMap.mp hw
      obtain ⟨e1, e3⟩ := List.mem_filter.mp e1
      obtain ⟨o', e4, e5, e6, e7⟩ := write_mem_inst e2
      have e3 := of_decide_eq_true e3
      have := hd _ ⟨x, e1, o', e4, e5, e6, e7, rfl⟩
      have k1 : defPoint x o' / 2 = x := defPoint_div
      have k2 : u / 2 = j := by rw [h4]; exact usePoint_div
      omega
  · have hw' : Access.write v ∈ instTrace (i.f.operands j) := by rw [hpp]; exact List.mem_append_left _ hw
    obtain ⟨o', e4, e5, e6, e7⟩ := write_mem_inst hw'
    refine use_ne_def hp hu ⟨j, hj, o', e4, e5, e6, e7, rfl⟩ ?_
    rw [h4, usePoint_div, defPoint_div]

omit hp in
theorem mayRead_back {b v : Nat} (hnw : Access.write v ∉ blockTrace i.f b) (h : MayReadAfter i.f b v ∨ PassedOn i.f b v) :
    MayRead i.f b v := by
  rcases h with ⟨c, hc, t, ht, hr⟩ | ⟨k, c, hk, hv⟩
  · obtain ⟨k, hk⟩ := List.mem_iff_getElem?.mp hc
    refine ⟨_, .step hk ht, ?_⟩
    rw [List.append_assoc, Liveness.readsFirst_append]
    refine .inr ⟨hnw, ?_⟩
    rw [Liveness.readsFirst_append]
    by_cases hm : ReadsFirst v ((i.f.args b (i.f.lastInst b) k).map fun p => Access.read p.vreg)
    · exact .inl hm
    · exact .inr ⟨by simp, hr⟩
  · refine ⟨_, .step hk (.stop c), ?_⟩
    rw [List.append_assoc, Liveness.readsFirst_append]
    refine .inr ⟨hnw, ?_⟩
    rw [Liveness.readsFirst_append]
    left
    have := (Liveness.readsFirst_reads v ((i.f.args b (i.f.lastInst b) k).map VReg.vreg)).mpr hv
    rw [List.map_map] at this
    exact this

omit hp in
/-- Values live into a block are not its parameters. -/
theorem mayRead_param {b v : Nat} (h : MayRead i.f b v) : v ∉ (i.f.params b).map VReg.vreg := by
  obtain ⟨t, ht, hr⟩ := h
  intro hv
  obtain ⟨p, h1, h2⟩ := List.mem_map.mp hv
  have key : ∀ rest, ¬ ReadsFirst v (blockTrace i.f b ++ rest) := by
    intro rest hx
    unfold blockTrace at hx
    rw [List.append_assoc, Liveness.readsFirst_append] at hx
    rcases hx with hx | ⟨hx, _⟩
    · have := Liveness.readsFirst_writes v ((i.f.params b).map VReg.vreg)
      rw [List.map_map] at this
      exact this hx
    · exact hx (List.mem_map.mpr ⟨p, h1, by rw [h2]⟩)
  cases ht with
  | stop => exact key [] (by simpa using hr)
  | step _ _ => rw [List.append_assoc] at hr; exact key _ hr

include hf

theorem not_mayRead_entry (v : Nat) (hv : v < 2 ^ 30) : ¬ MayRead i.f i.f.entry v := by
  intro h
  have := (C24_rejects_iff i.f i.ord hp.edges (noTies' hp) hp.ready.branches _ hf.po).2.1.mpr ⟨v, hv, h⟩
  rw [hf.ls] at this
  cases this
where
  noTies' (hp : ProgramOk i) : Liveness.NoTies i.f := by
    intro j p v h1 h2
    obtain ⟨o, h3, h4⟩ := List.mem_map.mp h1
    obtain ⟨o', h5, h6⟩ := List.mem_map.mp h2
    obtain ⟨h7, h8⟩ := List.mem_filter.mp h3
    obtain ⟨h9, h10⟩ := List.mem_filter.mp h5
    simp only [decide_eq_true_eq] at h8 h10
    obtain ⟨k, hk⟩ := List.mem_iff_getElem?.mp h7
    obtain ⟨k', hk'⟩ := List.mem_iff_getElem?.mp h9
    have := hp.ready.once j k' k o' o hk' hk (by
      rintro rfl
      rw [hk] at hk'
      cases hk'
      rw [h8.1] at h10
      exact absurd h10.1 (by decide)) h10.2.2 h8.2.2 (by rw [h4, h6])
    rw [h10.1] at this
    exact absurd this (by decide)

/-- A block does not use a register before defining it. -/
theorem no_use_before_def {b v u d : Nat} (hb : b < i.f.numBlocks) (hu : UsedAt i.f b v u) (hd : DefinedAt i.f b v d) : d < u := by
  apply Classical.byContradiction
  intro hlt
  have hv : v < 2 ^ 30 := by
    obtain ⟨_, _, o, _, _, _, h3, _⟩ := id hu
    rw [← h3]; exact Liveness.vreg_lt _
  have hne := use_ne_def hp hu hd
  have h1 : MayRead i.f b v := by
    refine mayRead_of_used hp hu ?_ ?_
    · intro d' hd'
      obtain ⟨-, rfl⟩ := def_unique hp hb hb hd hd'
      omega
    · intro hpar
      exact hp.param_def b v hpar d ⟨b, hb, hd⟩
  have h2 : ∀ x l, Walk i.f.succs i.f.entry x l → MayRead i.f x v → MayRead i.f i.f.entry v := by
    intro x l hw
    induction hw with
    | start => exact id
    | step hw hs ih =>
      rename_i a c l
      intro h
      have ha : a < i.f.numBlocks := by
        clear ih h hs
        induction hw with
        | start => exact hp.edges.entryLt
        | step _ hs ih => exact hp.edges.succLt _ _ ih hs
      apply ih
      by_cases hab : a = b
      · rw [hab]; exact h1
      · refine mayRead_back ?_ (.inl ⟨c, hs, h⟩)
        intro hw
        rcases write_mem_block hw with hw | ⟨d', hw⟩
        · exact hp.param_def a v hw d ⟨b, hb, hd⟩
        · exact hab (def_unique hp ha hb hw hd).1
  obtain ⟨l, hl⟩ := hp.reach b hb
  exact not_mayRead_entry hp hf v hv (h2 b l hl h1)

end
end Regalloc.Pipeline
