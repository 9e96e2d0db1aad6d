import Verif.Proofs.PipeValid
import Verif.Props.ApplyMoves
import Verif.Props.Process
import Verif.Props.PRegSet

/-! A run of the allocator that succeeds, and the locations of operands. -/
namespace Regalloc.Pipeline

open Apply (OpAt DefAt entryPt exitPt FRange FixupOk Valid)
open Build (recordPoint usePoint defPoint mem_blockInsts RecordedAs reusedReg)
open Ion (Live Origin Owns Covers Entry)
open ResolveMoves

/-! ### The number of slots only grows -/

theorem ensureExtra_mono {e : MoveEnv} {c : RegClass} : ∀ {n : Nat} {s s' : Slots}, ensureExtra e c n s = some s' → s.num.toNat ≤ s'.num.toNat
  | 0, s, s', h => by simp only [ensureExtra, Option.some.injEq] at h; rw [h]; omega
  | n + 1, s, s', h => by
    simp only [ensureExtra] at h
    split at h
    · cases h
    · rename_i s1 h1
      have := ensureExtra_mono h1
      split at h
      · split at h
        · cases h
        · rename_i slot num h2
          cases h
          obtain ⟨-, a, h3, -, -, -, h4, -⟩ := Spill.allocSlot_spec h2
          dsimp only
          omega
      · cases h; exact this

theorem resolveClass_mono {e : MoveEnv} {c : RegClass} {pp : PosWithPrio} {ms : List InsertedMove} {s s' : Slots}
    {l : List (Move (Option VReg))} (h : resolveClass e c pp ms s = some (l, s')) : s.num.toNat ≤ s'.num.toNat := by
  unfold resolveClass at h
  dsimp only at h
  split at h
  · cases h
  split at h
  · cases h
  split at h
  · cases h
  rename_i s1 h1
  cases h
  exact ensureExtra_mono h1

theorem resolveGroup_mono {e : MoveEnv} {pp : PosWithPrio} {ms : List InsertedMove} : ∀ {cs : List RegClass} {s s' : Slots}
    {l : List (Move (Option VReg))}, resolveGroup e pp ms cs s = some (l, s') → s.num.toNat ≤ s'.num.toNat
  | [], s, s', l, h => by simp only [resolveGroup, Option.some.injEq, Prod.mk.injEq] at h; rw [h.2]; omega
  | c :: cs, s, s', l, h => by
    simp only [resolveGroup] at h
    split at h
    · cases h
    rename_i out s1 h1
    split at h
    · cases h
    rename_i rest s2 h2
    cases h
    have := resolveClass_mono h1
    have := resolveGroup_mono h2
    omega

theorem resolveAll_mono {e : MoveEnv} : ∀ {n : Nat} {ms : List InsertedMove} {s s' : Slots} {l : List RMove},
    resolveAll e n ms s = some (l, s') → s.num.toNat ≤ s'.num.toNat
  | _, [], s, s', l, h => by simp only [resolveAll, Option.some.injEq, Prod.mk.injEq] at h; rw [h.2]; omega
  | 0, _ :: _, _, _, _, h => by simp only [resolveAll] at h; cases h
  | n + 1, m :: ms, s, s', l, h => by
    simp only [resolveAll] at h
    split at h
    · cases h
    rename_i out s1 h1
    split at h
    · cases h
    rename_i rest s2 h2
    cases h
    have := resolveGroup_mono h1
    have := resolveAll_mono h2
    omega

theorem resolveSorted_mono {e : MoveEnv} {ms : List InsertedMove} {s s' : Slots} {l : List RMove}
    (h : resolveSorted e ms s = some (l, s')) : s.num.toNat ≤ s'.num.toNat := by
  unfold resolveSorted at h
  split at h
  · cases h
  rename_i out s1 h1
  cases h
  exact resolveAll_mono h1

/-! ### The run -/

/-- The moves as they are resolved. -/
def sortedMoves (i : Input) (ms : List InsertedMove) : List InsertedMove :=
  isort (fun a b => decide (a.pp.key ≤ b.pp.key)) (i.tie.f _ ms)

/-- All passes succeeded. -/
structure Ran (i : Input) (out : Output) (fr : Front) (q : Ion.PSt) (ss : Spill.State) (slots : List SpillSlot) (num : UInt32)
    (ms : List InsertedMove) (allocs : Nat → Nat → Allocation) (edits : List RMove) (s : Slots) : Prop where
  front : FrontOk i fr
  loop : LoopOk i fr q ss slots num
  apply : Apply.apply (moveInput i fr q ss slots) = some (ms, allocs)
  resolve : resolveSorted (moveEnv i fr.info q.maps allocs) (sortedMoves i ms) (Slots.start num) = some (edits, s)
  out : out = Apply.outputOf i.f s.num.toNat edits allocs

theorem ran {i : Input} (hp : ProgramOk i) (hr : RegsOk i) {out : Output} (h : run i = .ok out) :
    ∃ fr q ss slots num ms allocs edits s, Ran i out fr q ss slots num ms allocs edits s := by
  unfold run at h
  split at h
  · cases h
  rename_i fr hfr
  have hf := front_ok hfr
  unfold back at h
  split at h
  · cases h
  · cases h
  · cases h
  rename_i q hq
  split at h
  · cases h
  rename_i ss slots num hs
  split at h
  · cases h
  rename_i ms allocs ha
  split at h
  · cases h
  rename_i edits s he
  cases h
  have P := Ion.C40_placed (params i fr.info) ⟨fr.st, reservations fr.b1.pregs⟩ q i.fuel (setting hp hf hr) (ready hp hf) hq
  refine ⟨fr, q, ss, slots, num, ms, allocs, edits, s, hf, ⟨P, slotted ?_ hs⟩, ha, he, rfl⟩
  intro t ht
  rw [P.known.1] at ht
  rw [P.extent]
  exact (corr hp hf).lone.wide t ht

theorem sortedMoves_perm (i : Input) (ms : List InsertedMove) : (sortedMoves i ms).Perm ms :=
  (perm_isort _ _).trans (i.tie.perm _ _)

theorem sortedMoves_sorted (i : Input) (ms : List InsertedMove) : (sortedMoves i ms).Pairwise (fun a b => a.pp.key ≤ b.pp.key) := by
  have := pairwise_isort (le := fun a b : InsertedMove => decide (a.pp.key ≤ b.pp.key))
    (by intro a b c h1 h2; simp only [decide_eq_true_eq] at h1 h2 ⊢; exact UInt64.le_trans h1 h2)
    (by intro a b; simp only [decide_eq_true_eq]; exact UInt64.le_total _ _) (i.tie.f _ ms)
  exact this.imp (fun h => of_decide_eq_true h)

theorem maxPreg_mem {s : PRegSet} {p : PReg} (h : s.maxPreg = some p) : s.contains p = true :=
  ((C06_max_preg s).1 p |>.mp h).1

theorem machine_ok {i : Input} (hr : RegsOk i) {fr : Front} {q : Ion.PSt} {ss : Spill.State} {slots : List SpillSlot} {num : UInt32}
    (hl : LoopOk i fr q ss slots num) (allocs : Nat → Nat → Allocation) : MachineOk (moveEnv i fr.info q.maps allocs) := by
  refine ⟨hr.disjoint, ?_, ?_, ?_, fun p => (hl.placed.maps p).1, hr.size_ok⟩
  · intro c p hcp
    obtain ⟨h1, h2⟩ := hr.alloc_ok c p hcp
    exact ⟨h1, decide_eq_false h2⟩
  · intro c p hcp
    obtain ⟨h1, h2, h3⟩ := hr.scratch_ok c p hcp
    exact ⟨h1, decide_eq_false h2, fun h => h3 ⟨c, h⟩⟩
  · intro c
    show decide (victim i.env c ∈ i.env.fixedStackSlots) = false
    apply decide_eq_false
    unfold victim
    cases h1 : (i.env.nonPreferred c).maxPreg with
    | some p => exact (hr.alloc_ok c p (.inr (maxPreg_mem h1))).2
    | none =>
      cases h2 : (i.env.preferred c).maxPreg with
      | some p => exact (hr.alloc_ok c p (.inl (maxPreg_mem h2))).2
      | none => exact hr.invalid

theorem func_ok {i : Input} (hp : ProgramOk i) (fr : Front) (q : Ion.PSt) (ss : Spill.State) (slots : List SpillSlot) :
    Apply.FuncOk (moveInput i fr q ss slots) :=
  { ready := hp.func.ready, edges := hp.func.edges, entry := hp.func.entry, small := hp.func.small, insts := hp.func.insts,
    succs_nodup := hp.func.succs_nodup, entry_params := hp.func.entry_params, params_once := hp.func.params_once,
    critical := hp.func.critical, join_ops := hp.func.join_ops, index := hp.func.index, named := hp.func.named,
    named_params := hp.func.named_params, named_args := hp.func.named_args, args_class := hp.func.args_class, reuse := hp.func.reuse,
    join_clobbers := hp.func.join_clobbers, reuse_one := hp.func.reuse_one }

section
variable {i : Input} (hp : ProgramOk i) (hr : RegsOk i) {out : Output} {fr : Front} {q : Ion.PSt} {ss : Spill.State} {slots : List SpillSlot}
  {num : UInt32} {ms : List InsertedMove} {allocs : Nat → Nat → Allocation} {edits : List RMove} {s : Slots}
  (H : Ran i out fr q ss slots num ms allocs edits s)
include H

theorem Ran.room (h : Fits i out) : Room (moveEnv i fr.info q.maps allocs) num.toNat := by
  have h1 : num.toNat ≤ s.num.toNat := resolveSorted_mono H.resolve
  unfold Fits at h
  rw [H.out] at h
  have h : s.num.toNat + 4 * ((i.size .Int).toNat + (i.size .Float).toNat + (i.size .Vector).toNat) + 2 ≤ 2 ^ 24 := h
  show num.toNat + 4 * ((i.size .Int).toNat + (i.size .Float).toNat + (i.size .Vector).toNat) + 2 ≤ 2 ^ 24
  omega

include hp hr

theorem Ran.valid : Valid (moveInput i fr q ss slots) (moveEnv i fr.info q.maps allocs) num.toNat :=
  Pipeline.valid hp hr H.front H.loop allocs

theorem Ran.agrees (hfit : Fits i out) {Val : Type} (sem : Exec.Sem Val) (junk : Nat → Allocation → Val) (ks : List Nat)
    (A : Allocation → Val) (V : VReg → Val) :
    Exec.allocRun i.f out sem junk ks i.f.entry A [] = Exec.origRun i.f sem ks i.f.entry V [] := by
  obtain ⟨ed, s', h1, h2⟩ := Apply.C38_moves_implement_assignment_partial (Val := Val) (func_ok hp fr q ss slots) (H.valid hp hr)
    (machine_ok hr H.loop allocs) (H.room hfit) H.apply rfl rfl rfl (sortedMoves_perm i ms) (sortedMoves_sorted i ms)
  rw [H.resolve] at h1
  cases h1
  rw [H.out]
  exact h2 sem junk ks A V

omit hr in
/-- The operands in the output. -/
theorem Ran.operand {j : Nat} (hj : ∃ b, b < i.f.numBlocks ∧ j ∈ i.f.blockInsts b) {k : Nat} {o : Op} (ho : (i.f.operands j)[k]? = some o) :
    Output.operand out j k = some (allocs j k) := by
  obtain ⟨b, hb, hj⟩ := hj
  have h1 := mem_blockInsts.mp hj
  have h2 := hp.func.insts b hb
  have h2 : (i.f.insns b).2 ≤ i.f.numInsts := h2
  unfold Output.operand
  rw [H.out, Apply.instAllocs_outputOf i.f _ edits allocs (by omega)]
  have hk : k < (i.f.operands j).length := by
    rcases List.getElem?_eq_some_iff.mp ho with ⟨hk, -⟩
    exact hk
  simp [List.getElem?_map, List.getElem?_range hk]

omit hr in
/-- An operand that no fixup serves is recorded as it is. -/
theorem Ran.recorded {j k : Nat} {o : Op} (ho : OpAt i.f j k o) (hno : ¬ ∃ fx ∈ allFixups fr.b1.fixups fr.second, fx.pos = ptBefore j ∧ fx.toSlot = k)
    {R : FRange} (hR : R ∈ finalRanges i q.st (allocOf q.st ss.assigned slots) o.vreg.vreg) {u : Ion.Use} (hu : u ∈ R.uses) (hk : u.slot = k)
    (hpos : u.pos = recordPoint i.f j o) : u.op = o := by
  obtain ⟨c, e, b0, e0, r0, P⟩ := part hp H.front H.loop hR
  have hu1 := P.use hu
  obtain ⟨r', g1, -, -, g2⟩ := Build.forall₂_mem_right (C39_relaxed i.env i.f.numVregs fr.b0 fr.b1 fr.second H.front.b1 o.vreg.vreg) P.mem
  obtain ⟨u', g3, g4⟩ := Build.forall₂_mem_right g2 hu1
  have hj2 : u.pos / 2 = j := by
    rw [hpos]
    rcases recordPoint_cases (f := i.f) (j := j) (o := o) with g | g
    · rw [g]; unfold ptBefore; omega
    · rw [g]; unfold ptAfter; omega
  have hsame : u = u' := by
    rcases g4 with g4 | ⟨p', -, h1, x, hx, h2, h3, -⟩
    · exact g4
    · exfalso
      have hup : u.pos = u'.pos ∧ u.slot = u'.slot := by rw [h1]; exact ⟨rfl, rfl⟩
      obtain ⟨-, j', w, w', F⟩ := second_from hp H.front hx
      refine hno ⟨x, ?_, ?_, ?_⟩
      · unfold allFixups; exact List.mem_append_right _ hx
      · have h4 := F.pos
        have h5 : x.pos / 2 = j := by rw [h2, ← hup.1]; exact hj2
        rw [h4] at h5
        unfold ptBefore at h5
        have : j' = j := by omega
        rw [h4, this]
      · rw [h3, ← hup.2, hk]
  subst hsame
  obtain ⟨j', o', h1, -, -, h2, h3⟩ := built_use hp H.front P.hv g1 g3
  have : j' = j := by omega
  subst this
  rw [hk] at h1
  have := opAt_eq h1 ho
  subst this
  rcases h3 with ⟨h3, -⟩ | ⟨p, -, -, -, -, -, h3⟩
  · exact h3
  · exfalso
    refine hno ⟨⟨ptBefore j', u.slot, u.slot, p, o'.vreg.vreg, .Initial⟩, ?_, rfl, hk⟩
    unfold allFixups
    refine List.mem_append_left _ (List.mem_map.mpr ⟨⟨ptBefore j', u.slot, p, o'.vreg.vreg⟩, List.mem_reverse.mpr ?_, rfl⟩)
    rw [(b1_rest H.front).1]
    exact h3

/-- Where an operand is that is not overwritten by an output. -/
theorem Ran.located {j k : Nat} {o : Op} (ho : OpAt i.f j k o) (hno : ¬ ∃ k' o', OpAt i.f j k' o' ∧ o'.constraint = .Reuse k) :
    (∃ p, allocs j k = Allocation.reg p ∧ p.class? = o.vreg.class? ∧ (∀ c, i.env.scratch c ≠ some p) ∧
      (Allocatable i.env p ∨ ∃ j k o, OpAt i.f j k o ∧ o.constraint = .FixedReg p) ∧ o.constraint.Admits i.env (Place.ofPReg i.env p)) ∨
    (∃ s, (allocs j k).asReg = none ∧ (allocs j k).asStack = some s ∧ s.index < num.toNat ∧
      ∀ n, o.constraint.Admits i.env (.slot n)) := by
  have hL := (Apply.C38_operand_locations (func_ok hp fr q ss slots) (H.valid hp hr) H.apply (i := j) (k := k) (o := o) ho).2 hno
  have hv : o.vreg = i.vreg o.vreg.vreg := (hp.func.named j o (List.mem_of_getElem? ho.2.1) ho.2.2).1
  by_cases hfx : ∃ fx ∈ allFixups fr.b1.fixups fr.second, fx.pos = ptBefore j ∧ fx.toSlot = k
  · left
    obtain ⟨fx, h1, h2, h3⟩ := hfx
    have h4 := hL.1 fx h1 h2 h3
    obtain ⟨j', w, w', F⟩ := fix_from hp hr H.front h1
    have : j' = j := by
      have h5 := F.pos
      unfold ptBefore at h5 h2
      omega
    subst this
    have h6 := F.target
    rw [h3] at h6
    have := opAt_eq h6 ho
    subst this
    have h7 := hr.fixed_ok _ _ _ _ F.target F.fixed
    refine ⟨fx.preg, h4, h7.1, h7.2, .inr ⟨_, _, _, F.target, F.fixed⟩, ?_⟩
    rw [F.fixed]
    rfl
  · obtain ⟨R, hR, u, hu, hk, hpos, -, ha⟩ := hL.2 hfx
    have hR : R ∈ finalRanges i q.st (allocOf q.st ss.assigned slots) o.vreg.vreg := hR
    have hop := H.recorded hp ho hfx hR hu hk hpos
    obtain ⟨c, e, b0, e0, r0, P⟩ := part hp H.front H.loop hR
    rw [P.uses] at hu
    rw [ha]
    have hcls := P.class_some hp
    rw [← hv] at hcls
    rcases P.place H.loop with ⟨p, h1, h2⟩ | h1
    · left
      have h3 := P.named hp hr H.front H.loop h1
      have h4 := (H.loop.placed.register c e p P.live h1).2 u hu
      rw [hop] at h4
      exact ⟨p, h2, by rw [h3.1, hcls], P.not_scratch hp hr H.front H.loop h1, h3.2, h4⟩
    · right
      have h4 := (H.loop.placed.slot c e P.live h1.1).2 u hu
      rw [hop] at h4
      rcases P.location hp hr H.front H.loop (e' := moveEnv i fr.info q.maps allocs) rfl rfl with ⟨p, h5, -⟩ | ⟨s, h5, h6, h7⟩
      · have := P.reg_of H.loop h5
        rw [h1.1] at this
        cases this
      · exact ⟨s, h5, h6, h7, h4⟩

/-- Operands that name a register without a virtual register get it. -/
theorem Ran.nonallocatable {j k b : Nat} {o : Op} {p : PReg} (hb : b < i.f.numBlocks) (hj : j ∈ i.f.blockInsts b)
    (ho : (i.f.operands j)[k]? = some o) (hn : o.asFixedNonallocatable = some p) : allocs j k = Allocation.reg p := by
  obtain ⟨srcs, psrcs, pdests, al1, al2, D⟩ := Apply.apply_done (func_ok hp fr q ss slots) (H.valid hp hr) H.apply
  have hno : ∀ w, ¬ OpAt i.f j k w := by
    rintro w ⟨-, h1, h2⟩
    rw [ho] at h1
    cases h1
    rw [hn] at h2
    cases h2
  have e3 : allocs j k = al2 j k := by
    rcases D.alloc3 j k with ⟨k', o', h1, h2, -⟩ | ⟨-, h1⟩
    · obtain ⟨-, -, w, h3, -⟩ := hp.func.reuse j k' k o' h1 h2
      exact absurd h3 (hno w)
    · exact h1
  have e2 : al2 j k = al1 j k := by
    rcases D.alloc2 j k with ⟨fx, h1, h2, h3, -⟩ | ⟨-, h1⟩
    · obtain ⟨j', w, w', F⟩ := fix_from hp hr H.front h1
      have : j' = j := by
        have h5 := F.pos
        unfold ptBefore at h5 h2
        omega
      subst this
      have h6 := F.target
      rw [h3] at h6
      exact absurd h6 (hno w)
    · exact h1
  have e1 : al1 j k = assigned fr.b1.allocs j k := by
    rcases D.alloc1 j k with ⟨h1, -⟩ | ⟨v, R, hR, ⟨u, hu, h1, h2⟩, -⟩
    · exact h1
    · have hR : R ∈ finalRanges i q.st (allocOf q.st ss.assigned slots) v := hR
      obtain ⟨-, j', w, h3, -, h4, -⟩ := final_records hp H.front H.loop hR hu
      have : j' = j := by
        rw [h4] at h1
        rcases recordPoint_cases (f := i.f) (j := j') (o := w) with g | g <;> rw [g] at h1
        · unfold ptBefore at h1; omega
        · unfold ptAfter at h1; omega
      subst this
      rw [h2] at h3
      exact absurd h3 (hno w)
  rw [e3, e2, e1, (b1_rest H.front).2.1]
  have hmem := fun p => C34_nonallocatable_assigned i.f i.ord i.multi fr.ls.liveouts fr.b0 H.front.b0 j k p
  have hin : (j, k, p) ∈ fr.b0.allocs := (hmem p).mpr ⟨b, hb, hj, o, ho, hn⟩
  unfold assigned
  cases hfind : fr.b0.allocs.find? (fun x => decide (x.1 = j ∧ x.2.1 = k)) with
  | none =>
    have := List.find?_eq_none.mp hfind _ hin
    simp at this
  | some x =>
    obtain ⟨j', k', p'⟩ := x
    have h1 := List.mem_of_find?_eq_some hfind
    have h2 := List.find?_some hfind
    simp only [decide_eq_true_eq] at h2
    obtain ⟨rfl, rfl⟩ := h2
    obtain ⟨-, -, -, o', h3, h4⟩ := (hmem p').mp h1
    rw [ho] at h3
    cases h3
    rw [hn] at h4
    cases h4
    rfl

/-- The edits. -/
theorem Ran.edits_ok (hfit : Fits i out) : edits.Pairwise (fun a b => a.pp.pos.bits.toNat ≤ b.pp.pos.bits.toNat) ∧
    ∀ m ∈ edits, m.pp.pos.bits.toNat % 2 = 0 ∧ m.src ≠ m.dst ∧
      ¬ (InMemory (moveEnv i fr.info q.maps allocs) m.src ∧ InMemory (moveEnv i fr.info q.maps allocs) m.dst) ∧
      ∀ a, (a = m.src ∨ a = m.dst) → Real a ∧ ∀ sl, a.asStack = some sl → sl.index < out.numSpillslots := by
  have hf := func_ok hp fr q ss slots
  have hv := H.valid hp hr
  obtain ⟨srcs, psrcs, pdests, al1, al2, D⟩ := Apply.apply_done hf hv H.apply
  obtain ⟨gs, ed, s', h1, h2, h3, h4, h5, h6, h7, -⟩ := C37_resolve_inserted_moves _ (machine_ok hr H.loop allocs) num (H.room hfit) ms
    (sortedMoves i ms) (sortedMoves_perm i ms) (sortedMoves_sorted i ms) (Apply.moves_groupOk hf hv D)
  rw [H.resolve] at h1
  cases h1
  constructor
  · refine h6.imp ?_
    intro a b hab
    unfold PosWithPrio.Before at hab
    omega
  · intro m hm
    have hm1 := h5.subset hm
    unfold flat at hm1
    obtain ⟨g, hg, hm1⟩ := List.mem_flatMap.mp hm1
    obtain ⟨y, hy, rfl⟩ := List.mem_map.mp hm1
    refine ⟨?_, h7 _ hm, (h4 g hg).noStackToStack y hy, ?_⟩
    · obtain ⟨m', hm', he⟩ := (h3 g.1).mpr ⟨g, hg, rfl⟩
      show g.1.pos.bits.toNat % 2 = 0
      rw [← he]
      exact Apply.moves_even hf hv D hm'
    · intro a ha
      rw [H.out]
      exact (h4 g hg).real y hy a ha

end

end Regalloc.Pipeline
