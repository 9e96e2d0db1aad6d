import Verif.Proofs.PipeStuck
import Verif.Proofs.PipeGrant
import Verif.Proofs.PipeRun
import Verif.Props.Cfg

/-! When the allocator succeeds. -/
namespace Regalloc.Pipeline

open Apply (OpAt DefAt entryPt exitPt FRange)
open Build (recordPoint InBlock LiveAt PassedOn Covered mem_blockInsts)
open Liveness (MayRead MayReadAfter)
open ResolveMoves

/-- What an error of the loop becomes. -/
def failOf : Ion.PErr → Fail
  | .tooManyLiveRegs => .error .tooManyLiveRegs
  | .fuel => .fuel
  | _ => .panic

theorem ProgramOk.fuel {i : Input} (h : ProgramOk i) (n : Nat) : ProgramOk { i with fuel := n } :=
  ⟨h.func, h.reach, h.tiled, h.vregs, h.args, h.classes, h.one_def, h.param_def, h.layout, h.late, h.limits⟩

theorem RegsOk.fuel {i : Input} (h : RegsOk i) (n : Nat) : RegsOk { i with fuel := n } :=
  ⟨h.disjoint, h.alloc_ok, h.scratch_ok, h.invalid, h.size_ok, h.fixed_ok, h.nonalloc⟩

theorem Serviceable.fuel {i : Input} (h : Serviceable i) (n : Nat) : Serviceable { i with fuel := n } :=
  ⟨h.clash, h.stack, h.supply, h.limit, h.apart, h.clobber, h.space⟩

theorem frontOk_fuel {i : Input} {fr : Front} (h : FrontOk i fr) (n : Nat) : FrontOk { i with fuel := n } fr :=
  ⟨⟨h.info, h.po, h.ls, h.b0, h.b1⟩, h.st⟩

section
variable {i : Input} (hp : ProgramOk i)
include hp

theorem noTies_ok : Liveness.NoTies i.f := not_mayRead_entry.noTies' hp

/-- The control flow graph is accepted. -/
theorem cfg_ok : ∃ info, Cfg.init i.f = .ok info := by
  refine (C11_accepts_iff i.f hp.edges hp.func.insts).1.mpr ?_
  have hin : ∀ b, MultiIn i.f b → 1 < Cfg.inEdges i.f b := by
    intro b h
    unfold Cfg.inEdges
    rcases h with h | ⟨h1, h2⟩
    · omega
    · rw [if_pos h1]
      have := List.length_pos_of_ne_nil h2
      omega
  intro a _
  constructor
  · rintro b ⟨h1, h2, h3⟩
    have := (hp.func.critical a b h1 (hin b h3)).1
    have this : i.f.succs a = [b] := this
    rw [this] at h2
    simp at h2
  · rintro ⟨⟨b, h1, h2⟩, h3⟩
    exact h3 (hp.func.join_ops a b h1 (hin b h2))

/-- How the first half ends. -/
theorem front_total (hs : Serviceable i) :
    (∃ fr, front i = .ok fr ∧ FrontOk i fr) ∨
    (front i = .error (.error .entryLivein) ∧ ∃ v, v < 2 ^ 30 ∧ MayRead i.f i.f.entry v) ∨
    (front i = .error (.error .tooManyOperands) ∧ (∃ j, 2 ^ 16 < (i.f.operands j).length) ∧ ¬ ∃ v, v < 2 ^ 30 ∧ MayRead i.f i.f.entry v) := by
  suffices h : (∃ fr, front i = .ok fr) ∨
      (front i = .error (.error .entryLivein) ∧ ∃ v, v < 2 ^ 30 ∧ MayRead i.f i.f.entry v) ∨
      (front i = .error (.error .tooManyOperands) ∧ (∃ j, 2 ^ 16 < (i.f.operands j).length) ∧ ¬ ∃ v, v < 2 ^ 30 ∧ MayRead i.f i.f.entry v) by
    rcases h with ⟨fr, h⟩ | h
    · exact .inl ⟨fr, h, front_ok h⟩
    · exact .inr h
  obtain ⟨info, hinfo⟩ := cfg_ok hp
  have hpo := cfg_postorder hinfo
  unfold front
  rw [hinfo]
  dsimp only
  obtain ⟨⟨r, h1⟩, h2, h3⟩ := C24_rejects_iff i.f i.ord hp.edges (noTies_ok hp) hp.ready.branches _ hpo
  rw [h1]
  cases r with
  | error e =>
    have := h3 e h1
    subst this
    exact .inr (.inl ⟨rfl, h2.mp h1⟩)
  | ok ls =>
    dsimp only
    obtain ⟨g1, g2⟩ := C34_no_panic i.f hp.ready hp.edges i.ord i.multi _ hpo ls h1 hs.clash
    cases hb : Build.build i.ord i.multi i.f ls.liveouts with
    | error e =>
      cases e with
      | panic => exact absurd hb g1
      | tooManyOperands => exact .inr (.inr ⟨rfl, g2 hb, fun hm => by rw [h2.mpr hm] at h1; cases h1⟩)
    | ok b0 =>
      dsimp only
      have hsv : Build.Servable i.env i.f := by
        constructor
        · intro b hb j hj k k' o o' h1 h2 h3 h4 h5 h6 h7
          exact hs.stack j k k' o o' ⟨⟨b, hb, hj⟩, h1, h3⟩ ⟨⟨b, hb, hj⟩, h2, h4⟩ h5 h6 h7
        · intro b hb j hj v
          obtain ⟨x, hx⟩ := hp.late j v
          exact ⟨x, fun k o h1 h2 h3 h4 => hx k o ⟨⟨b, hb, hj⟩, h1, h2⟩ h3 h4⟩
      obtain ⟨⟨b1, second⟩, hf⟩ := C39_no_panic i.f hp.ready hp.edges i.ord i.multi _ hpo ls h1 b0 hb i.env i.f.numVregs
        (Nat.le_trans hp.vregs (by decide)) hs.clash hsv
      rw [hf]
      dsimp only
      obtain ⟨st, hm, -⟩ := merged hp (fr := ⟨info, ls, b0, b1, second, arenas 0 b1.ranges⟩) ⟨hinfo, hpo, h1, hb, hf⟩
      rw [hm]
      exact .inl ⟨_, rfl⟩

variable {fr : Front} (hf : FrontOk i fr)
include hf

/-- Values arrive at blocks. -/
theorem arrives {q : Ion.PSt} {ss : Spill.State} {slots : List SpillSlot} {num : UInt32} (hl : LoopOk i fr q ss slots num) :
    Apply.Arrives (moveInput i fr q ss slots) := by
  have hbp := C34_block_params i.f hp.ready hp.edges i.ord i.multi _ hf.po _ hf.ls _ hf.b0
  have hv30 : ∀ v, v < i.f.numVregs → v < 2 ^ 30 := fun v hv => by
    have h1 := hp.vregs
    have : VReg.MAX < 2 ^ 30 := by decide
    omega
  have hat : ∀ b v, b < i.f.numBlocks → v < i.f.numVregs → (MayReadAfter i.f b v ∨ PassedOn i.f b v) →
      ∃ r ∈ finalRanges i q.st (allocOf q.st ss.assigned slots) v, r.Has (exitPt i.f b) := by
    intro b v hb hv ho
    have hne := hp.ready.nonempty b hb
    have hlast : i.f.lastInst b = (i.f.insns b).2 - 1 := rfl
    have hin : InBlock i.f b (exitPt i.f b) := by
      unfold InBlock exitPt ptAfter ptBefore
      omega
    obtain ⟨r0, h1, h2, h3⟩ := ((fix_regOk hp hf.toMidOk (hv30 v hv)).live b hb _ hin).mpr (.inl ⟨ho, by
      rintro d ⟨j, hj, o, -, -, -, -, rfl⟩
      have hj := mem_blockInsts.mp hj
      unfold exitPt Build.defPoint
      split <;> simp only [ptAfter, ptBefore] <;> omega⟩)
    obtain ⟨R, h4, h5, -⟩ := covered_part hp hf hl hv h1 h2 h3 (loc := allocOf q.st ss.assigned slots)
    exact ⟨R, h4, h5⟩
  constructor
  · intro b v hb hv hlive p hpb
    have hv : v < i.f.numVregs := hv
    have hb : b < i.f.numBlocks := hb
    have hlt : p < i.f.numBlocks := hp.edges.predLt p b hb hpb
    have hsucc : b ∈ i.f.succs p := (hp.edges.iff p b hlt hb).mp hpb
    refine hat p v hlt hv (.inl ⟨b, hsucc, ?_⟩)
    exact (C24_liveness_exact i.f i.ord hp.edges (noTies_ok hp) hp.ready.branches _ hf.po _ hf.ls b (hp.reach b hb) v (hv30 v hv)).1.mp hlive
  · intro x hx
    have hx : x ∈ sortedIns fr.b1.ins := hx
    unfold sortedIns at hx
    obtain ⟨⟨v, b, p⟩, h1, rfl⟩ := List.mem_map.mp (mem_isort.mp hx)
    rw [(b1_rest hf).2.2.1] at h1
    obtain ⟨hb, hv, hpb⟩ := (hbp.2 v b p).mp h1
    have hlt : p < i.f.numBlocks := hp.edges.predLt p b hb hpb
    obtain ⟨k, hk⟩ := List.mem_iff_getElem?.mp ((hp.edges.iff p b hlt hb).mp hpb)
    obtain ⟨w, hw, rfl⟩ := List.mem_map.mp hv
    obtain ⟨j, hj⟩ := List.mem_iff_getElem?.mp hw
    have har := hp.ready.arity p k b hk
    have hjl : j < (i.f.params b).length := (List.getElem?_eq_some_iff.mp hj).1
    have ha : (i.f.args p (i.f.lastInst p) k)[j]? = some ((i.f.args p (i.f.lastInst p) k)[j]'(by omega)) := List.getElem?_eq_getElem _
    generalize (i.f.args p (i.f.lastInst p) k)[j]'(by omega) = a at ha
    have hm := List.mem_of_getElem? ha
    have hkl := (List.getElem?_eq_some_iff.mp hk).1
    have hav := hp.args p k hlt hkl a hm
    refine ⟨⟨a.vreg, p, b, w.vreg⟩, ?_, rfl, rfl, hat p a.vreg hlt hav (.inr ⟨k, b, hk, List.mem_map.mpr ⟨a, hm, rfl⟩⟩)⟩
    show _ ∈ sortedOuts fr.b1.outs
    unfold sortedOuts
    refine mem_isort.mpr (List.mem_map.mpr ⟨(p, b, w.vreg, a.vreg), ?_, rfl⟩)
    rw [(b1_rest hf).2.2.2]
    exact (hbp.1 _ _ _ _).mpr ⟨hlt, k, j, w, a, hk, hj, ha, rfl, rfl⟩
  · show Apply.OutsSorted (sortedOuts fr.b1.outs)
    unfold Apply.OutsSorted sortedOuts
    refine (pairwise_isort ?_ ?_ _).imp ?_
    · intro a b c h1 h2; exact lexLe_trans _ _ _ h1 h2
    · intro a b; exact lexLe_total _ _
    · intro a b h
      simp only [lexLe, Bool.or_eq_true, Bool.and_eq_true, decide_eq_true_eq] at h
      simp only [Apply.pairLt, Bool.or_eq_false_iff, Bool.and_eq_false_imp, decide_eq_false_iff_not, decide_eq_true_eq]
      omega

variable (hr : RegsOk i) (hs : Serviceable i)
include hr hs

/-- Once every bundle has a place, the rest cannot fail. -/
theorem after_loop {q : Ion.PSt} (h : Ion.allocate (params i fr.info) i.fuel ⟨fr.st, reservations fr.b1.pregs⟩ = .ok q) :
    ∃ out, back i fr = .ok out ∧ Fits i out := by
  have P := Ion.C40_placed (params i fr.info) ⟨fr.st, reservations fr.b1.pregs⟩ q i.fuel (setting hp hf hr) (ready hp hf) h
  have hwide : ∀ t, t < q.st.nSpillsets → (q.st.spillsets t).range.fr < (q.st.spillsets t).range.to := by
    intro t ht
    rw [P.known.1] at ht
    rw [P.extent]
    exact (corr hp hf).lone.wide t ht
  have hlen : (setsOf q.st).length ≤ i.f.numVregs := by
    unfold setsOf
    rw [List.length_map, List.length_range, P.known.1]
    have := Ion.mergeVregBundles_nSpillsets _ _ _ _ _ _ hf.st
    have h0 : (arenas i.f.numVregs fr.b1.ranges).nSpillsets = 0 := rfl
    rw [h0] at this
    exact Nat.le_trans this (by omega)
  obtain ⟨m, hm, hsp⟩ : ∃ m, (∀ c, (i.size c).toNat ≤ m) ∧ 2 * (i.f.numVregs * m) +
      8 * ((i.size .Int).toNat + (i.size .Float).toNat + (i.size .Vector).toNat) + 2 ≤ 2 ^ 24 := by
    obtain ⟨c, hc⟩ : ∃ c, ∀ c', (i.size c').toNat ≤ (i.size c).toNat := by
      rcases Nat.le_total (i.size .Int).toNat (i.size .Float).toNat with h1 | h1 <;>
        rcases Nat.le_total (i.size .Float).toNat (i.size .Vector).toNat with h2 | h2 <;>
        rcases Nat.le_total (i.size .Int).toNat (i.size .Vector).toNat with h3 | h3
      · exact ⟨.Vector, fun c => by cases c <;> omega⟩
      · exact ⟨.Vector, fun c => by cases c <;> omega⟩
      · exact ⟨.Float, fun c => by cases c <;> omega⟩
      · exact ⟨.Float, fun c => by cases c <;> omega⟩
      · exact ⟨.Vector, fun c => by cases c <;> omega⟩
      · exact ⟨.Int, fun c => by cases c <;> omega⟩
      · exact ⟨.Int, fun c => by cases c <;> omega⟩
      · exact ⟨.Int, fun c => by cases c <;> omega⟩
    exact ⟨_, hc, hs.space c⟩
  obtain ⟨ss, slots, num, h1, h2⟩ := Spill.allocateSpillslots_granted (byLast := i.byLast) hr.size_ok (sets := setsOf q.st)
    (by
      intro x hx _
      unfold setsOf at hx
      obtain ⟨t, ht, rfl⟩ := List.mem_map.mp hx
      exact ⟨_, Nat.le_refl _, hwide t (List.mem_range.mp ht)⟩) hlen hm (by omega)
  have h1 : Spill.allocateSpillslots i.byLast i.sizeN 0 (setsOf q.st) = some (ss, slots, num) := h1
  have hl : LoopOk i fr q ss slots num := ⟨P, slotted hwide h1⟩
  have hfn := func_ok hp fr q ss slots
  have hv := fun allocs => Pipeline.valid hp hr hf hl allocs
  obtain ⟨⟨ms, allocs⟩, h3⟩ := Apply.apply_total hfn (hv (fun _ _ => Allocation.none)) (arrives hp hf hl)
  obtain ⟨srcs, psrcs, pdests, al1, al2, D⟩ := Apply.apply_done hfn (hv allocs) h3
  have hroom : Room (moveEnv i fr.info q.maps allocs) num.toNat := by
    show num.toNat + 4 * ((i.size .Int).toNat + (i.size .Float).toNat + (i.size .Vector).toNat) + 2 ≤ 2 ^ 24
    omega
  have hG := Apply.moves_groupOk hfn (hv allocs) D
  obtain ⟨gs, ed, s', h4, -⟩ := C37_resolve_inserted_moves _ (machine_ok hr hl allocs) num hroom ms
    (sortedMoves i ms) (sortedMoves_perm i ms) (sortedMoves_sorted i ms) hG
  have h5 := resolveSorted_bound (machine_ok hr hl allocs) hroom (sortedMoves_perm i ms) (sortedMoves_sorted i ms) hG h4
  have h5 : s'.num.toNat ≤ num.toNat + 4 * ((i.size .Int).toNat + (i.size .Float).toNat + (i.size .Vector).toNat) := h5
  refine ⟨Apply.outputOf i.f s'.num.toNat ed allocs, ?_, ?_⟩
  · unfold back
    rw [h]
    dsimp only
    rw [h1]
    dsimp only
    have h3 : Apply.apply (applyEnv i fr.info fr.ls fr.b1 fr.second q.st (allocOf q.st ss.assigned slots)) = some (ms, allocs) := h3
    rw [h3]
    dsimp only
    have h4 : resolveSorted (moveEnv i fr.info q.maps allocs)
            (isort (fun a b => decide (a.pp.key ≤ b.pp.key)) (i.tie.f _ ms)) ⟨num, fun _ => []⟩ = some (ed, s') := h4
    rw [h4]
  · show s'.num.toNat + 4 * ((i.size .Int).toNat + (i.size .Float).toNat + (i.size .Vector).toNat) + 2 ≤ 2 ^ 24
    omega

omit hp hf hr hs in
theorem back_error {e : Ion.PErr} (h : Ion.allocate (params i fr.info) i.fuel ⟨fr.st, reservations fr.b1.pregs⟩ = .error e) :
    back i fr = .error (failOf e) := by
  unfold back
  rw [h]
  cases e <;> rfl

/-- How the second half ends. -/
theorem back_total : back i fr = .error .fuel ∨ (back i fr = .error (.error .tooManyLiveRegs) ∧ Overcommitted i) ∨
    (back i fr = .error .panic ∧ Overcommitted i ∧ ¬ QuietStart i.f) ∨ ∃ out, back i fr = .ok out ∧ Fits i out := by
  have hset := setting hp hf hr
  have hrd := ready hp hf
  have hlim := limits_ok hp hf hs.limit
  have hq0 : (⟨fr.st, reservations fr.b1.pregs⟩ : Ion.PSt).st = fr.st := rfl
  cases h : Ion.allocate (params i fr.info) i.fuel ⟨fr.st, reservations fr.b1.pregs⟩ with
  | ok q => exact .inr (.inr (.inr (after_loop hp hf hr hs h)))
  | error e =>
    have hb := back_error h
    cases e with
    | fuel => exact .inl hb
    | tooManyLiveRegs => exact .inr (.inl ⟨hb, overcommitted hp hf (Ion.C40_too_many _ _ _ hset hrd hlim h)⟩)
    | panic => exact absurd h (Ion.C40_no_panic _ _ _ hset hrd (supplied hp hf hs))
    | unallocatable => exact absurd (Ion.C40_unallocatable _ _ _ hset hrd hlim h) (no_clash hp hf hs)
    | underflow =>
      obtain ⟨h1, h2⟩ := Ion.C40_underflow _ _ _ hset hrd hlim h
      exact .inr (.inr (.inl ⟨hb, overcommitted hp hf h1, fun hq => not_at_start hp hf hq h2⟩))

/-- The fuel is enough at some point. -/
theorem back_ends (hT : Ion.LocalTotal (params i fr.info)) :
    ∃ n, ∀ m, n ≤ m → back { i with fuel := m } fr = back { i with fuel := n } fr ∧ back { i with fuel := m } fr ≠ .error .fuel := by
  obtain ⟨n, h1, h2⟩ := Ion.C40_terminates (params i fr.info) ⟨fr.st, reservations fr.b1.pregs⟩ (setting hp hf hr) hT (ready hp hf)
  refine ⟨n, fun m hm => ?_⟩
  have h3 : Ion.allocate (params i fr.info) m ⟨fr.st, reservations fr.b1.pregs⟩ = Ion.allocate (params i fr.info) n ⟨fr.st, reservations fr.b1.pregs⟩ := by
    have := h2 (m - n)
    rwa [show n + (m - n) = m by omega] at this
  have heq : back { i with fuel := m } fr = back { i with fuel := n } fr := by
    show (match Ion.allocate (params i fr.info) m ⟨fr.st, reservations fr.b1.pregs⟩ with | .error .tooManyLiveRegs => _ | .error .fuel => _ | .error _ => _ | .ok q => _) = _
    rw [h3]
    rfl
  refine ⟨heq, ?_⟩
  rw [heq]
  cases h : Ion.allocate (params i fr.info) n ⟨fr.st, reservations fr.b1.pregs⟩ with
  | ok q =>
    obtain ⟨out, h4, -⟩ := after_loop (i := { i with fuel := n }) (hp.fuel n) (frontOk_fuel hf n) (hr.fuel n) (hs.fuel n) h
    rw [h4]
    simp
  | error e =>
    rw [back_error (i := { i with fuel := n }) h]
    cases e <;> simp [failOf]
    exact h1 h

end
end Regalloc.Pipeline
