import Verif.Proofs.FuzzShape

/-
C52: what generated functions ask for can be had on the machine of the fuzz targets.
-/
namespace Regalloc.FuzzGen

open Apply (OpAt)

theorem regsFrom_iff {lo n : Nat} (c : RegClass) (p : PReg) :
    (regsFrom lo n c).contains p = true ↔ ∃ i, lo ≤ i ∧ i < lo + n ∧ p = PReg.new i c := by
  unfold regsFrom
  rw [Built.contains_ofList, List.mem_map]
  constructor
  · rintro ⟨i, hi, rfl⟩
    rw [List.mem_range'_1] at hi
    exact ⟨i, hi.1, hi.2, rfl⟩
  · rintro ⟨i, h1, h2, rfl⟩
    exact ⟨i, List.mem_range'_1.mpr ⟨h1, h2⟩, rfl⟩

theorem preg_enc {i : Nat} (c : RegClass) (h : i ≤ 63) : (PReg.new i c).hwEnc = i := (C05_preg_roundtrip i c h).1

theorem preg_class {i : Nat} (c : RegClass) (h : i ≤ 63) : (PReg.new i c).class? = some c := (C05_preg_roundtrip i c h).2.1

theorem machine_regs {c : RegClass} {p : PReg} (h : (machineEnv.preferred c).contains p = true ∨ (machineEnv.nonPreferred c).contains p = true) :
    ∃ i, i < 32 ∧ p = PReg.new i c := by
  rcases h with h | h
  · obtain ⟨i, -, h2, e⟩ := (regsFrom_iff c p).mp h
    exact ⟨i, by omega, e⟩
  · obtain ⟨i, -, h2, e⟩ := (regsFrom_iff c p).mp h
    exact ⟨i, by omega, e⟩

theorem machine_has (c : RegClass) {i : Nat} (h : i < 32) :
    (machineEnv.preferred c).contains (PReg.new i c) = true ∨ (machineEnv.nonPreferred c).contains (PReg.new i c) = true := by
  by_cases h' : i < 24
  · exact .inl ((regsFrom_iff c _).mpr ⟨i, by omega, by omega, rfl⟩)
  · exact .inr ((regsFrom_iff c _).mpr ⟨i, by omega, by omega, rfl⟩)

theorem machine_slot {p : PReg} (h : p ∈ machineEnv.fixedStackSlots) : 32 ≤ p.hwEnc ∧ p.hwEnc < 63 := by
  unfold machineEnv at h
  dsimp only at h
  obtain ⟨i, hi, hp⟩ := List.mem_flatMap.mp h
  rw [List.mem_range'_1] at hi
  simp only [List.mem_cons, List.not_mem_nil, or_false] at hp
  rcases hp with rfl | rfl | rfl <;> rw [preg_enc _ (by omega)] <;> omega

namespace Built

variable {x : Fn} {g : Graph} {n : Nat} {es : List (Nat × Nat)} {plans : List Plan} {nv : Nat} {xs : List (List InstData × List (List VReg))}

theorem regsOk (h : Built x g n es plans nv xs) (hV : x.numVregs ≤ VReg.MAX) {i : Pipeline.Input} (hf : i.f = x.func) (he : i.env = machineEnv)
    (hz : i.size = slotSize) : Pipeline.RegsOk i := by
  obtain ⟨f, vr, mu, env, size, bl, ord, tie, tot, fuel⟩ := i
  dsimp only at hf he hz
  subst hf he hz
  have hsome : ∀ {o : Op} {p : PReg}, o.asFixedNonallocatable = some p → o.constraint = .FixedReg p ∧ o.vreg.vreg = VReg.MAX := by
    intro o p ho
    unfold Op.asFixedNonallocatable at ho
    split at ho
    · next q hc =>
      split at ho
      · next hm => cases ho; exact ⟨hc, hm⟩
      · cases ho
    · cases ho
  constructor <;> dsimp only
  case disjoint =>
    rintro c p ⟨h1, h2⟩
    obtain ⟨a, -, ha, rfl⟩ := (regsFrom_iff c p).mp h1
    obtain ⟨b, hb, hb', e⟩ := (regsFrom_iff c _).mp h2
    have := congrArg PReg.hwEnc e
    rw [preg_enc c (by omega), preg_enc c (by omega)] at this
    omega
  case alloc_ok =>
    intro c p hp
    obtain ⟨a, ha, rfl⟩ := machine_regs hp
    refine ⟨preg_class c (by omega), fun hs => ?_⟩
    have := machine_slot hs
    rw [preg_enc c (by omega)] at this
    omega
  case scratch_ok => intro c p hp; cases hp
  case invalid =>
    intro hs
    have := machine_slot hs
    exact absurd this (by decide)
  case size_ok =>
    intro c
    cases c
    · exact ⟨0, rfl⟩
    · exact ⟨0, rfl⟩
    · exact ⟨1, rfl⟩
  case fixed_ok =>
    rintro j k o p ⟨-, ho, -⟩ hc
    exact ⟨(h.operandsOk j).fixed_class o (List.mem_of_getElem? ho) p hc, fun c e => by cases e⟩
  case nonalloc =>
    intro b _ j _ o ho p hp
    obtain ⟨hc, hm⟩ := hsome hp
    rcases h.fixed ho hc with ⟨-, hw⟩ | ⟨c, -, rfl, -⟩
    · have : o.vreg.vreg < x.numVregs := h.range _ hw
      omega
    · constructor
      · rintro ⟨c', hc'⟩
        obtain ⟨a, ha, e⟩ := machine_regs hc'
        have := congrArg PReg.hwEnc e
        rw [preg_enc c (by omega), preg_enc c' (by omega)] at this
        omega
      · rintro j' k' o' ⟨-, ho', hn'⟩ hc'
        rcases h.fixed (List.mem_of_getElem? ho') hc' with ⟨h62, -⟩ | ⟨c', hv, -, -⟩
        · rw [preg_enc c (by omega)] at h62
          omega
        · unfold Op.asFixedNonallocatable at hn'
          rw [hc', hv, vreg_num c' (Nat.le_refl _)] at hn'
          simp at hn'

theorem opClass (h : Built x g n es plans nv xs) {j k : Nat} {o : Op} (ho : OpAt x.func j k o) : ∃ c, o.vreg.class? = some c :=
  (h.write_good (h.named (List.mem_of_getElem? ho.2.1) ho.2.2)).cls

theorem serviceable (h : Built x g n es plans nv xs) (hV : x.numVregs ≤ 2 ^ 21) {i : Pipeline.Input} (hf : i.f = x.func) (he : i.env = machineEnv)
    (hz : i.size = slotSize) : Pipeline.Serviceable i := by
  obtain ⟨f, vr, mu, env, size, bl, ord, tie, tot, fuel⟩ := i
  dsimp only at hf he hz
  subst hf he hz
  have hnl : ∀ {j k : Nat} {o : Op} {m : Nat}, OpAt x.func j k o → o.constraint = .Limit m → False := by
    intro j k o m ho hc
    rcases (h.operandsOk j).kinds o (List.mem_of_getElem? ho.2.1) with e | e | ⟨q, e⟩ | ⟨q, e⟩ <;> rw [e] at hc <;> cases hc
  have huse : ∀ {j : Nat} {o : Op} {p : PReg}, o ∈ x.func.operands j → o.constraint = .FixedReg p → o.kind = .Use →
      Build.recordPoint x.func j o = ptBefore j := by
    intro j o p ho hc hk
    refine recordPoint_use hk ((h.operandsOk j).early o ho hk) fun o' ho' m hm => ?_
    exact (h.operandsOk j).reuse_plain ⟨o', ho', m, hm⟩ o ho p hc
  have hdef : ∀ {j : Nat} {o : Op}, o.kind = .Def → o.pos = .Late → Build.recordPoint x.func j o = ptAfter j := by
    intro j o hk hp
    unfold Build.recordPoint Build.defPoint
    rw [hk, hp]
    simp
  constructor <;> dsimp only
  case clash =>
    constructor
    · intro j m o ho hc
      obtain ⟨k, hk⟩ := List.mem_iff_getElem?.mp ho
      obtain ⟨-, -, -, -, o', h4, -, h6, -⟩ := (h.operandsOk j).reuse k m o hk hc
      exact ⟨o', h4, by unfold Op.asFixedNonallocatable; rw [h6]⟩
    · intro j k k' o o' p ho ho' hc hc' hk hk' _ _
      by_contra hne
      rcases (h.operandsOk j).fixed_apart k k' o o' p ho ho' hne hc hc' with ⟨-, -, e, -⟩ | ⟨-, -, e, -⟩
      · rw [e] at hk'; cases hk'
      · rw [e] at hk; cases hk
  case stack =>
    rintro j k k' o o' ⟨-, ho, -⟩ - hc
    exfalso
    rcases (h.operandsOk j).kinds o (List.mem_of_getElem? ho) with e | e | ⟨q, e⟩ | ⟨q, e⟩ <;> rw [e] at hc <;> cases hc
  case supply =>
    intro j k o ho _
    obtain ⟨c, hc⟩ := h.opClass ho
    exact ⟨PReg.new 0 c, ⟨c, hc, machine_has c (by omega)⟩, fun m hm => (hnl ho hm).elim⟩
  case limit => exact fun j k o m ho hc => (hnl ho hc).elim
  case apart =>
    rintro j k k' o o' p y ⟨-, ho, -⟩ ⟨-, ho', -⟩ ⟨hc, ⟨-, c1, c2⟩, -⟩ ⟨hc', ⟨-, c1', c2'⟩, -⟩
    by_contra hne
    rcases (h.operandsOk j).fixed_apart k k' o o' p ho ho' hne hc hc' with ⟨k1, -, k2, l2⟩ | ⟨k1, -, k2, l2⟩
    · have a1 := c1 k1
      have a2 := c2' k2
      rw [huse (List.mem_of_getElem? ho) hc k1] at a1
      rw [hdef k2 l2] at a2
      dsimp only [ptBefore, ptAfter] at a1 a2
      omega
    · have a1 := c1' k1
      have a2 := c2 k2
      rw [huse (List.mem_of_getElem? ho') hc' k1] at a1
      rw [hdef k2 l2] at a2
      dsimp only [ptBefore, ptAfter] at a1 a2
      omega
  case clobber =>
    rintro j k o p ⟨-, ho, -⟩ ⟨hc, ⟨-, c1, -⟩, -⟩
    have hm := List.mem_of_getElem? ho
    cases hk : o.kind with
    | Def => exact (h.operandsOk j).clobber o hm p hk hc
    | Use =>
      have a1 := c1 hk
      rw [huse hm hc hk] at a1
      dsimp only [ptBefore, ptAfter] at a1
      omega
  case space =>
    intro c
    have e1 : (slotSize .Int).toNat = 1 := rfl
    have e2 : (slotSize .Float).toNat = 1 := rfl
    have e3 : (slotSize .Vector).toNat = 2 := rfl
    have : x.func.numVregs = x.numVregs := rfl
    have hz : (slotSize c).toNat ≤ 2 := by cases c <;> decide
    have := Nat.mul_le_mul_left x.func.numVregs hz
    rw [e1, e2, e3]
    omega

/-- The numbers of the operands that do not accept any place. -/
theorem picky_indices (ops : List Op) : ∃ ks : List Nat, ks.length = (picky ops).length ∧
    ∀ k o, ops[k]? = some o → o.constraint ≠ .Any → k ∈ ks := by
  refine ⟨(ops.zipIdx.filter (fun y => decide (y.1.constraint ≠ .Any))).map Prod.snd, ?_, ?_⟩
  · have e : picky ops = (ops.zipIdx.filter (fun y => decide (y.1.constraint ≠ .Any))).map Prod.fst := by
      unfold picky
      have : ops = ops.zipIdx.map Prod.fst := by simp
      conv => lhs; rw [this]
      rw [List.filter_map]
      rfl
    rw [e, List.length_map, List.length_map]
  · intro k o ho hc
    refine List.mem_map.mpr ⟨(o, k), List.mem_filter.mpr ⟨?_, by simpa using hc⟩, rfl⟩
    rw [List.mem_zipIdx_iff_getElem?]
    exact ho

theorem each {opts : Options} (hS : Small opts x) (j : Nat) :
    ∃ cl : List PReg, InstSize opts (x.func.operands j) cl ∧ ∀ p, p ∈ x.func.clobbers j ↔ p ∈ cl := by
  refine ⟨(x.insts[j]?.map (·.clobbers)).getD [], ?_, fun p => mem_clobbers⟩
  show InstSize opts ((x.insts[j]?.map (·.operands)).getD []) _
  cases hj : x.insts[j]? with
  | none => exact instSize_nil _
  | some d => exact hS.each d (List.mem_of_getElem? hj)

theorem not_overcommitted (h : Built x g n es plans nv xs) {opts : Options} (hS : Small opts x) (hn : opts.numUses.2 + 2 + opts.numClobbers.2 < 32)
    {i : Pipeline.Input} (hf : i.f = x.func) (he : i.env = machineEnv) : ¬ Pipeline.Overcommitted i := by
  obtain ⟨f, vr, mu, env, size, bl, ord, tie, tot, fuel⟩ := i
  dsimp only at hf he
  subst hf he
  rintro ⟨j, k, o, ho, -, taken, h1, h2⟩
  dsimp only at ho h1 h2
  obtain ⟨c, hc⟩ := h.opClass ho
  have hno : ∀ m, o.constraint ≠ .Limit m := by
    intro m hc
    rcases (h.operandsOk j).kinds o (List.mem_of_getElem? ho.2.1) with e | e | ⟨q, e⟩ | ⟨q, e⟩ <;> rw [e] at hc <;> cases hc
  obtain ⟨cl, hz, hcl⟩ := each hS j
  obtain ⟨ks, hlen, hks⟩ := picky_indices (x.func.operands j)
  have hmay : ∀ e, e < 32 → Pipeline.MayHave ⟨x.func, vr, mu, machineEnv, size, bl, ord, tie, tot, fuel⟩ o (PReg.new e c) :=
    fun e he => ⟨⟨c, hc, machine_has c he⟩, fun m hm => absurd hm (hno m)⟩
  have hinj : ∀ e e', e < 32 → e' < 32 → PReg.new e c = PReg.new e' c → e = e' := by
    intro e e' h1 h2 heq
    have := congrArg PReg.hwEnc heq
    rwa [preg_enc c (by omega), preg_enc c (by omega)] at this
  -- registers that are clobbered, and registers that go to other operands
  let A := (List.range 32).filter (fun e => decide (taken (PReg.new e c) = none))
  let B := (List.range 32).filter (fun e => !decide (taken (PReg.new e c) = none))
  have hAB : A.length + B.length = 32 := by
    have := List.length_eq_length_filter_add (l := List.range 32) (fun e => decide (taken (PReg.new e c) = none))
    rw [List.length_range] at this
    exact this.symm
  have hA : A.length ≤ cl.length := by
    have hnd : (A.map (fun e => PReg.new e c)).Nodup := by
      refine List.Nodup.map_on ?_ (List.Pairwise.filter _ List.nodup_range)
      intro e he e' he' heq
      exact hinj e e' (List.mem_range.mp (List.mem_filter.mp he).1) (List.mem_range.mp (List.mem_filter.mp he').1) heq
    have := (List.subperm_of_subset hnd (l₂ := cl) ?_).length_le
    · rwa [List.length_map] at this
    · intro p hp
      obtain ⟨e, he, rfl⟩ := List.mem_map.mp hp
      obtain ⟨m1, m2⟩ := List.mem_filter.mp he
      have := h1 _ (hmay e (List.mem_range.mp m1))
      rw [of_decide_eq_true m2] at this
      exact (hcl _).mp this.1
  have hB : B.length ≤ ks.length := by
    have hnd : (B.map (fun e => (taken (PReg.new e c)).getD 0)).Nodup := by
      refine List.Nodup.map_on ?_ (List.Pairwise.filter _ List.nodup_range)
      intro e he e' he' heq
      obtain ⟨m1, m2⟩ := List.mem_filter.mp he
      obtain ⟨m1', m2'⟩ := List.mem_filter.mp he'
      simp only [Bool.not_eq_true', decide_eq_false_iff_not] at m2 m2'
      have m1 := List.mem_range.mp m1
      have m1' := List.mem_range.mp m1'
      refine hinj e e' m1 m1' (h2 _ _ (hmay e m1) (hmay e' m1') ?_ m2)
      cases t : taken (PReg.new e c) with
      | none => exact absurd t m2
      | some a =>
        cases t' : taken (PReg.new e' c) with
        | none => exact absurd t' m2'
        | some a' =>
          rw [t, t'] at heq
          exact congrArg some heq
    have := (List.subperm_of_subset hnd (l₂ := ks) ?_).length_le
    · rwa [List.length_map] at this
    · intro k' hk'
      obtain ⟨e, he, rfl⟩ := List.mem_map.mp hk'
      obtain ⟨m1, m2⟩ := List.mem_filter.mp he
      simp only [Bool.not_eq_true', decide_eq_false_iff_not] at m2
      have := h1 _ (hmay e (List.mem_range.mp m1))
      cases t : taken (PReg.new e c) with
      | none => exact absurd t m2
      | some a =>
        rw [t] at this
        obtain ⟨-, o', ho', hna, -⟩ := this
        exact hks a o' ho'.2.1 hna
  have := hz.picky
  have := hz.clobbers
  omega

theorem plainReuse (h : Built x g n es plans nv xs) : Pipeline.PlainReuse x.func := by
  intro j k k' o o' ho' hc ho
  obtain ⟨-, -, -, -, o2, h4, -, h6, -⟩ := (h.operandsOk j).reuse k' k o' ho'.2.1 hc
  rw [ho.2.1] at h4
  cases h4
  exact .inr h6

theorem branchLast (h : Built x g n es plans nv xs) : Pipeline.BranchLast x.func := by
  intro b hb j hj hbr
  rw [h.numBlocks] at hb
  obtain ⟨l1, l2⟩ := (h.mem_insts hb).mp hj
  rw [h.last hb]
  rcases h.inst hb l1 l2 with ⟨e, -⟩ | ⟨-, -, e, -⟩
  · omega
  · rw [e] at hbr; cases hbr

end Built

end Regalloc.FuzzGen
