import Verif.Proofs.PipeBuild
import Verif.Proofs.PipeMerge
import Verif.Props.Process
import Verif.Props.Cfg

namespace Regalloc.Pipeline

open Apply (OpAt DefAt entryPt exitPt)
open Build (InBlock mem_blockInsts)
open Ion (Live Entry Tidy)

/-! ### The arenas -/

theorem mem_allRanges {n : Nat} {rs : Nat → List Build.LR} {x : Nat × Build.LR} : x ∈ allRanges n rs ↔ x.1 < n ∧ x.2 ∈ rs x.1 := by
  unfold allRanges
  rw [List.mem_flatMap]
  constructor
  · rintro ⟨v, h1, h2⟩
    obtain ⟨r, h3, rfl⟩ := List.mem_map.mp h2
    exact ⟨List.mem_range.mp h1, h3⟩
  · rintro ⟨h1, h2⟩
    exact ⟨x.1, List.mem_range.mpr h1, List.mem_map.mpr ⟨x.2, h2, rfl⟩⟩

theorem mem_entriesOf {all : List (Nat × Build.LR)} {v : Nat} {e : Entry} :
    e ∈ entriesOf all v ↔ ∃ r, all[e.index]? = some (v, r) ∧ e.range = r.range := by
  unfold entriesOf
  rw [List.mem_filterMap]
  constructor
  · rintro ⟨⟨⟨w, r⟩, j⟩, h1, h2⟩
    rw [List.mem_zipIdx_iff_getElem?] at h1
    dsimp only at h1 h2
    split at h2
    · rename_i hw
      cases h2
      exact ⟨r, by rw [h1, hw], rfl⟩
    · cases h2
  · rintro ⟨r, h1, h2⟩
    refine ⟨((v, r), e.index), List.mem_zipIdx_iff_getElem?.mpr h1, ?_⟩
    dsimp only
    rw [if_pos rfl, ← h2]

theorem entriesOf_ranges (all : List (Nat × Build.LR)) (v : Nat) :
    (entriesOf all v).map (·.range) = all.filterMap (fun x => if x.1 = v then some x.2.range else none) := by
  unfold entriesOf
  rw [List.map_filterMap]
  have h1 : all = (all.zipIdx).map Prod.fst := by simp
  conv => rhs; rw [h1]
  rw [List.filterMap_map]
  congr 1
  funext x
  simp only [Function.comp]
  split <;> rfl

theorem entriesOf_all (n : Nat) (rs : Nat → List Build.LR) (v : Nat) :
    (entriesOf (allRanges n rs) v).map (·.range) = if v < n then (rs v).map (·.range) else [] := by
  rw [entriesOf_ranges]
  unfold allRanges
  induction n with
  | zero => simp
  | succ n ih =>
    rw [List.range_succ, List.flatMap_append, List.filterMap_append, ih]
    have : (List.filterMap (fun x : Nat × Build.LR => if x.1 = v then some x.2.range else none)
        (List.flatMap (fun v => (rs v).map (fun r => (v, r))) [n])) = if n = v then (rs n).map (·.range) else [] := by
      simp only [List.flatMap_cons, List.flatMap_nil, List.append_nil]
      rw [List.filterMap_map]
      split
      · rw [← List.filterMap_eq_map]
        congr 1
        funext x
        rename_i h
        simp [h]
      · rw [List.filterMap_eq_nil_iff]
        rename_i h
        intro a _
        simp [h]
    rw [this]
    by_cases h1 : v < n
    · rw [if_pos h1, if_neg (by omega), if_pos (by omega), List.append_nil]
    · by_cases h2 : n = v
      · subst h2
        rw [if_neg h1, if_pos rfl, if_pos (by omega), List.nil_append]
      · rw [if_neg h1, if_neg h2, if_neg (by omega), List.nil_append]

theorem entriesOf_nil {n : Nat} {rs : Nat → List Build.LR} {v : Nat} (h : v < n → rs v = []) : entriesOf (allRanges n rs) v = [] := by
  have := entriesOf_all n rs v
  split at this
  · rename_i hv
    rw [h hv] at this
    simpa using this
  · simpa using this

/-- Which range an entry stands for. -/
structure Stands (st : Ion.St) (e : Entry) (v : Nat) (r : Build.LR) : Prop where
  mem : e ∈ st.vregs v
  range : e.range = r.range
  uses : (st.ranges e.index).uses = r.uses
  flag : (st.ranges e.index).startsAtDef = r.startsAtDef
  full : (st.ranges e.index).range = r.range
  vreg : (st.ranges e.index).vreg = some v

/-- The bundles hold the ranges. -/
structure Corr (i : Input) (rs : Nat → List Build.LR) (st : Ion.St) : Prop where
  lone : Ion.Lone (allRanges i.f.numVregs rs).length st
  cons : Ion.Consistent i.cls i.f.numVregs st
  live : ∀ c e, Live st c e → ∃ v r, v < i.f.numVregs ∧ r ∈ rs v ∧ Stands st e v r
  back : ∀ v, v < i.f.numVregs → ∀ r ∈ rs v, ∃ c e, Live st c e ∧ Stands st e v r
  only : ∀ v, i.f.numVregs ≤ v → st.vregs v = []
  index : ∀ v, ∀ e ∈ st.vregs v, e.index < (allRanges i.f.numVregs rs).length
  owner : ∀ v w, ∀ e ∈ st.vregs v, ∀ e' ∈ st.vregs w, e.index = e'.index → v = w
  vregs : Ion.VregsOk st

section
variable {i : Input} (hp : ProgramOk i) {fr : Front} (hf : MidOk i fr)
include hp hf

theorem arenas_vregsOk : Ion.VregsOk (arenas i.f.numVregs fr.b1.ranges) := by
  constructor
  · intro v
    have hr := entriesOf_all i.f.numVregs fr.b1.ranges v
    show Tidy (entriesOf (allRanges i.f.numVregs fr.b1.ranges) v)
    by_cases hv : v < i.f.numVregs
    · have h := fix_regOk hp hf (vreg_small hp hv)
      rw [if_pos hv] at hr
      constructor
      · intro e he
        obtain ⟨r, h1, h2⟩ := mem_entriesOf.mp he
        rw [h2]
        exact h.nonempty r (mem_allRanges.mp (List.mem_of_getElem? h1)).2
      · have h1 : ((fr.b1.ranges v).map (·.range)).Pairwise (fun a b => a.to ≤ b.fr) :=
          List.pairwise_map.mpr (h.gap.imp (fun h => Nat.le_of_lt h))
        rw [← hr] at h1
        exact List.pairwise_map.mp h1
    · rw [entriesOf_nil (fun h => absurd h hv)]
      exact ⟨by simp, List.Pairwise.nil⟩
  · intro v e he
    obtain ⟨r, h1, h2⟩ := mem_entriesOf.mp he
    show (arenaOf _ e.index).vreg = some v ∧ (arenaOf _ e.index).range = e.range
    unfold arenaOf
    rw [h1]
    exact ⟨rfl, h2.symm⟩

omit hp hf in
theorem arenas_nonempty {v : Nat} (hv : v < i.f.numVregs) (h : fr.b1.ranges v ≠ []) : (arenas i.f.numVregs fr.b1.ranges).vregs v ≠ [] := by
  intro hn
  have := entriesOf_all i.f.numVregs fr.b1.ranges v
  rw [if_pos hv] at this
  have hn : entriesOf (allRanges i.f.numVregs fr.b1.ranges) v = [] := hn
  rw [hn] at this
  exact h (List.map_eq_nil_iff.mp this.symm)

theorem op_ranges {j k : Nat} {o : Op} (ho : OpAt i.f j k o) : o.vreg.vreg < i.f.numVregs ∧ fr.b1.ranges o.vreg.vreg ≠ [] := by
  have h1 := (hp.func.named j o (List.mem_of_getElem? ho.2.1) ho.2.2).2
  refine ⟨h1, ?_⟩
  obtain ⟨r, h2, -⟩ := (fix_regOk hp hf (vreg_small hp h1)).all j k o ho rfl
  exact List.ne_nil_of_mem h2

theorem outs_named : ∀ q ∈ (sortedOuts fr.b1.outs).map (fun o => (o.fromVreg, o.toVreg)), q.1 < i.f.numVregs ∧ q.2 < i.f.numVregs ∧
    (arenas i.f.numVregs fr.b1.ranges).vregs q.1 ≠ [] ∧ (arenas i.f.numVregs fr.b1.ranges).vregs q.2 ≠ [] := by
  intro q hq
  obtain ⟨o, ho, rfl⟩ := List.mem_map.mp hq
  unfold sortedOuts at ho
  rw [mem_isort] at ho
  obtain ⟨⟨b, c, tv, fv⟩, h1, rfl⟩ := List.mem_map.mp ho
  obtain ⟨tab, P⟩ := Build.fixupMulti_spec hf.b1
  rw [P.rest.2.2.2.2] at h1
  obtain ⟨hb, k, j, p, a, g1, g2, g3, rfl, rfl⟩ :=
    ((C34_block_params i.f hp.ready hp.edges i.ord i.multi _ hf.po _ hf.ls _ hf.b0).1 b c tv fv).mp h1
  have ha := List.mem_of_getElem? g3
  have hpm := List.mem_of_getElem? g2
  have hk := (List.getElem?_eq_some_iff.mp g1).1
  have e1 : a.vreg < i.f.numVregs := hp.args b k hb hk a ha
  have e2 : p.vreg < i.f.numVregs := (hp.func.named_params c p hpm).2
  have hc : c < i.f.numBlocks := hp.edges.succLt b c hb (List.mem_of_getElem? g1)
  refine ⟨e1, e2, arenas_nonempty e1 ?_, arenas_nonempty e2 ?_⟩
  · have h := fix_regOk hp hf (vreg_small hp e1)
    have hne := hp.ready.nonempty b hb
    have hpb : InBlock i.f b (exitPt i.f b) := by
      unfold InBlock exitPt ptBefore ptAfter Func.lastInst; omega
    obtain ⟨r, h1, -⟩ := (h.live b hb _ hpb).mpr (.inl ⟨.inr ⟨k, c, g1, List.mem_map.mpr ⟨a, ha, rfl⟩⟩, by
      intro d hd
      have : d < 2 * (i.f.insns b).2 := (defined_div hp hd).2
      unfold exitPt ptAfter Func.lastInst; omega⟩)
    exact List.ne_nil_of_mem h1
  · have h := fix_regOk hp hf (vreg_small hp e2)
    have hne := hp.ready.nonempty c hc
    have hpb : InBlock i.f c (entryPt i.f c) := by unfold InBlock entryPt ptBefore; omega
    obtain ⟨r, h1, -⟩ := (h.live c hc _ hpb).mpr (.inr (.inr (.inr ⟨List.mem_map.mpr ⟨p, hpm, rfl⟩, rfl⟩)))
    exact List.ne_nil_of_mem h1

/-- Merging succeeds. -/
theorem merged : ∃ st', Ion.mergeVregBundles i.env i.f i.cls ((sortedOuts fr.b1.outs).map (fun o => (o.fromVreg, o.toVreg)))
    (arenas i.f.numVregs fr.b1.ranges) = some st' ∧ Ion.Consistent i.cls i.f.numVregs st' ∧
    Ion.Kept (arenas i.f.numVregs fr.b1.ranges) st' := by
  have hv := arenas_vregsOk hp hf
  obtain ⟨st', h1, h2, h3, -⟩ := Ion.C33_pass i.env i.f i.cls _ (arenas i.f.numVregs fr.b1.ranges) rfl hv
    (by
      intro j hj o ho k hk
      obtain ⟨b, hb, hjb⟩ := hp.tiled j hj
      obtain ⟨m, hm⟩ := List.mem_iff_getElem?.mp ho
      have hna : o.asFixedNonallocatable = none := by unfold Op.asFixedNonallocatable; rw [hk]
      obtain ⟨-, -, o', ho', -⟩ := hp.func.reuse j m k o ⟨⟨b, hb, hjb⟩, hm, hna⟩ hk
      exact (List.getElem?_eq_some_iff.mp ho'.2.1).1)
    (by
      intro j hj o ho k hk d hd
      obtain ⟨b, hb, hjb⟩ := hp.tiled j hj
      obtain ⟨m, hm⟩ := List.mem_iff_getElem?.mp ho
      have hna : o.asFixedNonallocatable = none := by unfold Op.asFixedNonallocatable; rw [hk]
      have hoa : OpAt i.f j m o := ⟨⟨b, hb, hjb⟩, hm, hna⟩
      obtain ⟨-, -, o', ho', -⟩ := hp.func.reuse j m k o hoa hk
      have : o' = d := by
        have := ho'.2.1
        have hd' : (i.base.f.operands j)[k]? = some d := hd
        rw [hd'] at this
        exact (Option.some.inj this).symm
      subst this
      have a1 := op_ranges hp hf hoa
      have a2 := op_ranges hp hf ho'
      exact ⟨⟨a1.1, arenas_nonempty a1.1 a1.2⟩, a2.1, arenas_nonempty a2.1 a2.2⟩)
    (outs_named hp hf)
  exact ⟨st', h1, h2, h3⟩

omit hf in
theorem corr (hf : FrontOk i fr) : Corr i fr.b1.ranges fr.st := by
  have hv := arenas_vregsOk hp hf.toMidOk
  obtain ⟨st', h1, h2, h3⟩ := merged hp hf.toMidOk
  rw [hf.st] at h1
  cases h1
  have hl : Ion.Lone (allRanges i.f.numVregs fr.b1.ranges).length fr.st := by
    refine Ion.mergeVregBundles_lone _ _ _ _ _ _ ?_ hf.st
    exact ⟨fun c c' h => absurd h (Nat.not_lt_zero _), fun c h => absurd h (Nat.not_lt_zero _), fun _ => ⟨rfl, rfl⟩, ⟨rfl, rfl⟩, rfl,
      fun v e he => by
        obtain ⟨r, h5, h6⟩ := mem_entriesOf.mp (show e ∈ entriesOf (allRanges i.f.numVregs fr.b1.ranges) v from he)
        have h7 := mem_allRanges.mp (List.mem_of_getElem? h5)
        rw [h6]
        exact (fix_regOk hp hf.toMidOk (vreg_small hp h7.1)).nonempty r h7.2,
      fun t h => absurd h (Nat.not_lt_zero _)⟩
  have hst : ∀ v, ∀ e ∈ fr.st.vregs v, ∃ r, v < i.f.numVregs ∧ r ∈ fr.b1.ranges v ∧
      (allRanges i.f.numVregs fr.b1.ranges)[e.index]? = some (v, r) ∧ Stands fr.st e v r := by
    intro v e he
    have he' : e ∈ entriesOf (allRanges i.f.numVregs fr.b1.ranges) v := by rw [h3.vregs] at he; exact he
    obtain ⟨r, h5, h6⟩ := mem_entriesOf.mp he'
    have h7 := mem_allRanges.mp (List.mem_of_getElem? h5)
    have hj := h3.ranges e.index
    have ha : (arenas i.f.numVregs fr.b1.ranges).ranges e.index = ⟨r.range, some v, none, r.startsAtDef, r.uses⟩ := by
      show arenaOf _ e.index = _
      unfold arenaOf
      rw [h5]
    rw [ha] at hj
    exact ⟨r, h7.1, h7.2, h5, he, h6, hj.2.2.1, hj.2.2.2, hj.1, hj.2.1⟩
  refine ⟨hl, h2, ?_, ?_, ?_, ?_, ?_, h3.vregsOk hv⟩
  · rintro c e ⟨hc, he⟩
    obtain ⟨v, -, h4⟩ := h2.origin c hc e he
    obtain ⟨r, h5, h6, -, h7⟩ := hst v e h4
    exact ⟨v, r, h5, h6, h7⟩
  · intro v hv' r hr
    obtain ⟨j, hj⟩ := List.mem_iff_getElem?.mp (mem_allRanges.mpr ⟨hv', hr⟩ : (v, r) ∈ allRanges i.f.numVregs fr.b1.ranges)
    have he : (⟨r.range, j⟩ : Entry) ∈ fr.st.vregs v := by
      rw [h3.vregs]
      exact mem_entriesOf.mpr ⟨r, hj, rfl⟩
    obtain ⟨c, hc, hm⟩ := h2.complete v hv' _ he
    obtain ⟨r', h5, h6, h7, h8⟩ := hst v _ he
    rw [hj] at h7
    cases h7
    exact ⟨c, _, ⟨hc, hm⟩, h8⟩
  · intro v hv'
    rw [h3.vregs]
    exact entriesOf_nil (fun h => absurd h (by omega))
  · intro v e he
    obtain ⟨r, -, -, h5, -⟩ := hst v e he
    exact (List.getElem?_eq_some_iff.mp h5).1
  · intro v w e he e' he' hee
    obtain ⟨r, -, -, h5, -⟩ := hst v e he
    obtain ⟨r', -, -, h5', -⟩ := hst w e' he'
    rw [hee, h5'] at h5
    exact (Prod.mk.inj (Option.some.inj h5)).1.symm

end
end Regalloc.Pipeline
