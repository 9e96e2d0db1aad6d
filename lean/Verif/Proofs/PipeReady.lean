import Verif.Proofs.PipeIon

namespace Regalloc.Pipeline

open Apply (OpAt DefAt entryPt exitPt)
open Build (InBlock mem_blockInsts recordPoint)
open Ion (Live Entry Tidy)

/-! ### Reservations -/

section
variable {i : Input} (hp : ProgramOk i) {fr : Front} (hf : FrontOk i fr)

include hf in
theorem b1_clear : Build.Clear fr.b1.pregs := by
  obtain ⟨tab, P⟩ := Build.fixupMulti_spec hf.b1
  exact P.clear (Build.build_resv hf.b0).clear

include hp hf

theorem b1_nonempty : ∀ x ∈ fr.b1.pregs, x.2.fr < x.2.to := by
  rintro ⟨p, k⟩ hx
  rcases ((C39_fixups i.env i.f.numVregs fr.b0 fr.b1 fr.second hf.b1).2.1 p k).mp hx with h | ⟨y, -, -, h⟩
  · rcases ((C34_reservations i.f hp.ready hp.edges i.ord i.multi _ hf.po _ hf.ls _ hf.b0).1 p k).mp h with
      ⟨b, -, j, -, -, h⟩ | ⟨y, -, -, h⟩
    · rw [h]; unfold ptAfter ptBefore; dsimp only; omega
    · rw [h]; dsimp only; omega
  · rw [h]; dsimp only; omega

omit hp hf in
theorem mem_reservations {l : List (PReg × RKey)} {p : PReg} {x : RKey × Option Nat} :
    x ∈ reservations l p ↔ x.2 = none ∧ (p, x.1) ∈ l := by
  unfold reservations
  rw [mem_isort, List.mem_map]
  constructor
  · rintro ⟨y, h1, rfl⟩
    obtain ⟨h1, h2⟩ := List.mem_filter.mp h1
    exact ⟨rfl, (of_decide_eq_true h2) ▸ h1⟩
  · rintro ⟨h1, h2⟩
    refine ⟨(p, x.1), List.mem_filter.mpr ⟨h2, by simp⟩, ?_⟩
    rw [← h1]

theorem reservations_sorted (p : PReg) : RangesSorted (reservations fr.b1.pregs p) := by
  have hne : ∀ x ∈ reservations fr.b1.pregs p, x.1.fr < x.1.to := by
    intro x hx
    exact b1_nonempty hp hf _ (mem_reservations.mp hx).2
  refine ⟨fun x hx => ⟨x.1.fr, Nat.le_refl _, hne x hx⟩, ?_⟩
  have h1 : (reservations fr.b1.pregs p).Pairwise (fun a b => RKey.cmp a.1 b.1 ≠ .eq) := by
    have h2 : ((fr.b1.pregs.filter (fun x => decide (x.1 = p))).map (fun x => (x.2, (none : Option Nat)))).Pairwise
        (fun a b => RKey.cmp a.1 b.1 ≠ .eq) := by
      rw [List.pairwise_map]
      refine (List.Pairwise.and_mem.mp ((b1_clear hf).filter (fun x => decide (x.1 = p)))).imp ?_
      rintro a b ⟨ha, hb, hab⟩
      have ha := of_decide_eq_true (List.mem_filter.mp ha).2
      have hb := of_decide_eq_true (List.mem_filter.mp hb).2
      exact hab (ha.trans hb.symm)
    unfold reservations
    refine ((perm_isort _ _).pairwise_iff ?_).mpr h2
    intro a b h e
    apply h
    rw [RKey.cmp_eq] at e ⊢
    omega
  have h3 : (reservations fr.b1.pregs p).Pairwise (fun a b => a.1.fr ≤ b.1.fr) := by
    unfold reservations
    refine (pairwise_isort ?_ ?_ _).imp (fun h => of_decide_eq_true h)
    · intro a b c h1 h2
      have h1 := of_decide_eq_true h1
      have h2 := of_decide_eq_true h2
      exact decide_eq_true (Nat.le_trans h1 h2)
    · intro a b
      rcases Nat.le_total a.1.fr b.1.fr with h | h
      · exact .inl (decide_eq_true h)
      · exact .inr (decide_eq_true h)
  refine (List.Pairwise.and_mem.mp (h1.and h3)).imp ?_
  rintro a b ⟨ha, hb, hab, hle⟩ x y hx hy
  rw [ne_eq, RKey.cmp_eq] at hab
  have ha := hne a ha
  have hb := hne b hb
  have h4 := hx.1; have h5 := hx.2; have h6 := hy.1; have h7 := hy.2
  omega

/-! ### The state before the allocation -/

omit hp hf in
theorem entry_eq {es : List Entry} (ht : Tidy es) {e e' : Entry} (he : e ∈ es) (he' : e' ∈ es) (h : e.range = e'.range) : e = e' := by
  apply Classical.byContradiction
  intro hne
  have h1 := ht.1 e he
  exact Ion.apart_tidy ht he he' hne e.range.fr ⟨⟨Nat.le_refl _, h1⟩, by rw [← h]; exact ⟨Nat.le_refl _, h1⟩⟩

theorem ready : Ion.Ready ⟨fr.st, reservations fr.b1.pregs⟩ := by
  have C := corr hp hf
  have hown : ∀ {v : Nat} {e : Entry}, e ∈ fr.st.vregs v → ∀ w, Ion.Owns fr.st w e.index ↔ w = v := by
    intro v e he w
    constructor
    · rintro ⟨e', h1, h2⟩
      exact C.owner w v e' h1 e he h2
    · rintro rfl
      exact ⟨e, he, rfl⟩
  refine ⟨?_, ?_, C.cons.tidy, C.vregs, ?_, ?_, C.lone.known, C.cons.span, C.cons.free, C.lone.unspilled, C.lone.lists, ?_⟩
  · intro c e hl
    obtain ⟨v, r, hv, hr, S⟩ := C.live c e hl
    have h := fix_regOk hp hf.toMidOk (vreg_small hp hv)
    dsimp only
    refine ⟨⟨?_, ?_, ?_, ?_, ?_, ?_, ?_, ?_, ?_, ?_⟩, ⟨?_, ?_, ?_⟩⟩
    · rw [S.full, S.range]
    · show e.index < fr.st.nRanges
      rw [C.lone.count]; exact C.index v e S.mem
    · rw [S.range]; exact h.nonempty r hr
    · exact (C.cons.link c hl.1 e hl.2).1
    · exact ⟨v, hown S.mem⟩
    · intro u hu
      rw [S.uses] at hu
      rw [S.range]; exact h.inside r hr u hu
    · show (fr.st.ranges e.index).startsAtDef = true ↔ _
      rw [S.flag, S.uses]; exact h.flag r hr
    · intro d hd hk
      rw [S.uses] at hd
      rw [S.range]; exact h.def_start hp hf.toMidOk hr hd hk
    · intro ho
      rw [S.range] at ho
      show ∃ d ∈ (fr.st.ranges e.index).uses, _
      rw [S.uses]; exact h.odd hr ho
    · show (fr.st.ranges e.index).uses.Nodup
      rw [S.uses]
      exact (h.in_order hr).imp (fun h e => h.2 (by rw [e]))
    · exact ⟨v, S.vreg, e, S.mem, rfl⟩
    · show (fr.st.ranges e.index).uses.Pairwise _
      rw [S.uses]; exact (h.in_order hr).imp (fun h => h.1)
    · show Ion.DefFirst e (fr.st.ranges e.index).uses
      rw [S.uses]
      refine ⟨?_, ?_, h.single hp hr⟩
      · intro d hd hk; rw [S.range]; exact (h.def_start hp hf.toMidOk hr hd hk).1
      · intro d hd hk u hu huk; exact h.later hp hf.toMidOk hr hd hk hu huk
  · intro c e c' e' hl hl' u hu u' hu' h1 h2
    obtain ⟨v, r, hv, hr, S⟩ := C.live c e hl
    obtain ⟨v', r', hv', hr', S'⟩ := C.live c' e' hl'
    replace hu : u ∈ (fr.st.ranges e.index).uses := hu
    replace hu' : u' ∈ (fr.st.ranges e'.index).uses := hu'
    rw [S.uses] at hu
    rw [S'.uses] at hu'
    have h := fix_regOk hp hf.toMidOk (vreg_small hp hv)
    have h' := fix_regOk hp hf.toMidOk (vreg_small hp hv')
    obtain ⟨j, o, g1, g2, g3, -⟩ := h.ops r hr u hu
    obtain ⟨j', o', g1', g2', g3', -⟩ := h'.ops r' hr' u' hu'
    rw [g3, g3', recordPoint_div, recordPoint_div] at h1
    subst h1
    have : o = o' := by
      have := g1.2.1
      rw [h2, g1'.2.1] at this
      exact (Option.some.inj this).symm
    subst this
    have : v = v' := by rw [← g2, ← g2']
    subst this
    have hi := h.inside r hr u hu
    have hi' := h.inside r' hr' u' hu'
    have hp' : u.pos = u'.pos := by rw [g3, g3']
    have : r = r' := h.same hr hr' hi.1 hi.2 hi'.1 hi'.2 (by omega) (by omega)
    subst this
    have he : e = e' := entry_eq (C.vregs.tidy v) S.mem S'.mem (by rw [S.range, S'.range])
    subst he
    refine ⟨rfl, ?_⟩
    rcases pairwise_tri (h.in_order hr) hu hu' with k | k | k
    · exact k
    · exact absurd (by rw [hp', h2]) k.2
    · exact absurd (by rw [hp', h2]) k.2
  · intro v e he
    have hv : v < i.f.numVregs := by
      apply Classical.byContradiction
      intro hc
      have he : e ∈ fr.st.vregs v := he
      rw [C.only v (by omega)] at he
      cases he
    obtain ⟨c, h1, h2⟩ := C.cons.complete v hv e he
    exact ⟨c, h1, h2⟩
  · intro c c' hc hc' _ _ h
    exact C.lone.sets c c' hc hc' h
  · intro p
    exact ⟨reservations_sorted hp hf p, fun x hx => (mem_reservations.mp hx).1⟩

/-! ### The tables of the control-flow graph -/

theorem insnBlock_of {b j : Nat} (hb : b < i.f.numBlocks) (h1 : (i.f.insns b).1 ≤ j) (h2 : j < (i.f.insns b).2) :
    (params i fr.info).insnBlock j = b := by
  have := C11_insn_block i.f fr.info hf.info (by
    intro b c k hb hc g1 g2 g3 g4
    refine block_unique hp hb hc (p := 2 * k) ?_ ?_ <;> (unfold InBlock ptBefore; omega)) b j hb h1 h2
  show ((fr.info.insnBlock[j]?).getD none).getD _ = b
  rw [this]
  rfl

theorem blocks_iff (b : Nat) (hb : b < i.f.numBlocks) (j : Nat) :
    (params i fr.info).insnBlock j = b ↔ (i.f.insns b).1 ≤ j ∧ j < (i.f.insns b).2 := by
  constructor
  · intro h
    rcases Nat.lt_or_ge j i.f.numInsts with hj | hj
    · obtain ⟨c, hc, hjc⟩ := hp.tiled j hj
      have := mem_blockInsts.mp hjc
      rw [insnBlock_of hp hf hc this.1 this.2] at h
      rw [← h]; exact this
    · exfalso
      have h : ((fr.info.insnBlock[j]?).getD none).getD i.f.numBlocks = b := h
      rw [List.getElem?_eq_none (by rw [Cfg.init_length hf.info]; exact hj)] at h
      simp at h
      omega
  · rintro ⟨h1, h2⟩
    exact insnBlock_of hp hf hb h1 h2

theorem setting (hr : RegsOk i) : Ion.Setting (params i fr.info) fr.st := by
  refine ⟨?_, ?_, ?_⟩
  · intro j k b hj hk h1 h2
    obtain ⟨a, ha, hja⟩ := hp.tiled j hj
    obtain ⟨c, hc, hkc⟩ := hp.tiled k hk
    have hja := mem_blockInsts.mp hja
    have hkc := mem_blockInsts.mp hkc
    rw [insnBlock_of hp hf ha hja.1 hja.2] at h1
    rw [insnBlock_of hp hf hc hkc.1 hkc.2] at h2
    have he : (params i fr.info).blockEntry b = 2 * (i.f.insns b).1 := by
      show (fr.info.blockEntry[b]?).getD 0 = _
      rw [(C11_entry_exit_points i.f fr.info hf.info b (by omega)).1]
      rfl
    rw [he]
    have o1 := hp.ready.ordered a b h1 (by omega)
    have n1 := hp.ready.nonempty b (by omega)
    refine ⟨by omega, ?_⟩
    rcases Nat.lt_or_eq_of_le h2 with h | h
    · have := hp.ready.ordered b c h hc; omega
    · subst h; omega
  · intro c e hl
    obtain ⟨v, r, hv, hr, S⟩ := (corr hp hf).live c e hl
    rw [S.range]
    exact (fix_regOk hp hf.toMidOk (vreg_small hp hv)).bound hp hr
  · intro cls p h
    exact (hr.alloc_ok cls p h).2

end
end Regalloc.Pipeline
