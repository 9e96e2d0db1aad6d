import Verif.Proofs.FastSafeInst
import Verif.Proofs.FastPath

/-
The single-pass allocator does not panic: blocks and the whole run.
-/
namespace Regalloc
namespace Fast

/-- The parameters between instructions. -/
def Par.mk' (B : Nat) (P : Nat → Prop) (AL : Nat → Nat → Allocation) : Par :=
  ⟨B, P, fun _ => none, AL, fun _ => none, fun _ => False, fun _ => False⟩

/-- The invariant between instructions. -/
def K (cx : Cx) (C : Nat → VReg) (B : Nat) (P : Nat → Prop) (s : FS) : Prop := ∃ AL, NP cx C (Par.mk' B P AL) s

section
variable {cx : Cx} {C : Nat → VReg} {s s' : FS} {B : Nat} {P : Nat → Prop}

theorem NP.toK {q : Par} (h : NP cx C q s) (hr : q.RE = fun _ => none) : K cx C q.B q.P s := by
  refine ⟨q.AL, ?_⟩
  have := h.rebase (fun _ => none) (fun _ _ e => by cases e) (fun _ => False) (fun _ h => h.elim) (fun _ => False) (fun _ h => h.elim)
  unfold Par.mk'
  rw [hr] at this
  exact this

theorem K.grow (h : K cx C B P s) {P' : Nat → Prop} (hp : ∀ w, P w → P' w) : K cx C B P' s := by
  obtain ⟨AL, h⟩ := h
  exact ⟨AL, h.grow P' hp (fun _ h => h)⟩

theorem K.budget (h : K cx C B P s) {B' : Nat} (hb : B ≤ B') : K cx C B' P s := by
  obtain ⟨AL, h⟩ := h
  exact ⟨AL, h.budget hb⟩

theorem allocInst_safe (F : Fix cx C) {b i : Nat} (hO : WorkableOps cx C i) (hbr : cx.f.isBranch i = true → ∀ o ∈ cx.f.operands i, o.kind = .Use)
    (hB : B + (if cx.f.isBranch i then 12 * maxSize cx else 0) ≤ SpillSlot.MAX)
    (hd : ∀ (k k' : Nat) (o o' : Op), (cx.f.operands i)[k]? = some o → (cx.f.operands i)[k']? = some o' → o.kind = .Def → o'.kind = .Def →
      o.vreg.vreg = o'.vreg.vreg → k = k')
    (hd0 : ∀ o ∈ cx.f.operands i, o.kind = .Def → ¬ P o.vreg.vreg)
    (hu0 : ∀ o ∈ cx.f.operands i, o.kind = .Use → o.asFixedNonallocatable = none → ¬ P o.vreg.vreg ∧
      ∀ o' ∈ cx.f.operands i, o'.kind = .Def → o'.vreg.vreg ≠ o.vreg.vreg)
    (hK : cx.f.isBranch i = true → ∀ x ∈ branchPairs cx.f b i, Known cx C x.1 ∧ ∃ p, x.2 = some p ∧ Known cx C p)
    (hL : cx.f.isBranch i = true → ∀ v v' p p', (v, some p) ∈ branchPairs cx.f b i → (v', some p') ∈ branchPairs cx.f b i →
      p.vreg = p'.vreg → v = v')
    (h : K cx C B P s) :
    Safe (allocInst cx b s i) (fun s' => K cx C (B + (if cx.f.isBranch i then 12 * maxSize cx else 0)) (fun w => P w ∨ DDi cx i w) s') := by
  obtain ⟨AL, h⟩ := h
  have hB0 : B ≤ SpillSlot.MAX := by omega
  unfold allocInst
  have h1 := instSetup_safe F hO h rfl
  split
  · exact h1.err ‹_›
  · rename_i s1 nc e1
    obtain ⟨RE, k1, hre⟩ := h1.2 _ e1
    have h2 := instEvict_safe (i := i) (nc := nc) F k1 hB0
    split
    · exact h2.err ‹_›
    · rename_i s2 e2
      have h3 := instOps_safe (b := b) F hO hbr hre hB0 hd hd0 hu0 (h2.2 _ e2)
      split
      · exact h3.err ‹_›
      · rename_i s3 e3
        obtain ⟨AL', k3⟩ := h3.2 _ e3
        have h4 := useMoves_safe F hO hB0 k3
        split
        · exact h4.err ‹_›
        · rename_i s4 e4
          have k4 := h4.2 _ e4
          have h5 : Safe (if cx.f.isBranch i then processBranch cx s4 b i else .ok s4) (fun t => ∃ AL',
              NP cx C ⟨B + (if cx.f.isBranch i then 12 * maxSize cx else 0), fun w => P w ∨ DDi cx i w, RE, AL', fun _ => none, fun _ => False, fun _ => False⟩ t) := by
            split
            · rename_i hbi
              rw [if_pos hbi] at hB
              exact (processBranch_safe F (q := ⟨B, fun w => P w ∨ DDi cx i w, RE, AL', fun _ => none, fun _ => False, fun _ => False⟩) hB
                (hK hbi) (hL hbi) k4).mono (fun t ht => ⟨AL', ht⟩)
            · exact Safe.ok ⟨AL', k4⟩
          split
          · exact h5.err ‹_›
          · rename_i s5 e5
            obtain ⟨AL2, k5⟩ := h5.2 _ e5
            exact Safe.ok ⟨AL2, { k5 with re := rfl }⟩

/-! ### The start of a block -/

theorem reloadParams_safe (F : Fix cx C) {b : Nat} (hB : B ≤ SpillSlot.MAX) : ∀ (l : List VReg), (l.map VReg.vreg).Nodup → ∀ {P : Nat → Prop} {s : FS},
    (∀ p ∈ l, Known cx C p ∧ ¬ P p.vreg) → K cx C B P s →
    Safe (l.foldlM (reloadParam cx b) s) (fun s' => K cx C B (fun w => P w ∨ w ∈ l.map VReg.vreg) s')
  | [], _, P, s, _, h => Safe.ok (h.grow (fun w hw => .inl hw))
  | v :: l, hn, P, s, hl, h => by
    rw [List.map_cons, List.nodup_cons] at hn
    obtain ⟨hk, hp⟩ := hl v (by simp)
    refine Safe.cons (Q := fun s' => K cx C B (fun w => P w ∨ w = v.vreg) s') ?_ ?_
    · unfold reloadParam
      dsimp only
      split
      · exact Safe.ok (h.grow (fun w hw => .inl hw))
      · rename_i hne
        obtain ⟨AL, h⟩ := h
        have h1 := getSpillslot_safe F h hB hk.2
        split
        · exact h1.err ‹_›
        · rename_i n s1 e1
          obtain ⟨k1, _, k3, _⟩ := h1.2 _ e1
          dsimp only at k1 k3
          have h2 := freealloc_safe k1 (v := v) (by rw [k3]; exact hne) hp (fun _ h => h)
          split
          · exact h2.err ‹_›
          · rename_i s2 e2
            have k2 := (h2.2 _ e2).1
            have fin : ∀ t, NP cx C { Par.mk' B P AL with P := fun w => P w ∨ w = v.vreg, LV := fun w => w ≠ v.vreg ∧ False } t →
                K cx C B (fun w => P w ∨ w = v.vreg) t := fun t ht => ht.toK rfl
            split
            · exact Safe.ok (fin _ k2)
            · exact (addMove_safe F k2 hB hk).mono (fun t ht => fin t ht.1)
    · intro t ht
      refine (reloadParams_safe F hB l hn.2 ?_ ht).mono ?_
      · intro p hpl
        refine ⟨(hl p (by simp [hpl])).1, ?_⟩
        rintro (hx | hx)
        · exact (hl p (by simp [hpl])).2 hx
        · exact hn.1 (List.mem_map.mpr ⟨p, hpl, hx⟩)
      · intro u hu
        refine hu.grow ?_
        rintro w ((hw | hw) | hw)
        · exact .inl hw
        · exact .inr (by rw [hw]; simp)
        · exact .inr (List.mem_cons_of_mem _ hw)

theorem reloadLive_safe (F : Fix cx C) {b : Nat} {q : Par} (hB : q.B ≤ SpillSlot.MAX) (l : List VReg)
    (hl : ∀ v ∈ l, Known cx C v ∧ q.LV v.vreg) (h : NP cx C q s) : Safe (l.foldlM (reloadLive cx b) s) (fun s' => NP cx C q s') := by
  refine Safe.foldlM l (fun v hv t ht => ?_) h
  obtain ⟨hk, hlv⟩ := hl v hv
  unfold reloadLive
  dsimp only
  have h1 := getSpillslot_safe F ht hB hk.2
  split
  · exact h1.err ‹_›
  · rename_i n s1 e1
    obtain ⟨k1, k2, _, _⟩ := h1.2 _ e1
    dsimp only at k1 k2
    have k3 : NP cx C q (FS.setIn { s1 with alloc := set1 s1.alloc v.vreg (stk n) } (t.alloc v.vreg) none) := by
      apply NP.setIn_none
      exact k1.setAlloc (isNone_stk (k1.num29 hB k2)) (.inl (k1.lv _ hlv))
    split
    · exact Safe.ok k3
    · exact (addMove_safe F k3 hB hk).mono (fun t ht => ht.1)

theorem reloadAtBegin_safe (F : Fix cx C) (W : Workable cx C) {b : Nat} (hb : b < cx.f.numBlocks) (hB : B ≤ SpillSlot.MAX)
    (hn : ((cx.f.params b).map VReg.vreg).Nodup) (hp : ∀ p ∈ cx.f.params b, ¬ P p.vreg) (h : K cx C B P s) :
    Safe (reloadAtBegin cx s b) (fun s' => K cx C B (fun w => P w ∨ w ∈ (cx.f.params b).map VReg.vreg) s') := by
  have hmove : ∀ p ∈ cx.f.preds b, ∀ t v n, moveIfDefPredBranch cx t b p v n = .ok t := by
    intro p hpp t v n
    obtain ⟨h1, h2⟩ := W.preds b hb p hpp
    unfold moveIfDefPredBranch
    rw [branchDefReg_none (W.branch_uses p h1 (.inl (List.ne_nil_of_mem h2)))]
  unfold reloadAtBegin
  obtain ⟨AL0, h0⟩ := h
  have h1 := reloadParams_safe (b := b) F hB (cx.f.params b) hn (fun p hpp => ⟨W.params b hb p hpp, hp p hpp⟩) ⟨AL0, h0.reset F⟩
  split
  · exact h1.err ‹_›
  · rename_i s1 e1
    obtain ⟨AL, k1⟩ := h1.2 _ e1
    obtain ⟨l, I, hl, _⟩ := k1.live
    rw [VRegSet.toList_ok I]
    dsimp only
    have k1' := k1.rebase (fun _ => none) (fun _ _ e => by cases e) (fun w => ∃ x ∈ l, x.vreg = w)
      (fun w ⟨x, hx, e⟩ => by rw [← e]; exact (hl x hx).2) (fun _ => False) (fun _ h => h.elim)
    have h2 := reloadLive_safe (b := b) F (q := ⟨B, fun w => P w ∨ w ∈ (cx.f.params b).map VReg.vreg, fun _ => none, AL, fun _ => none, fun w => ∃ x ∈ l, x.vreg = w, fun _ => False⟩)
      hB l (fun v hv => ⟨⟨(hl v hv).1, I.lt v hv⟩, v, hv, rfl⟩) k1'
    split
    · exact h2.err ‹_›
    · rename_i s2 e2
      have k2 := (h2.2 _ e2).toK rfl
      obtain ⟨AL2, k2⟩ := k2
      have k3 : K cx C B (fun w => P w ∨ w ∈ (cx.f.params b).map VReg.vreg) { s2 with scratch := cx.env.scratch } :=
        ⟨AL2, { k2 with scratch := fun c r hr => ⟨F.env.scratch_stack hr, fun hx => F.env.scratch_init hr (k2.avail r hx.1)⟩ }⟩
      have h3 : Safe ((cx.f.params b).zipIdx.foldlM (predParams cx b) { s2 with scratch := cx.env.scratch })
          (fun t => K cx C B (fun w => P w ∨ w ∈ (cx.f.params b).map VReg.vreg) t) := by
        refine Safe.foldlM _ (fun x hx t ht => ?_) k3
        unfold predParams
        split
        · exact Safe.ok ht
        · rename_i n hn
          refine Safe.foldlM _ (fun p hpp u hu => ?_) ht
          obtain ⟨h1, h2⟩ := W.preds b hb p hpp
          unfold predParam
          split
          · rename_i hnone
            unfold succIdx at hnone
            rw [List.findIdx?_eq_none_iff] at hnone
            have := hnone b h2
            simp at this
          · rename_i k hk
            unfold succIdx at hk
            rw [List.findIdx?_eq_some_iff_getElem] at hk
            obtain ⟨hlt, hk, _⟩ := hk
            have hkb : (cx.f.succs p)[k]? = some b := by
              rw [List.getElem?_eq_getElem hlt]
              simpa using hk
            have hlen := W.lengths p h1 k b hkb
            have hx2 : x.2 < (cx.f.params b).length := by
              have := (List.mem_zipIdx_iff_getElem?).mp hx
              rw [List.getElem?_eq_some_iff] at this
              exact this.1
            split
            · rename_i hnone
              rw [List.getElem?_eq_none_iff] at hnone
              omega
            · rw [hmove p hpp]
              exact Safe.ok hu
      split
      · exact h3.err ‹_›
      · rename_i s3 e3
        refine Safe.foldlM _ (fun x hx t ht => ?_) (h3.2 _ e3)
        unfold predLive
        refine Safe.foldlM _ (fun p hpp u hu => ?_) ht
        rw [hmove p hpp]
        exact Safe.ok hu

/-! ### Blocks -/

/-- Registers written in block `b` or later. -/
def WrFrom (f : Func) (b w : Nat) : Prop := ∃ b', b ≤ b' ∧ b' < f.numBlocks ∧ w ∈ wr f b'

theorem defs_unique {l : List Op} (hn : (((l.filter (fun o => o.kind = .Def)).map Op.vreg).map VReg.vreg).Nodup) (k k' : Nat) (o o' : Op)
    (h : l[k]? = some o) (h' : l[k']? = some o') (hd : o.kind = .Def) (hd' : o'.kind = .Def) (e : o.vreg.vreg = o'.vreg.vreg) : k = k' := by
  induction l generalizing k k' with
  | nil => simp at h
  | cons x l ih =>
    have htail : (((l.filter (fun o => o.kind = .Def)).map Op.vreg).map VReg.vreg).Nodup := by
      rw [List.filter_cons] at hn
      split at hn
      · rw [List.map_cons, List.map_cons] at hn; exact (List.nodup_cons.mp hn).2
      · exact hn
    have head : ∀ (o o' : Op) (k : Nat), x = o → l[k]? = some o' → o.kind = .Def → o'.kind = .Def → o.vreg.vreg = o'.vreg.vreg → False := by
      intro o o' k hx hk h1 h2 e
      subst hx
      rw [List.filter_cons_of_pos (by simp [h1]), List.map_cons, List.map_cons, List.nodup_cons] at hn
      apply hn.1
      rw [e]
      exact List.mem_map_of_mem (List.mem_map_of_mem (List.mem_filter.mpr ⟨List.mem_of_getElem? hk, by simp [h2]⟩))
    cases k with
    | zero =>
      cases k' with
      | zero => rfl
      | succ k' =>
        rw [List.getElem?_cons_zero] at h
        rw [List.getElem?_cons_succ] at h'
        exact (head o o' k' (Option.some.inj h) h' hd hd' e).elim
    | succ k =>
      cases k' with
      | zero =>
        rw [List.getElem?_cons_zero] at h'
        rw [List.getElem?_cons_succ] at h
        exact (head o' o k (Option.some.inj h') h hd' hd e.symm).elim
      | succ k' =>
        rw [List.getElem?_cons_succ] at h h'
        rw [ih htail k k' h h']

theorem mem_writes {o : Op} {l : List Op} (h : o ∈ l) (hk : o.kind = .Def) : o.vreg ∈ opWrites l :=
  List.mem_map.mpr ⟨o, List.mem_filter.mpr ⟨h, by simp [hk]⟩, rfl⟩

theorem mem_reads {o : Op} {l : List Op} (h : o ∈ l) (hk : o.kind = .Use) (hn : o.asFixedNonallocatable = none) : o.vreg ∈ opReads l :=
  List.mem_map.mpr ⟨o, List.mem_filter.mpr ⟨h, by simp [hk, hn]⟩, rfl⟩

theorem mem_wr {f : Func} {b w : Nat} : w ∈ wr f b ↔ (∃ v ∈ f.params b, v.vreg = w) ∨ ∃ i ∈ f.blockInsts b, ∃ v ∈ opWrites (f.operands i), v.vreg = w := by
  unfold wr
  simp only [List.mem_append, List.mem_map, List.mem_flatMap]

theorem fix_of (he : EnvOk cx) (W : Workable cx C) : Fix cx C :=
  ⟨he, W.vregs, fun v hv => by
    obtain ⟨p, hp⟩ := W.classes v hv
    exact ⟨p, (regs_iff cx _ p).mpr hp⟩⟩

/-- An instruction, when the registers of later instructions `suf` and blocks are finished. -/
theorem inst_safe (he : EnvOk cx) (W : Workable cx C) {b i : Nat} {suf : List Nat} (hb : b < cx.f.numBlocks) (hi : i ∈ cx.f.blockInsts b)
    (hsuf : ∀ j ∈ suf, j ∈ cx.f.blockInsts b ∧ i < j) (hB : B + (if cx.f.isBranch i then 12 * maxSize cx else 0) ≤ SpillSlot.MAX)
    (h : K cx C B (fun w => WrFrom cx.f (b + 1) w ∨ ∃ j ∈ suf, DDi cx j w) s) :
    Safe (allocInst cx b s i) (fun s' => K cx C (B + (if cx.f.isBranch i then 12 * maxSize cx else 0))
      (fun w => WrFrom cx.f (b + 1) w ∨ ∃ j ∈ i :: suf, DDi cx j w) s') := by
  obtain ⟨hn, hw⟩ := wr_nodup_of W.single
  have hO := W.operands b hb i hi
  have hbr : cx.f.isBranch i = true → ∀ o ∈ cx.f.operands i, o.kind = .Use := by
    intro hbi
    have e := W.branch_last b hb i hi hbi
    rw [e] at hbi ⊢
    exact W.branch_uses b hb (.inr hbi)
  have hnb := hn b hb
  unfold wr at hnb
  have hni : ((opWrites (cx.f.operands i)).map VReg.vreg).Nodup := by
    have := (List.nodup_append.mp hnb).2.1
    rw [List.nodup_flatMap] at this
    exact this.1 i hi
  have hiw : ∀ v ∈ opWrites (cx.f.operands i), v.vreg ∈ wr cx.f b := fun v hv => mem_wr.mpr (.inr ⟨i, hi, v, hv, rfl⟩)
  have hord : ∀ b', b + 1 ≤ b' → b' < cx.f.numBlocks → ∀ j ∈ cx.f.blockInsts b', i < j := by
    intro b' h1 h2 j hj
    have h3 := W.layout b b' (by omega) h2
    have h4 := mem_blockInsts.mp hi
    have h5 := mem_blockInsts.mp hj
    omega
  refine (allocInst_safe (fix_of he W) hO hbr hB (fun k k' o o' => defs_unique hni k k' o o') ?_ ?_ ?_ ?_ h).mono ?_
  · intro o ho hk
    have hv := mem_writes ho hk
    rintro (⟨b', h1, h2, h3⟩ | ⟨j, hj, hx⟩)
    · have := hw b b' _ hb h2 (hiw _ hv) h3
      omega
    · obtain ⟨j1, j2⟩ := hsuf j hj
      have := def_inst_of W.single hb hb hi j1 (DDi_iff.mpr ⟨_, hv, rfl⟩) hx
      omega
  · intro o ho hk hna
    have hv := mem_reads ho hk hna
    refine ⟨?_, ?_⟩
    · rintro (⟨b', h1, h2, h3⟩ | ⟨j, hj, hx⟩)
      · rcases mem_wr.mp h3 with ⟨p, hp, e⟩ | ⟨j, hj, v, hvw, e⟩
        · have := W.use_after_param b' b i h2 hb hi p hp _ hv e
          omega
        · have := W.use_after_def b' b j i h2 hb hj hi v hvw _ hv e
          have := hord b' h1 h2 j hj
          omega
      · obtain ⟨j1, j2⟩ := hsuf j hj
        obtain ⟨v, hvw, e⟩ := DDi_iff.mp hx
        have := W.use_after_def b b j i hb hb j1 hi v hvw _ hv e
        omega
    · intro o' ho' hk' e
      have := W.use_after_def b b i i hb hb hi hi _ (mem_writes ho' hk') _ hv e
      omega
  · intro hbi x hx
    have e := W.branch_last b hb i hi hbi
    subst e
    obtain ⟨k, t, j, v, h1, h2, rfl⟩ := mem_pairs.mp hx
    have hlen := W.lengths b hb k t h1
    have hj := (List.getElem?_eq_some_iff.mp h2).1
    have ht := W.succs b hb t (List.mem_of_getElem? h1)
    refine ⟨W.args b hb k t h1 v (List.mem_of_getElem? h2), (cx.f.params t)[j]'(by omega), List.getElem?_eq_getElem (by omega), ?_⟩
    exact W.params t ht _ (List.getElem_mem _)
  · intro hbi v v' p p' hx hx' e
    have e' := W.branch_last b hb i hi hbi
    subst e'
    obtain ⟨k, t, j, u, h1, h2, e1⟩ := mem_pairs.mp hx
    obtain ⟨k', t', j', u', h1', h2', e1'⟩ := mem_pairs.mp hx'
    obtain ⟨rfl, e2⟩ := Prod.mk.inj e1
    obtain ⟨rfl, e2'⟩ := Prod.mk.inj e1'
    have ht := W.succs b hb t (List.mem_of_getElem? h1)
    have ht' := W.succs b hb t' (List.mem_of_getElem? h1')
    have m1 : p.vreg ∈ wr cx.f t := mem_wr.mpr (.inl ⟨p, List.mem_of_getElem? e2.symm, rfl⟩)
    have m2 : p.vreg ∈ wr cx.f t' := mem_wr.mpr (.inl ⟨p', List.mem_of_getElem? e2'.symm, e.symm⟩)
    have htt := hw t t' _ ht ht' m1 m2
    subst htt
    have hk : k = k' := (List.getElem?_inj (List.getElem?_eq_some_iff.mp h1).1 (W.succs_nodup b hb)).mp (h1.trans h1'.symm)
    subst hk
    have hpn : ((cx.f.params t).map VReg.vreg).Nodup := by
      have := hn t ht
      unfold wr at this
      exact (List.nodup_append.mp this).1
    have q1 : ((cx.f.params t).map VReg.vreg)[j]? = some p.vreg := by rw [List.getElem?_map, ← e2]; rfl
    have q2 : ((cx.f.params t).map VReg.vreg)[j']? = some p.vreg := by rw [List.getElem?_map, ← e2', e]; rfl
    have hj : j = j' := (List.getElem?_inj (List.getElem?_eq_some_iff.mp q1).1 hpn).mp (q1.trans q2.symm)
    subst hj
    rw [h2] at h2'
    exact Option.some.inj h2'
  · intro t ht
    refine ht.grow ?_
    rintro w ((hx | ⟨j, hj, hx⟩) | hx)
    · exact .inl hx
    · exact .inr ⟨j, by simp [hj], hx⟩
    · exact .inr ⟨i, by simp, hx⟩

/-- The slots that the branches among some instructions may ask for. -/
def brBudget (cx : Cx) (l : List Nat) : Nat := 12 * maxSize cx * (l.filter (fun i => cx.f.isBranch i)).length

theorem brBudget_cons (cx : Cx) (i : Nat) (l : List Nat) : brBudget cx (i :: l) = (if cx.f.isBranch i then 12 * maxSize cx else 0) + brBudget cx l := by
  unfold brBudget
  rw [List.filter_cons]
  split
  · rw [List.length_cons, Nat.mul_succ]; omega
  · omega

theorem brBudget_append (cx : Cx) (l l' : List Nat) : brBudget cx (l ++ l') = brBudget cx l + brBudget cx l' := by
  unfold brBudget
  rw [List.filter_append, List.length_append, Nat.mul_add]

theorem insts_safe (he : EnvOk cx) (W : Workable cx C) {b : Nat} (hb : b < cx.f.numBlocks) : ∀ (r suf : List Nat),
    cx.f.blockInsts b = r.reverse ++ suf → B + brBudget cx (cx.f.blockInsts b) ≤ SpillSlot.MAX → ∀ {s : FS},
    K cx C (B + brBudget cx suf) (fun w => WrFrom cx.f (b + 1) w ∨ ∃ j ∈ suf, DDi cx j w) s →
    Safe (r.foldlM (allocInst cx b) s) (fun s' => K cx C (B + brBudget cx (cx.f.blockInsts b))
      (fun w => WrFrom cx.f (b + 1) w ∨ ∃ j ∈ cx.f.blockInsts b, DDi cx j w) s')
  | [], suf, e, _, s, h => by
    rw [e]
    exact Safe.ok h
  | i :: r, suf, e, hB, s, h => by
    have e' : cx.f.blockInsts b = r.reverse ++ (i :: suf) := by rw [e, List.reverse_cons]; simp
    have hpw : (cx.f.blockInsts b).Pairwise (· < ·) := by
      unfold Func.blockInsts
      exact List.pairwise_lt_range'
    have hB2 : B + brBudget cx (i :: suf) ≤ SpillSlot.MAX := by
      rw [e', brBudget_append] at hB
      omega
    rw [brBudget_cons] at hB2
    refine Safe.cons (inst_safe (suf := suf) he W hb (by rw [e']; simp) ?_ (by omega) h) ?_
    · intro j hj
      refine ⟨by rw [e']; simp [hj], ?_⟩
      rw [e'] at hpw
      exact (List.pairwise_cons.mp (List.pairwise_append.mp hpw).2.1).1 j hj
    · intro t ht
      refine insts_safe he W hb r (i :: suf) e' hB ?_
      rw [brBudget_cons]
      rw [show B + ((if cx.f.isBranch i then 12 * maxSize cx else 0) + brBudget cx suf) =
        B + brBudget cx suf + (if cx.f.isBranch i then 12 * maxSize cx else 0) from by omega]
      exact ht

theorem allocBlock_safe (he : EnvOk cx) (W : Workable cx C) {b : Nat} (hb : b < cx.f.numBlocks)
    (hB : B + brBudget cx (cx.f.blockInsts b) ≤ SpillSlot.MAX) (h : K cx C B (WrFrom cx.f (b + 1)) s) :
    Safe (allocBlock cx s b) (fun s' => K cx C (B + brBudget cx (cx.f.blockInsts b)) (WrFrom cx.f b) s') := by
  obtain ⟨hn, hw⟩ := wr_nodup_of W.single
  have hnb := hn b hb
  unfold wr at hnb
  unfold allocBlock
  have h1 := insts_safe he W hb (cx.f.blockInsts b).reverse [] (by simp) hB (s := s) (h.grow (fun w hw => .inl hw))
  split
  · exact h1.err ‹_›
  · rename_i t ht
    refine (reloadAtBegin_safe (fix_of he W) W hb hB (List.nodup_append.mp hnb).1 ?_ (h1.2 _ ht)).mono ?_
    · intro p hp
      have hpw : p.vreg ∈ wr cx.f b := mem_wr.mpr (.inl ⟨p, hp, rfl⟩)
      rintro (⟨b', h1, h2, h3⟩ | ⟨j, hj, hx⟩)
      · have := hw b b' _ hb h2 hpw h3
        omega
      · obtain ⟨v, hv, e⟩ := DDi_iff.mp hx
        refine (List.nodup_append.mp hnb).2.2 p.vreg (List.mem_map_of_mem hp) p.vreg ?_ rfl
        exact List.mem_flatMap.mpr ⟨j, hj, List.mem_map.mpr ⟨v, hv, e⟩⟩
    · intro u hu
      refine hu.grow ?_
      rintro w ((⟨b', h1, h2, h3⟩ | ⟨j, hj, hx⟩) | hx)
      · exact ⟨b', by omega, h2, h3⟩
      · exact ⟨b, Nat.le_refl _, hb, mem_wr.mpr (.inr ⟨j, hj, DDi_iff.mp hx⟩)⟩
      · exact ⟨b, Nat.le_refl _, hb, mem_wr.mpr (.inl (List.mem_map.mp hx))⟩

theorem blocks_safe (he : EnvOk cx) (W : Workable cx C) : ∀ (n : Nat), n ≤ cx.f.numBlocks → ∀ {B : Nat} {s : FS},
    B + brBudget cx ((List.range n).flatMap cx.f.blockInsts) ≤ SpillSlot.MAX → K cx C B (WrFrom cx.f n) s →
    Safe ((List.range n).reverse.foldlM (allocBlock cx) s) (fun _ => True)
  | 0, _, B, s, _, _ => Safe.ok trivial
  | n + 1, hn, B, s, hB, h => by
    rw [List.range_succ, List.reverse_append]
    rw [List.range_succ, List.flatMap_append, brBudget_append] at hB
    simp only [List.flatMap_cons, List.flatMap_nil, List.append_nil] at hB
    refine Safe.cons (allocBlock_safe he W (b := n) (by omega) (by omega) h) ?_
    intro t ht
    exact blocks_safe he W n (by omega) (by omega) ht

theorem init_K (he : EnvOk cx) : K cx C (2 * maxSize cx * cx.f.numVregs) (WrFrom cx.f cx.f.numBlocks) (FS.init cx) := by
  refine ⟨fun _ _ => Allocation.none, ?_⟩
  exact {
    lru := lruOk_init he
    scratch := fun c r hr => ⟨he.scratch_stack hr, fun hx => he.scratch_init hr hx.1⟩
    avail := fun p hp => hp
    live := ⟨[], VRegSet.new_inv _, ⟨fun x hx => absurd hx (by simp), fun v hv => absurd rfl hv⟩⟩
    an := fun v _ => rfl
    inC := fun p x hx => by cases hx
    inLive := fun p x hx => by cases hx
    slotLt := fun v n hv => by cases hv
    slotInj := fun v w n hv => by cases hv
    pot := by
      show 0 + 2 * maxSize cx * (List.range cx.f.numVregs).countP (fun _ => true) ≤ _
      rw [List.countP_true, List.length_range, Nat.zero_add]
      exact Nat.le_refl _
    re := rfl
    al := rfl
    sl := fun v n hv => by cases hv
    lv := fun v hv => hv.elim
    nv := fun v hv => hv.elim }

theorem slots_budget (hS : SlotsFit cx) : 2 * maxSize cx * cx.f.numVregs + brBudget cx ((List.range cx.f.numBlocks).flatMap cx.f.blockInsts) ≤ SpillSlot.MAX := by
  unfold SlotsFit branchCount at hS
  unfold brBudget
  rw [Nat.mul_add, ← Nat.mul_assoc] at hS
  rw [show 2 * maxSize cx * 6 = 12 * maxSize cx from by omega] at hS
  exact hS

theorem run_safe (he : EnvOk cx) (W : Workable cx C) (hS : SlotsFit cx) : run cx ≠ .error .panic := by
  have h1 := blocks_safe he W cx.f.numBlocks (Nat.le_refl _) (B := 2 * maxSize cx * cx.f.numVregs) (s := FS.init cx) (slots_budget hS) (init_K he)
  unfold run
  have h2 : runEnv cx ≠ .error .panic := h1.1
  split
  · rename_i e he'
    intro hx
    cases hx
    exact h2 he'
  · simp

end

end Fast
end Regalloc
