import Verif.Spec.Run
import Verif.Props.Ssa
import Verif.Props.Cfg
import Mathlib.Data.List.Nodup

/-
What validation guarantees, as it is required by the proofs about the allocators (C43).
-/
namespace Regalloc.Api

open Pipeline (Input)
open Apply (OpAt DefAt entryPt exitPt)

theorem validate_iff (f : Func) : validate f = .ok () ↔ ∃ info, Cfg.init f = .ok info ∧ Ssa.validate f info = .ok () := by
  unfold validate
  cases h : Cfg.init f with
  | panic => simp
  | err e => simp
  | ok info =>
    cases h2 : Ssa.validate f info with
    | panic => simp [h2]
    | err e => simp [h2]
    | ok u => cases u; simp [h2]

theorem inSsa_of {f : Func} (hm : EdgesMatch f) (hi : ∀ b, b < f.numBlocks → (f.insns b).2 ≤ f.numInsts) (h : validate f = .ok ()) : InSsa f := by
  obtain ⟨info, h1, h2⟩ := (validate_iff f).mp h
  obtain ⟨s1, s2⟩ := C10_single_definition f info h2
  obtain ⟨t1, t2⟩ := C10_terminators f info h2
  exact ⟨s1, s2, fun b l => C10_defined_before_use f info h1 hm h2 b l, t1, t2, (C11_accepts_iff f hm hi).1.mp ⟨info, h1⟩⟩

/-! ### Definitions are unique -/

theorem pairwise_idx {α β : Type} {l : List α} {p : α → Bool} {g : α → β} (h : ((l.filter p).map g).Nodup) {k k' : Nat} {a a' : α}
    (hk : l[k]? = some a) (hk' : l[k']? = some a') (ha : p a = true) (ha' : p a' = true) (e : g a = g a') : k = k' := by
  unfold List.Nodup at h
  rw [List.pairwise_map, List.pairwise_filter, List.pairwise_iff_getElem] at h
  obtain ⟨l1, e1⟩ := List.getElem?_eq_some_iff.mp hk
  obtain ⟨l2, e2⟩ := List.getElem?_eq_some_iff.mp hk'
  rcases Nat.lt_trichotomy k k' with hlt | heq | hgt
  · exact absurd e (by have := h k k' l1 l2 hlt; rw [e1, e2] at this; exact this ha ha')
  · exact heq
  · exact absurd e.symm (by have := h k' k l2 l1 hgt; rw [e1, e2] at this; exact this ha' ha)

theorem flatMap_apart {α β : Type} {l : List α} {g : α → List β} (h : (l.flatMap g).Nodup) {x y : α} (hx : x ∈ l) (hy : y ∈ l) {z : β}
    (hzx : z ∈ g x) (hzy : z ∈ g y) : x = y := by
  rw [List.nodup_flatMap] at h
  by_contra hne
  have := h.2
  rcases List.mem_iff_getElem.mp hx with ⟨k, hk, rfl⟩
  rcases List.mem_iff_getElem.mp hy with ⟨m, hm, rfl⟩
  rw [List.pairwise_iff_getElem] at this
  rcases Nat.lt_trichotomy k m with hlt | heq | hgt
  · exact this k m hk hm hlt hzx hzy
  · subst heq; exact hne rfl
  · exact this m k hm hk hgt hzy hzx

theorem flatMap_part {α β : Type} {l : List α} {g : α → List β} (h : (l.flatMap g).Nodup) {x : α} (hx : x ∈ l) : (g x).Nodup :=
  (List.nodup_flatMap.mp h).1 x hx

section
variable {f : Func} (hs : InSsa f)
include hs

theorem nodup_blocks : ((List.range f.numBlocks).flatMap (fun b => (Ssa.writes f b).map VReg.vreg)).Nodup := by
  have := hs.single
  unfold allWrites at this
  rw [List.map_flatMap] at this
  exact this

theorem write_block {b b' : Nat} (hb : b < f.numBlocks) (hb' : b' < f.numBlocks) {v w : VReg} (hv : v ∈ Ssa.writes f b) (hw : w ∈ Ssa.writes f b')
    (e : v.vreg = w.vreg) : b = b' :=
  flatMap_apart (nodup_blocks hs) (List.mem_range.mpr hb) (List.mem_range.mpr hb') (List.mem_map.mpr ⟨v, hv, rfl⟩) (List.mem_map.mpr ⟨w, hw, e.symm⟩)

theorem nodup_block {b : Nat} (hb : b < f.numBlocks) : ((f.params b).map VReg.vreg).Nodup ∧
    ((f.blockInsts b).flatMap (fun i => (opWrites (f.operands i)).map VReg.vreg)).Nodup ∧
    ∀ p ∈ f.params b, ∀ i ∈ f.blockInsts b, ∀ w ∈ opWrites (f.operands i), p.vreg ≠ w.vreg := by
  have := flatMap_part (nodup_blocks hs) (List.mem_range.mpr hb)
  unfold Ssa.writes at this
  rw [List.map_append, List.nodup_append, List.map_flatMap] at this
  refine ⟨this.1, this.2.1, ?_⟩
  intro p hp i hi w hw e
  exact this.2.2 p.vreg (List.mem_map.mpr ⟨p, hp, rfl⟩) w.vreg (List.mem_flatMap.mpr ⟨i, hi, List.mem_map.mpr ⟨w, hw, rfl⟩⟩) e

omit hs in
theorem mem_opWrites {ops : List Op} {k : Nat} {o : Op} (h : ops[k]? = some o) (hd : o.kind = .Def) : o.vreg ∈ opWrites ops :=
  List.mem_map.mpr ⟨o, List.mem_filter.mpr ⟨List.mem_of_getElem? h, decide_eq_true hd⟩, rfl⟩

omit hs in
theorem mem_writes {b i : Nat} (hi : i ∈ f.blockInsts b) {v : VReg} (hv : v ∈ opWrites (f.operands i)) : v ∈ Ssa.writes f b :=
  List.mem_append_right _ (List.mem_flatMap.mpr ⟨i, hi, hv⟩)

theorem one_def {b b' j j' k k' : Nat} {o o' : Op} (hb : b < f.numBlocks) (hb' : b' < f.numBlocks) (hj : j ∈ f.blockInsts b)
    (hj' : j' ∈ f.blockInsts b') (ho : (f.operands j)[k]? = some o) (ho' : (f.operands j')[k']? = some o') (hd : o.kind = .Def)
    (hd' : o'.kind = .Def) (e : o.vreg.vreg = o'.vreg.vreg) : j = j' ∧ k = k' := by
  have h1 := mem_opWrites ho hd
  have h2 := mem_opWrites ho' hd'
  have := write_block hs hb hb' (mem_writes hj h1) (mem_writes hj' h2) e
  subst this
  have hn := (nodup_block hs hb).2.1
  have := flatMap_apart hn hj hj' (z := o.vreg.vreg) (List.mem_map.mpr ⟨_, h1, rfl⟩) (List.mem_map.mpr ⟨_, h2, e.symm⟩)
  subst this
  refine ⟨rfl, ?_⟩
  have h3 := flatMap_part hn hj
  unfold opWrites at h3
  rw [List.map_map] at h3
  exact pairwise_idx h3 ho ho' (decide_eq_true hd) (decide_eq_true hd') e

/-- An instruction does not read what it defines. -/
theorem read_not_written {info : Cfg.Info} (hv : Ssa.validate f info = .ok ()) {b j : Nat} (hb : b < f.numBlocks) (hj : j ∈ f.blockInsts b)
    {v w : VReg} (hr : v ∈ opReads (f.operands j)) (hw : w ∈ opWrites (f.operands j)) : v.vreg ≠ w.vreg := by
  intro e
  obtain ⟨t, h1, h2, _, _⟩ := (Ssa.validate_ok f info).mp hv
  obtain ⟨_, _, p3, _⟩ := Ssa.pass1_ok _ h1
  obtain ⟨is1, is2, hsp⟩ := List.append_of_mem hj
  have hu := h2 b hb is1 j is2 hsp v hr
  have ht := p3 b (List.mem_range.mpr hb) w (mem_writes hj hw)
  unfold Ssa.checkUse at hu
  rw [e, ht] at hu
  simp only [if_true] at hu
  split at hu
  · rename_i hmem
    rcases List.mem_append.mp hmem with hp | hp
    · exact (nodup_block hs hb).2.2 v hp j hj w hw e
    · obtain ⟨i, hi, hvi⟩ := List.mem_flatMap.mp hp
      have hn := (nodup_block hs hb).2.1
      rw [hsp, List.flatMap_append, List.nodup_append] at hn
      exact hn.2.2 v.vreg (List.mem_flatMap.mpr ⟨i, hi, List.mem_map.mpr ⟨v, hvi, rfl⟩⟩) w.vreg
        (List.mem_flatMap.mpr ⟨j, List.mem_cons_self, List.mem_map.mpr ⟨w, hw, rfl⟩⟩) e
  · cases hu

/-! ### Terminators -/

theorem branch_last {b i : Nat} (hb : b < f.numBlocks) (hi : i ∈ f.blockInsts b) (h : f.isBranch i = true) : i = f.lastInst b := by
  have := (hs.terminators b hb i hi).1.mp (.inl h)
  unfold Func.lastInst
  omega

omit hs in
theorem lastInst_in {b : Nat} (hn : (f.insns b).1 < (f.insns b).2) : f.lastInst b ∈ f.blockInsts b := by
  unfold Func.lastInst Func.blockInsts
  rw [List.mem_range'_1]
  omega

theorem succs_branch {b : Nat} (hb : b < f.numBlocks) (hn : (f.insns b).1 < (f.insns b).2)
    (hret : f.isRet (f.lastInst b) = true → f.succs b = []) (h : f.succs b ≠ []) : f.isBranch (f.lastInst b) = true := by
  have := (hs.terminators b hb _ (lastInst_in hn)).1.mpr (by unfold Func.lastInst; omega)
  rcases this with h1 | h1
  · exact h1
  · exact absurd (hret h1) h

theorem arity {b : Nat} (hb : b < f.numBlocks) (hn : (f.insns b).1 < (f.insns b).2)
    (hret : f.isRet (f.lastInst b) = true → f.succs b = []) {k c : Nat} (h : (f.succs b)[k]? = some c) :
    (f.args b (f.lastInst b) k).length = (f.params c).length := by
  have hne : f.succs b ≠ [] := by rintro e; rw [e] at h; cases h
  exact (hs.terminators b hb _ (lastInst_in hn)).2 (by unfold Func.lastInst; omega) (succs_branch hs hb hn hret hne) k c h

theorem not_critical {b c : Nat} (hb : b < f.numBlocks) (hc : c ∈ f.succs b) (hm : MultiIn f c) : f.succs b = [c] := by
  have h1 : ¬ 1 < (f.succs b).length := fun h => (hs.critical b hb).1 c ⟨hc, h, hm⟩
  match hsu : f.succs b, h1 with
  | [], _ => rw [hsu] at hc; cases hc
  | [x], _ => rw [hsu] at hc; rw [List.mem_singleton.mp hc]
  | _ :: _ :: _, h1 => simp at h1

theorem join_ops {b c : Nat} (hb : b < f.numBlocks) (hc : c ∈ f.succs b) (hm : MultiIn f c) : f.operands (f.lastInst b) = [] := by
  by_contra hne
  exact (hs.critical b hb).2 ⟨⟨c, hc, hm⟩, hne⟩
end

/-! ### The backtracking allocator -/

theorem programOk_of_valid {i : Input} (hv : validate i.f = .ok ()) (h : IonShape i) : Pipeline.ProgramOk i := by
  have hs := inSsa_of h.edges h.insts hv
  obtain ⟨info, _, hval⟩ := (validate_iff i.f).mp hv
  have hlt : ∀ {b : Nat}, i.f.succs b ≠ [] → b < i.f.numBlocks := by
    intro b hb
    by_contra hge
    exact hb (h.beyond b (by omega)).1
  have hplt : ∀ {b : Nat}, i.f.params b ≠ [] → b < i.f.numBlocks := by
    intro b hb
    by_contra hge
    exact hb (h.beyond b (by omega)).2
  have hin : ∀ {j : Nat}, i.f.operands j ≠ [] → ∃ b, b < i.f.numBlocks ∧ j ∈ i.f.blockInsts b := by
    intro j hj
    by_contra hno
    exact hj (h.outside j (fun b hb hm => hno ⟨b, hb, hm⟩))
  have hne : ∀ {α : Type} {l : List α} {x : α}, x ∈ l → l ≠ [] := fun hx e => by rw [e] at hx; cases hx
  have hne' : ∀ {α : Type} {l : List α} {k : Nat} {x : α}, l[k]? = some x → l ≠ [] := fun hx e => by rw [e] at hx; cases hx
  have hdef : ∀ {b v p}, Build.DefinedAt i.f b v p → ∃ j ∈ i.f.blockInsts b, ∃ w ∈ opWrites (i.f.operands j), w.vreg = v := by
    rintro b v p ⟨j, hj, o, ho, _, hd, e, _⟩
    exact ⟨j, hj, o.vreg, List.mem_map.mpr ⟨o, List.mem_filter.mpr ⟨ho, decide_eq_true hd⟩, rfl⟩, e⟩
  have hready : Build.Ready i.f := by
    refine ⟨h.nonempty, h.ordered, ?_, ?_, ?_, ?_, ?_⟩
    · intro b hb
      exact succs_branch hs (hlt hb) (h.nonempty b (hlt hb)) (h.ret b (hlt hb)) hb
    · intro b k c hk
      have hb := hlt (hne' hk)
      exact arity hs hb (h.nonempty b hb) (h.ret b hb) hk
    · intro j k k' o o' ho ho' hkk hn hn' e
      obtain ⟨b, hb, hj⟩ := hin (hne' ho)
      cases hd : o.kind with
      | Use => rfl
      | Def =>
        exfalso
        cases hd' : o'.kind with
        | Def => exact hkk (one_def hs hb hb hj hj ho ho' hd hd' e).2
        | Use =>
          refine read_not_written hs hval hb hj (v := o'.vreg) ?_ (mem_opWrites ho hd) e.symm
          exact List.mem_map.mpr ⟨o', List.mem_filter.mpr ⟨List.mem_of_getElem? ho', decide_eq_true ⟨hd', hn'⟩⟩, rfl⟩
    · intro b
      by_cases hp : i.f.params b = []
      · rw [hp]; exact List.nodup_nil
      · exact (nodup_block hs (hplt hp)).1
    · intro b v hv p hd
      obtain ⟨j, hj, w, hw, e⟩ := hdef hd
      exact (nodup_block hs (hplt (hne hv))).2.2 v hv j hj w hw e.symm
  refine ⟨⟨⟨hready, h.edges, h.edges.entryLt, h.small, h.insts, h.succs_nodup, hs.entry, ?_, ?_, ?_, h.index, h.named, ?_, h.named_args,
    h.args_class, h.reuse⟩, h.join_clobbers, h.reuse_one⟩, h.reach, h.tiled, h.vregs, h.args, h.classes, ?_, ?_, h.layout, h.late, h.limits⟩
  · intro b c v hb hc
    obtain ⟨p, hp, rfl⟩ := List.mem_map.mp hb
    obtain ⟨q, hq, e⟩ := List.mem_map.mp hc
    exact write_block hs (hplt (hne hp)) (hplt (hne hq)) (List.mem_append_left _ hp) (List.mem_append_left _ hq) e.symm
  · intro b c hc hm
    have hb := hlt (hne hc)
    refine ⟨not_critical hs hb hc ((inEdges_gt_one _ _).mp hm), ?_⟩
    cases hr : i.f.isRet (i.f.lastInst b) with
    | false => exact hr
    | true => exact absurd (h.ret b hb hr) (hne hc)
  · intro b c hc hm
    exact join_ops hs (hlt (hne hc)) hc ((inEdges_gt_one _ _).mp hm)
  · intro b p hp
    exact ⟨h.named_params b p hp, hs.range p (List.mem_flatMap.mpr ⟨b, List.mem_range.mpr (hplt (hne hp)), List.mem_append_left _ hp⟩)⟩
  · rintro j j' k k' o o' ⟨⟨b, hb, hj⟩, ho, _⟩ ⟨⟨b', hb', hj'⟩, ho', _⟩ hd hd' e
    exact one_def hs hb hb' hj hj' ho ho' hd hd' e
  · rintro b v hv p ⟨c, hc, hd⟩
    obtain ⟨q, hq, rfl⟩ := List.mem_map.mp hv
    obtain ⟨j, hj, w, hw, e⟩ := hdef hd
    have := write_block hs (hplt (hne hq)) hc (List.mem_append_left _ hq) (mem_writes hj hw) e.symm
    subst this
    exact (nodup_block hs hc).2.2 q hq j hj w hw e.symm

/-! ### The single-pass allocator -/

theorem instsDefined_intro {f : Func} : ∀ {is : List Nat} {D : VReg → Prop},
    (∀ is1 i is2, is = is1 ++ i :: is2 → ∀ v ∈ opReads (f.operands i), D v ∨ ∃ j ∈ is1, v ∈ opWrites (f.operands j)) → Exec.InstsDefined f is D
  | [], _, _ => trivial
  | i :: is, D, h => by
    refine ⟨fun v hv => ?_, instsDefined_intro ?_⟩
    · rcases h [] i is rfl v hv with h1 | ⟨j, hj, _⟩
      · exact h1
      · cases hj
    · intro is1 j is2 e v hv
      rcases h (i :: is1) j is2 (by rw [e]; rfl) v hv with h1 | ⟨j', hj', hw⟩
      · exact .inl (.inl h1)
      · rcases List.mem_cons.mp hj' with rfl | hj'
        · exact .inl (.inr hw)
        · exact .inr ⟨j', hj', hw⟩

theorem insts_lt {f : Func} {C : Nat → VReg} (h : FastShape f C) : ∀ n b, b + n + 1 = f.numBlocks → (f.insns b).2 ≤ f.numInsts := by
  intro n
  induction n with
  | zero => intro b hb; rw [h.count b (by omega)]; exact Nat.le_refl _
  | succ n ih =>
    intro b hb
    have h1 := ih (b + 1) (by omega)
    have h2 := h.next b (by omega)
    have h3 := h.nonempty (b + 1) (by omega)
    omega

theorem funcOk_of_valid {f : Func} {C : Nat → VReg} (hv : validate f = .ok ()) (h : FastShape f C) : Fast.FuncOk f C := by
  have hi : ∀ b, b < f.numBlocks → (f.insns b).2 ≤ f.numInsts := fun b hb => insts_lt h (f.numBlocks - b - 1) b (by omega)
  have hs := inSsa_of h.edges hi hv
  have hmem : ∀ {b i : Nat}, b < f.numBlocks → i ∈ f.blockInsts b → i < f.numInsts := by
    intro b i hb hm
    have := hi b hb
    unfold Func.blockInsts at hm
    rw [List.mem_range'_1] at hm
    omega
  have hmulti : ∀ b b' s, b < f.numBlocks → b' < f.numBlocks → s ∈ f.succs b → s ∈ f.succs b' → b' ≠ b → MultiIn f s := by
    intro b b' s hb hb' h1 h2 hne
    have hsl := h.edges.succLt b s hb h1
    have m1 := (h.edges.iff b s hb hsl).mpr h1
    have m2 := (h.edges.iff b' s hb' hsl).mpr h2
    left
    match hp : f.preds s, m1, m2 with
    | [], m1, _ => cases m1
    | [x], m1, m2 =>
      exact absurd ((List.mem_singleton.mp m2).trans (List.mem_singleton.mp m1).symm) hne
    | _ :: _ :: _, _, _ => simp
  have har : ∀ b, b < f.numBlocks → ∀ k s, (f.succs b)[k]? = some s → (f.args b (f.lastInst b) k).length = (f.params s).length :=
    fun b hb k s hk => arity hs hb (h.nonempty b hb) (h.ret b hb) hk
  have hname : ∀ {b}, b < f.numBlocks → ∀ w ∈ Ssa.writes f b, w = C w.vreg := by
    intro b hb w hw
    rcases List.mem_append.mp hw with hw | hw
    · exact h.params b hb w hw
    · obtain ⟨j, hj, hw⟩ := List.mem_flatMap.mp hw
      obtain ⟨o, ho, rfl⟩ := List.mem_map.mp hw
      obtain ⟨ho, hd⟩ := List.mem_filter.mp ho
      have O := h.operands j (hmem hb hj)
      exact (O.regs o ho (O.defs o ho (of_decide_eq_true hd)).1).1
  have hreadn : ∀ {b j}, b < f.numBlocks → j ∈ f.blockInsts b → ∀ v ∈ opReads (f.operands j), v = C v.vreg := by
    intro b j hb hj v hv
    obtain ⟨o, ho, rfl⟩ := List.mem_map.mp hv
    obtain ⟨ho, hd⟩ := List.mem_filter.mp ho
    exact ((h.operands j (hmem hb hj)).regs o ho (of_decide_eq_true hd).2).1
  have hwalk : ∀ {b l}, Walk f.succs f.entry b l → b < f.numBlocks ∧ ∀ c ∈ l, c < f.numBlocks := by
    intro b l hw
    induction hw with
    | start => exact ⟨h.edges.entryLt, by simpa using h.edges.entryLt⟩
    | step _ hs ih =>
      have := h.edges.succLt _ _ ih.1 hs
      refine ⟨this, ?_⟩
      intro c hc
      rcases List.mem_cons.mp hc with rfl | hc
      · exact this
      · exact ih.2 c hc
  have hdefined : ∀ (ks : List Nat) (b : Nat) (l : List Nat) (D : VReg → Prop), Walk f.succs f.entry b (b :: l) →
      (∀ c ∈ l, ∀ w ∈ Ssa.writes f c, D w) → (∀ w ∈ f.params b, D w) → Exec.NoUndefinedReads f ks b D := by
    have hblock : ∀ (b : Nat) (l : List Nat) (D : VReg → Prop), Walk f.succs f.entry b (b :: l) →
        (∀ c ∈ l, ∀ w ∈ Ssa.writes f c, D w) → (∀ w ∈ f.params b, D w) → Exec.InstsDefined f (f.blockInsts b) D := by
      intro b l D hw h1 h2
      obtain ⟨hb, hl⟩ := hwalk hw
      apply instsDefined_intro
      intro is1 i is2 e v hv
      obtain ⟨pre, post, e1, e2⟩ := Ssa.blockEvents_join e hv
      obtain ⟨w, hww, ew⟩ := hs.reads b _ hw (pathEvents f l ++ pre) i v post (by rw [Ssa.pathEvents_cons, e1, List.append_assoc])
      have hvn := hreadn hb (by rw [e]; simp) v hv
      rcases List.mem_append.mp hww with hww | hww
      · obtain ⟨c, hc, hwc⟩ := (Ssa.write_mem_path f l w).mp hww
        have : w = v := by rw [hname (hl c (List.mem_cons_of_mem _ hc)) w hwc, hvn, ew]
        exact .inl (this ▸ h1 c hc w hwc)
      · rcases List.mem_append.mp ((e2 w).mp hww) with hp | hp
        · have : w = v := by rw [h.params b hb w hp, hvn, ew]
          exact .inl (this ▸ h2 w hp)
        · obtain ⟨j, hj, hwj⟩ := List.mem_flatMap.mp hp
          have hwb : w ∈ Ssa.writes f b := mem_writes (i := j) (by rw [e]; exact List.mem_append_left _ hj) hwj
          have : w = v := by rw [hname hb w hwb, hvn, ew]
          exact .inr ⟨j, hj, this ▸ hwj⟩
    intro ks
    induction ks with
    | nil => intro b l D hw h1 h2; exact hblock b l D hw h1 h2
    | cons k ks ih =>
      intro b l D hw h1 h2
      obtain ⟨hb, hl⟩ := hwalk hw
      refine ⟨hblock b l D hw h1 h2, ?_⟩
      cases hk : (f.succs b)[k]? with
      | none => trivial
      | some s =>
        have hbr : f.isBranch (f.lastInst b) = true :=
          succs_branch hs hb (h.nonempty b hb) (h.ret b hb) (by intro e; rw [e] at hk; cases hk)
        have hall : ∀ c ∈ b :: l, ∀ w ∈ Ssa.writes f c, Exec.blockDefined f b D w := by
          intro c hc w hwc
          rcases List.mem_cons.mp hc with rfl | hc
          · rcases List.mem_append.mp hwc with hwc | hwc
            · exact .inl (h2 w hwc)
            · obtain ⟨j, hj, hwj⟩ := List.mem_flatMap.mp hwc
              exact .inr ⟨j, hj, hwj⟩
          · exact .inl (h1 c hc w hwc)
        refine ⟨?_, ?_⟩
        · intro m hm
          unfold Exec.edgeMoves at hm
          rw [if_pos hbr] at hm
          have hm2 := (List.of_mem_zip hm).2
          obtain ⟨w, hww, ew⟩ := h.args_defined b _ hw k s hk m.2 hm2
          obtain ⟨c, hc, hwc⟩ := (Ssa.write_mem_path f _ w).mp hww
          have : w = m.2 := by rw [hname (hl c hc) w hwc, (((h.args b hb k s hk).1) m.2 hm2).1, ew]
          exact this ▸ hall c hc w hwc
        · refine ih s (b :: l) _ (hw.step (List.mem_of_getElem? hk)) (fun c hc w hwc => .inl (hall c hc w hwc)) ?_
          intro w hwp
          right
          unfold Exec.edgeMoves
          rw [if_pos hbr, List.map_fst_zip (Nat.le_of_eq (har b hb k s hk).symm)]
          exact hwp
  exact {
    first := h.first
    next := h.next
    nonempty := h.nonempty
    count := h.count
    entry := h.edges.entryLt
    succs := fun b hb s hs => h.edges.succLt b s hb hs
    preds := fun b s hsl => ⟨fun hp => ⟨h.edges.predLt b s hsl hp, (h.edges.iff b s (h.edges.predLt b s hsl hp) hsl).mp hp⟩,
      fun ⟨hb, hp⟩ => (h.edges.iff b s hb hsl).mpr hp⟩
    succs_nodup := h.succs_nodup
    entry_params := hs.entry
    no_critical := by
      intro b b' s hb hb' h1 h2 hl
      by_contra hne
      rw [not_critical hs hb h1 (hmulti b b' s hb hb' h1 h2 hne)] at hl
      simp at hl
    branch_last := fun b hb i hi hbr => branch_last hs hb hi hbr
    succs_branch := fun b hb hne => succs_branch hs hb (h.nonempty b hb) (h.ret b hb) hne
    branch_join := fun b b' s hb hb' h1 h2 hne => join_ops hs hb h1 (hmulti b b' s hb hb' h1 h2 hne)
    branch_uses := h.branch_uses
    vregs := h.vregs
    operands := h.operands
    params := h.params
    args := fun b hb k s hk => ⟨har b hb k s hk, h.args b hb k s hk⟩
    single := hs.single
    defined := fun ks => hdefined ks f.entry [] _ .start (fun c hc => by cases hc) (by rw [hs.entry]; intro w hw; cases hw)
    use_after_def := h.use_after_def
    arg_after_def := h.arg_after_def
    use_after_param := h.use_after_param
    arg_after_param := h.arg_after_param }

end Regalloc.Api
