import Verif.Proofs.FuzzMachine
import Verif.Spec.FuzzFast
import Verif.Spec.FastTotal

/-
C54: generated functions are as the single-pass allocator requires.
-/
namespace Regalloc.FuzzGen

theorem flatMap_nodup_eq {α β : Type} {f : α → List β} {x : β} : ∀ {l : List α}, (l.flatMap f).Nodup → ∀ {a b : α}, a ∈ l → b ∈ l →
    x ∈ f a → x ∈ f b → a = b := by
  intro l
  induction l with
  | nil => intro _ a b ha; cases ha
  | cons c l ih =>
    intro h a b ha hb hx hy
    rw [List.flatMap_cons, List.nodup_append] at h
    obtain ⟨-, h2, h3⟩ := h
    rcases List.mem_cons.mp ha with rfl | ha
    · rcases List.mem_cons.mp hb with rfl | hb
      · rfl
      · exact absurd rfl (h3 x hx x (List.mem_flatMap.mpr ⟨b, hb, hy⟩))
    · rcases List.mem_cons.mp hb with rfl | hb
      · exact absurd rfl (h3 x hy x (List.mem_flatMap.mpr ⟨a, by assumption, hx⟩))
      · exact ih h2 ha hb hx hy

theorem nodup_of_flatMap {α β : Type} {f : α → List β} : ∀ {l : List α}, (l.flatMap f).Nodup → ∀ {a : α}, a ∈ l → (f a).Nodup := by
  intro l
  induction l with
  | nil => intro _ a ha; cases ha
  | cons c l ih =>
    intro h a ha
    rw [List.flatMap_cons, List.nodup_append] at h
    rcases List.mem_cons.mp ha with rfl | ha
    · exact h.1
    · exact ih h.2.1 ha

theorem nodup_of_map {α β : Type} {f : α → β} : ∀ {l : List α}, (l.map f).Nodup → l.Nodup := by
  intro l
  induction l with
  | nil => intro _; exact List.nodup_nil
  | cons a l ih =>
    intro h
    rw [List.map_cons, List.nodup_cons] at h
    exact List.nodup_cons.mpr ⟨fun m => h.1 (List.mem_map_of_mem m), ih h.2⟩

theorem countP_add_le {α : Type} {p q r s : α → Bool} : ∀ {l : List α}, (∀ o ∈ l, (p o).toNat + (q o).toNat ≤ (r o).toNat + (s o).toNat) →
    l.countP p + l.countP q ≤ l.countP r + l.countP s := by
  intro l
  induction l with
  | nil => intro _; simp
  | cons a l ih =>
    intro h
    have h1 := ih fun o ho => h o (List.mem_cons_of_mem _ ho)
    have h2 := h a List.mem_cons_self
    have e : ∀ t : α → Bool, (a :: l).countP t = l.countP t + (t a).toNat := by
      intro t
      rw [List.countP_cons]
      cases t a <;> rfl
    rw [e, e, e, e]
    omega

theorem preg_eq {p : PReg} {c : RegClass} (h : p.class? = some c) : p = PReg.new p.hwEnc c := by
  have key : ∀ k : Fin 256, ∀ c : RegClass, (PReg.class? ⟨UInt8.ofNat k.val⟩) = some c →
      (⟨UInt8.ofNat k.val⟩ : PReg) = PReg.new (PReg.hwEnc ⟨UInt8.ofNat k.val⟩) c := by
    intro k c
    revert k
    cases c <;> decide +kernel
  have e : p = ⟨UInt8.ofNat p.bits.toNat⟩ := by
    cases p; simp
  have := key ⟨p.bits.toNat, p.bits.toNat_lt⟩ c
  dsimp only at this
  rw [← e] at this
  exact this h

namespace Built

variable {x : Fn} {g : Graph} {n : Nat} {es : List (Nat × Nat)} {plans : List Plan} {nv : Nat} {xs : List (List InstData × List (List VReg))}

/-! ### Where registers are written -/

theorem writes_nodup (h : Built x g n es plans nv xs) : ((List.range n).flatMap (Ssa.writes x.func)).Nodup := by
  have := nodup_of_map h.single
  unfold allWrites at this
  rw [h.numBlocks] at this
  exact this

theorem write_block (h : Built x g n es plans nv xs) {b b' : Nat} (hb : b < n) (hb' : b' < n) {r : VReg} (h1 : r ∈ Ssa.writes x.func b)
    (h2 : r ∈ Ssa.writes x.func b') : b = b' :=
  flatMap_nodup_eq h.writes_nodup (List.mem_range.mpr hb) (List.mem_range.mpr hb') h1 h2

theorem write_inst (h : Built x g n es plans nv xs) {b i i' : Nat} (hb : b < n) (hi : i ∈ x.func.blockInsts b) (hi' : i' ∈ x.func.blockInsts b) {r : VReg}
    (h1 : r ∈ opWrites (x.func.operands i)) (h2 : r ∈ opWrites (x.func.operands i')) : i = i' := by
  have := nodup_of_flatMap h.writes_nodup (List.mem_range.mpr hb)
  unfold Ssa.writes at this
  rw [List.nodup_append] at this
  exact flatMap_nodup_eq this.2.1 hi hi' h1 h2

theorem write_param (h : Built x g n es plans nv xs) {b i : Nat} (hb : b < n) (hi : i ∈ x.func.blockInsts b) {r : VReg}
    (h1 : r ∈ x.func.params b) (h2 : r ∈ opWrites (x.func.operands i)) : False := by
  have := nodup_of_flatMap h.writes_nodup (List.mem_range.mpr hb)
  unfold Ssa.writes at this
  rw [List.nodup_append] at this
  exact this.2.2 r h1 r (List.mem_flatMap.mpr ⟨i, hi, h2⟩) rfl

theorem writes_inst {b i : Nat} (hi : i ∈ x.func.blockInsts b) {r : VReg} (h : r ∈ opWrites (x.func.operands i)) : r ∈ Ssa.writes x.func b :=
  List.mem_append_right _ (List.mem_flatMap.mpr ⟨i, hi, h⟩)

theorem writes_all (h : Built x g n es plans nv xs) {b : Nat} (hb : b < n) {r : VReg} (hr : r ∈ Ssa.writes x.func b) : r ∈ allWrites x.func :=
  List.mem_flatMap.mpr ⟨b, by rw [h.numBlocks]; exact List.mem_range.mpr hb, hr⟩

theorem far_lt (h : Built x g n es plans nv xs) {b d : Nat} (hb : b < n) (hne : d ≠ b) (hd : Dom g.succ 0 d b) : d < b := by
  have := h.graph.dom_le hb hd
  omega

/-! ### The numbers of registers -/

theorem plan_lt (h : Built x g n es plans nv xs) {d : Nat} {q : Plan} (hq : plans[d]? = some q) {r : VReg} (hr : r ∈ q.vregs) : r.vreg < nv := by
  have : r.vreg ∈ (plans.flatMap Plan.vregs).map VReg.vreg :=
    List.mem_map_of_mem (List.mem_flatMap.mpr ⟨q, List.mem_of_getElem? hq, hr⟩)
  rw [h.nums, List.mem_range'_1] at this
  omega

theorem readable_lt (h : Built x g n es plans nv xs) {b lo j : Nat} {r : VReg} (hr : Readable x g plans b lo j r) : r.vreg < nv := by
  rcases hr with hr | ⟨d, q, -, -, hq, hr⟩ | ⟨⟨q, hq, hr⟩, -⟩
  · obtain ⟨q, hq, hr⟩ := h.params_mem hr
    exact h.plan_lt hq hr
  · exact h.plan_lt hq hr
  · exact h.plan_lt hq hr

theorem arg_lt (h : Built x g n es plans nv xs) {b i k s : Nat} (hs : (x.func.succs b)[k]? = some s) {a : VReg} (ha : a ∈ x.func.args b i k) :
    a.vreg < nv := by
  obtain ⟨h1, q', hq', h2⟩ := h.argsOf hs i
  obtain ⟨j, hj⟩ := List.mem_iff_getElem?.mp ha
  have hlt : j < (x.func.params s).length := by rw [← h1]; exact (List.getElem?_eq_some_iff.mp hj).1
  have hz : (a, (x.func.params s)[j]) ∈ (x.func.args b i k).zip (x.func.params s) := by
    refine List.mem_iff_getElem?.mpr ⟨j, ?_⟩
    rw [List.getElem?_zip_eq_some]
    exact ⟨hj, List.getElem?_eq_getElem hlt⟩
  rcases (h2 _ hz).2 with hm | ⟨d, q, -, -, hq, hr⟩
  · exact h.plan_lt hq' hm
  · exact h.plan_lt hq hr

theorem fresh (h : Built x g n es plans nv xs) (j : Nat) : ∃ V cs, opWrites (x.func.operands j) = V ++ cs ∧ V.length ≤ 1 ∧ ∀ c ∈ cs, nv ≤ c.vreg := by
  show ∃ V cs, opWrites ((x.insts[j]?.map (·.operands)).getD []) = V ++ cs ∧ _
  cases hj : x.insts[j]? with
  | none => exact ⟨[], [], rfl, by simp, by simp⟩
  | some d =>
    have hd := List.mem_of_getElem? hj
    rw [h.insts, List.mem_flatten] at hd
    obtain ⟨l, hl, hd⟩ := hd
    obtain ⟨y, hy, rfl⟩ := List.mem_map.mp hl
    exact h.blocks.fresh y hy d hd

/-- Operands that name registers which no plan has are outputs of calls. -/
theorem call_output (h : Built x g n es plans nv xs) {j : Nat} {o : Op} (ho : o ∈ x.func.operands j) (hn : o.asFixedNonallocatable = none)
    (hv : nv ≤ o.vreg.vreg) : o.kind = .Def ∧ o.constraint = .Any := by
  obtain ⟨b, q, v, n1, n2, hb, l1, l2, hq, hv', hm⟩ := h.inst_at ho
  cases hk : o.kind with
  | Use =>
    have := h.readable_lt (hm.reads o.vreg (List.mem_map_of_mem (List.mem_filter.mpr ⟨ho, by simp [hk, hn]⟩)))
    omega
  | Def =>
    refine ⟨rfl, (hm.outs o ho hk).resolve_left fun e => ?_⟩
    have := h.plan_lt hq hv'
    rw [← e] at this
    omega

/-- Outputs fixed to a register are planned. -/
theorem fixed_def_lt (h : Built x g n es plans nv xs) {j : Nat} {o : Op} (ho : o ∈ x.func.operands j) (hk : o.kind = .Def) (hc : o.constraint ≠ .Any) :
    o.vreg.vreg < nv := by
  obtain ⟨b, q, v, n1, n2, hb, l1, l2, hq, hv', hm⟩ := h.inst_at ho
  rcases hm.outs o ho hk with e | e
  · rw [e]; exact h.plan_lt hq hv'
  · exact absurd e hc

/-! ### What the allocator requires -/

theorem fastEnv {cx : Fast.Cx} (he : cx.env = machineEnv) (hz : ∀ c, cx.size c = (slotSize c).toNat) : Fast.EnvOk cx := by
  obtain ⟨f, env, size, bl⟩ := cx
  dsimp only at he hz
  subst he
  constructor <;> dsimp only
  · intro c p hp
    obtain ⟨a, ha, rfl⟩ := machine_regs hp
    exact preg_class c (by omega)
  · intro c p hp hs
    obtain ⟨a, ha, rfl⟩ := machine_regs hp
    have := machine_slot hs
    rw [preg_enc c (by omega)] at this
    omega
  · intro c r hr; cases hr
  · intro hs
    exact absurd (machine_slot hs) (by decide)
  · intro c; rw [hz]; cases c <;> decide
  · intro c; rw [hz]; cases c <;> decide

theorem workable (h : Built x g n es plans nv xs) (hV : x.numVregs ≤ VReg.MAX) {cx : Fast.Cx} {C : Nat → VReg} (hf : cx.f = x.func)
    (he : cx.env = machineEnv) (hC : ∀ w ∈ allWrites x.func, C w.vreg = w) : Fast.Workable cx C := by
  obtain ⟨f, env, size, bl⟩ := cx
  dsimp only at hf he
  subst hf he
  have hV' : x.func.numVregs ≤ VReg.MAX := hV
  have known : ∀ {w}, w ∈ allWrites x.func → w = C w.vreg ∧ w.vreg < x.func.numVregs := fun hw => ⟨(hC _ hw).symm, h.range _ hw⟩
  have param_all : ∀ {b}, b < n → ∀ {p}, p ∈ x.func.params b → p ∈ allWrites x.func := fun hb p hp => h.writes_all hb (List.mem_append_left _ hp)
  constructor <;> dsimp only
  case layout =>
    intro b b' hlt hb'
    rw [h.numBlocks] at hb'
    rw [(h.insns (by omega : b < n)).1, (h.insns hb').1]
    exact off_mono _ _ hlt
  case succs => exact fun b hb s hs => h.edges.1 b s hb hs
  case succs_nodup =>
    intro b _
    rw [h.succ_eq]
    have : g.succ b = succOf es b := h.graph.rep.succs b
    rw [this]
    exact h.graph.nd b
  case preds =>
    intro b hb p hp
    rw [h.pred_eq, h.graph.mem_pred] at hp
    rw [h.numBlocks, h.succ_eq, h.graph.mem_succ]
    exact ⟨(h.graph.rep.lt _ hp).1, hp⟩
  case lengths => exact fun b _ k s hs => (h.argsOf hs _).1
  case branch_last => exact h.branchLast
  case branch_uses =>
    intro b hb _ o ho
    rw [h.numBlocks] at hb
    rw [(h.last_inst hb).1] at ho
    cases ho
  case vregs => exact hV
  case operands =>
    intro b _ i _
    have hok := h.operandsOk i
    constructor <;> dsimp only
    · exact fun o ho hn => known (h.named ho hn)
    · intro o ho m hc
      rcases hok.kinds o ho with e | e | ⟨q, e⟩ | ⟨q, e⟩ <;> rw [e] at hc <;> cases hc
    · intro o ho hk j hc
      obtain ⟨k, hk'⟩ := List.mem_iff_getElem?.mp ho
      have := (hok.reuse k j o hk' hc).2.1
      rw [hk] at this; cases this
    · intro o ho hk
      unfold Op.asFixedNonallocatable
      split
      · next p hp =>
        rcases h.fixed ho hp with ⟨-, hw⟩ | ⟨c, -, -, e⟩
        · have := h.range _ hw
          rw [if_neg (by omega)]
        · rw [hk] at e; cases e
      · rfl
    · intro o ho j hc
      obtain ⟨k, hk'⟩ := List.mem_iff_getElem?.mp ho
      obtain ⟨-, -, hl, -, o', h4, h5, h6, -⟩ := hok.reuse k j o hk' hc
      exact ⟨hl, o', h4, h5, hok.early o' (List.mem_of_getElem? h4) h5, .inl h6⟩
  case params =>
    intro b hb p hp
    rw [h.numBlocks] at hb
    exact known (param_all hb hp)
  case args => exact fun b _ k s _ a ha => known (h.arg_mem ha)
  case classes => exact fun v _ => ⟨PReg.new 0 _, machine_has _ (by omega)⟩
  case single => exact h.single
  case use_after_def =>
    intro b b' i i' hb hb' hi hi' v hv w hw e
    rw [h.numBlocks] at hb hb'
    obtain ⟨a1, a2⟩ := (h.mem_insts hb).mp hi
    obtain ⟨c1, c2⟩ := (h.mem_insts hb').mp hi'
    have hvw := writes_inst hi hv
    rcases h.inst hb' c1 c2 with ⟨-, ho, -⟩ | ⟨-, -, -, q, u, m1, m2, hq, hu, hm⟩
    · rw [ho] at hw; simp [opReads] at hw
    · have hr := hm.reads w hw
      have := h.inj (h.writes_all hb hvw) (h.readable_mem hr) e
      subst this
      rcases hr with hr | ⟨d, q', hne, hd, hq', hr⟩ | ⟨-, k, k1, k2, hr⟩
      · have := h.write_block hb hb' hvw (List.mem_append_left _ hr)
        subst this
        exact (h.write_param hb hi hr hv).elim
      · have hdb := h.far_lt hb' hne hd
        have := h.write_block hb (by omega) hvw (h.mem_writes hq' hr)
        subst this
        have := off_mono (xs := xs) (b + 1) b' hdb
        omega
      · have hk : k ∈ x.func.blockInsts b' := (h.mem_insts hb').mpr ⟨k1, by omega⟩
        have := h.write_block hb hb' hvw (writes_inst hk hr)
        subst this
        have := h.write_inst hb hi hk hv hr
        omega
  case use_after_param =>
    intro b b' i hb hb' hi v hv w hw e
    rw [h.numBlocks] at hb hb'
    obtain ⟨c1, c2⟩ := (h.mem_insts hb').mp hi
    have hvw : v ∈ Ssa.writes x.func b := List.mem_append_left _ hv
    rcases h.inst hb' c1 c2 with ⟨-, ho, -⟩ | ⟨-, -, -, q, u, m1, m2, hq, hu, hm⟩
    · rw [ho] at hw; simp [opReads] at hw
    · have hr := hm.reads w hw
      have := h.inj (h.writes_all hb hvw) (h.readable_mem hr) e
      subst this
      rcases hr with hr | ⟨d, q', hne, hd, hq', hr⟩ | ⟨-, k, k1, k2, hr⟩
      · exact Nat.le_of_eq (h.write_block hb hb' hvw (List.mem_append_left _ hr))
      · have hdb := h.far_lt hb' hne hd
        have := h.write_block hb (by omega) hvw (h.mem_writes hq' hr)
        omega
      · have hk : k ∈ x.func.blockInsts b' := (h.mem_insts hb').mpr ⟨k1, by omega⟩
        exact Nat.le_of_eq (h.write_block hb hb' hvw (writes_inst hk hr))

theorem insts_length (h : Built x g n es plans nv xs) : ∀ k, k ≤ n → ((List.range k).flatMap x.func.blockInsts).length = off xs k := by
  intro k
  induction k with
  | zero => intro _; rw [off_zero]; rfl
  | succ k ih =>
    intro hk
    obtain ⟨e, l⟩ := h.insns (b := k) (by omega)
    rw [List.range_succ, List.flatMap_append, List.length_append, ih (by omega), List.flatMap_cons, List.flatMap_nil, List.append_nil]
    unfold Func.blockInsts
    rw [e, List.length_range']
    dsimp only
    omega

theorem slotsFit (h : Built x g n es plans nv xs) {opts : Options} (hS : Small opts x) (hm : FastModerate opts) {cx : Fast.Cx} (hf : cx.f = x.func)
    (hz : ∀ c, cx.size c = (slotSize c).toNat) : Fast.SlotsFit cx := by
  have h1 : Fast.branchCount cx.f ≤ x.insts.length := by
    unfold Fast.branchCount
    refine Nat.le_trans (List.length_filter_le _ _) ?_
    rw [hf, h.numBlocks, h.insts_length n (Nat.le_refl _), h.off_end]
    exact Nat.le_refl _
  have h2 : Fast.maxSize cx = 2 := by
    unfold Fast.maxSize
    rw [hz, hz, hz]
    decide
  have h3 : cx.f.numVregs = x.numVregs := by rw [hf]; rfl
  have := hS.vregs
  have := hS.insts
  have := hm.slots
  unfold Fast.SlotsFit
  rw [h2, h3]
  omega

theorem unread (h : Built x g n es plans nv xs) {w : Nat} (hw : nv ≤ w) : Fast.Unread x.func w := by
  constructor
  · intro b _ i _ o ho hn e
    exact h.call_output ho hn (by omega)
  · intro b _ k s hs a ha e
    have := h.arg_lt hs ha
    omega

theorem planned_defs (h : Built x g n es plans nv xs) (j : Nat) :
    (x.func.operands j).countP (fun o => decide (o.kind = .Def) && decide (o.vreg.vreg < nv)) ≤ 1 := by
  obtain ⟨V, cs, e1, e2, e3⟩ := h.fresh j
  have : (x.func.operands j).countP (fun o => decide (o.kind = .Def) && decide (o.vreg.vreg < nv)) =
      (opWrites (x.func.operands j)).countP (fun r => decide (r.vreg < nv)) := by
    unfold opWrites
    rw [List.countP_map, List.countP_filter]
    refine List.countP_congr fun o _ => ?_
    simp [and_comm]
  rw [this, e1, List.countP_append]
  have h0 : cs.countP (fun r => decide (r.vreg < nv)) = 0 := by
    rw [List.countP_eq_zero]
    intro c hc
    have := e3 c hc
    simp; omega
  have : V.countP (fun r => decide (r.vreg < nv)) ≤ V.length := List.countP_le_length
  omega

theorem roomy (h : Built x g n es plans nv xs) {opts : Options} (hS : Small opts x) (hm : FastModerate opts) {cx : Fast.Cx}
    {C : Nat → VReg} (hf : cx.f = x.func) (he : cx.env = machineEnv) : Fast.Roomy cx C := by
  obtain ⟨f, env, size, bl⟩ := cx
  dsimp only at hf he
  subst hf he
  refine ⟨fun w => decide (nv ≤ w), fun w hw => h.unread (of_decide_eq_true hw), ?_⟩
  intro b _ i _
  have hok := h.operandsOk i
  constructor <;> dsimp only
  case reuse =>
    intro o ho j hc
    obtain ⟨k, hk'⟩ := List.mem_iff_getElem?.mp ho
    obtain ⟨-, -, -, -, o', h4, -, h6, -⟩ := hok.reuse k j o hk' hc
    exact ⟨o', h4, h6⟩
  case fixed =>
    intro o ho p hc hn
    obtain ⟨c, hcl⟩ := (h.write_good (h.named ho hn)).cls
    have hp := hok.fixed_class o ho p hc
    rw [hcl] at hp
    have h62 : p.hwEnc ≤ 62 := by
      rcases h.fixed ho hc with ⟨h1, -⟩ | ⟨c', hv, -, -⟩
      · exact h1
      · unfold Op.asFixedNonallocatable at hn
        rw [hc, hv, vreg_num c' (Nat.le_refl _)] at hn
        simp at hn
    rw [preg_eq hp]
    by_cases hlt : p.hwEnc < 32
    · exact .inl ⟨c, machine_has c hlt⟩
    · right
      unfold machineEnv
      dsimp only
      refine List.mem_flatMap.mpr ⟨p.hwEnc, List.mem_range'_1.mpr ⟨by omega, by omega⟩, ?_⟩
      cases c <;> simp
  case apart =>
    intro k k' o o' p ho ho' hne hc hc'
    unfold Fast.HeldBefore Fast.HeldAfter
    rcases hok.fixed_apart k k' o o' p ho ho' hne hc hc' with ⟨e1, e2, e3, e4⟩ | ⟨e1, e2, e3, e4⟩ <;>
      rw [e1, e2, e3, e4] <;> simp
  case room =>
    intro v _
    generalize Fast.vcls (C v) = c
    obtain ⟨cl, hz, hcl⟩ := each hS i
    have hinj : ∀ e ∈ List.range 32, ∀ e' ∈ List.range 32, PReg.new e c = PReg.new e' c → e = e' := by
      intro e h1 e' h2 heq
      have h1 := List.mem_range.mp h1
      have h2 := List.mem_range.mp h2
      have := congrArg PReg.hwEnc heq
      rwa [preg_enc c (by omega), preg_enc c (by omega)] at this
    let fx : List PReg := (x.func.operands i).filterMap (fun o => match o.constraint with | .FixedReg p => some p | _ => none)
    let named : Nat → Bool := fun e => decide (PReg.new e c ∈ cl ++ fx)
    have hfx : ∀ p, p ∈ fx ↔ ∃ o ∈ x.func.operands i, o.constraint = .FixedReg p := by
      intro p
      rw [List.mem_filterMap]
      refine exists_congr fun o => and_congr_right fun _ => ?_
      cases o.constraint <;> simp
    have hfxl : fx.length = (x.func.operands i).countP (fun o => match o.constraint with | .FixedReg _ => true | _ => false) := by
      show ((x.func.operands i).filterMap _).length = _
      rw [List.length_filterMap_eq_countP]
      refine List.countP_congr fun o _ => ?_
      cases o.constraint <;> simp
    refine ⟨((List.range 32).filter (fun e => !named e)).map (fun e => PReg.new e c), ?_, ?_, ?_⟩
    · refine List.Nodup.map_on ?_ (List.Pairwise.filter _ List.nodup_range)
      intro e he e' he' heq
      exact hinj e (List.mem_filter.mp he).1 e' (List.mem_filter.mp he').1 heq
    · intro p hp
      obtain ⟨e, he, rfl⟩ := List.mem_map.mp hp
      obtain ⟨m1, m2⟩ := List.mem_filter.mp he
      refine ⟨machine_has c (List.mem_range.mp m1), ?_⟩
      intro hn
      have : PReg.new e c ∈ cl ++ fx := by
        rcases hn with hn | hn
        · exact List.mem_append_left _ ((hcl _).mp hn)
        · exact List.mem_append_right _ ((hfx _).mpr hn)
      have hm2 : named e = true := decide_eq_true this
      rw [hm2] at m2
      cases m2
    · rw [List.length_map]
      have hsplit := List.length_eq_length_filter_add (l := List.range 32) named
      rw [List.length_range] at hsplit
      have hnamed : ((List.range 32).filter named).length ≤ cl.length + fx.length := by
        have hnd : (((List.range 32).filter named).map (fun e => PReg.new e c)).Nodup := by
          refine List.Nodup.map_on ?_ (List.Pairwise.filter _ List.nodup_range)
          intro e he e' he' heq
          exact hinj e (List.mem_filter.mp he).1 e' (List.mem_filter.mp he').1 heq
        have := (List.subperm_of_subset hnd (l₂ := cl ++ fx) ?_).length_le
        · rwa [List.length_map, List.length_append] at this
        · intro p hp
          obtain ⟨e, he, rfl⟩ := List.mem_map.mp hp
          exact of_decide_eq_true (List.mem_filter.mp he).2
      have hcount : Fast.flexCount x.func (fun w => decide (nv ≤ w)) i + fx.length ≤
          (x.func.operands i).countP (fun o => decide (o.kind = .Use)) +
          (x.func.operands i).countP (fun o => decide (o.kind = .Def) && decide (o.vreg.vreg < nv)) := by
        rw [hfxl]
        unfold Fast.flexCount
        refine countP_add_le fun o ho => ?_
        have hb1 : ∀ b : Bool, b.toNat ≤ 1 := fun b => by cases b <;> decide
        have hflex : (match o.constraint with | .FixedReg _ => true | _ => false) = true → decide (Fast.Flexible o) = false := by
          intro hm
          rw [decide_eq_false_iff_not]
          intro hfl
          cases hc : o.constraint with
          | FixedReg p => exact hfl.2 p hc
          | _ => rw [hc] at hm; cases hm
        have hle : (decide (Fast.Flexible o) && !decide (nv ≤ o.vreg.vreg)).toNat + (match o.constraint with | .FixedReg _ => true | _ => false).toNat ≤ 1 := by
          cases hm : (match o.constraint with | .FixedReg _ => true | _ => false) with
          | true => rw [hflex hm]; simp
          | false => exact hb1 _
        cases hk : o.kind with
        | Use => exact Nat.le_trans hle (by simp)
        | Def =>
          by_cases hlt : o.vreg.vreg < nv
          · exact Nat.le_trans hle (by simp [hlt])
          · have hany : o.constraint = .Any := by
              by_contra hc
              exact hlt (h.fixed_def_lt ho hk hc)
            rw [hany]
            have : nv ≤ o.vreg.vreg := by omega
            simp [this]
      have hd := h.planned_defs i
      have hsc : Fast.scratchNeed machineEnv c = 1 := rfl
      have hu := hz.uses
      have hcb := hz.clobbers
      have := hm.regs
      rw [hsc]
      omega

end Built

end Regalloc.FuzzGen
