import Verif.Proofs.FuzzGraph
import Verif.Spec.FuzzFunc
import Verif.Spec.Ssa
import Verif.Props.Encodings

/-
C51: operands of generated instructions.
-/
namespace Regalloc.FuzzGen

/-- A register whose number fits. -/
def Good (v : VReg) : Prop := ∃ n c, n ≤ VReg.MAX ∧ v = VReg.new n c

theorem Good.cls {v : VReg} (h : Good v) : ∃ c, v.class? = some c := by
  obtain ⟨n, c, hn, rfl⟩ := h
  exact ⟨c, (C05_vreg_roundtrip n c hn).2⟩

theorem vreg_num {n : Nat} (c : RegClass) (hn : n ≤ VReg.MAX) : (VReg.new n c).vreg = n := (C05_vreg_roundtrip n c hn).1

def sg (o : Op) : VReg × OperandKind × OperandPos := (o.vreg, o.kind, o.pos)

theorem opWrites_sg (ops : List Op) : opWrites ops = ((ops.map sg).filter (fun x => decide (x.2.1 = .Def))).map Prod.fst := by
  unfold opWrites
  rw [List.filter_map, List.map_map]
  rfl

/-- Plain constraints. -/
def Plain (c : OperandConstraint) : Prop := c = .Any ∨ c = .Reg

/-- The operands before outputs of calls and fixed registers without a value are added. -/
structure Core (v : VReg) (R : VReg → Prop) (ops : List Op) : Prop where
  writes : opWrites ops = [v]
  reads : ∀ o ∈ ops, o.kind = .Use → R o.vreg
  defs : ∀ o ∈ ops, o.kind = .Def → o.vreg = v
  early : ∀ o ∈ ops, o.kind = .Use → o.pos = .Early
  one : ∀ (k : Nat) (o : Op), ops[k]? = some o → o.kind = .Def → k = 0
  con : ∀ o ∈ ops, Plain o.constraint ∨ (∃ p, o.constraint = .FixedReg p ∧ p.class? = o.vreg.class? ∧ p.hwEnc ≤ 62) ∨
    ∃ m, o.constraint = .Reuse m
  reuse : ∀ (k m : Nat) (o : Op), ops[k]? = some o → o.constraint = .Reuse m → k = 0 ∧ o.kind = .Def ∧ o.pos = .Late ∧ m ≤ 31 ∧
    ∃ o', ops[m]? = some o' ∧ o'.kind = .Use ∧ o'.constraint = .Reg ∧ o'.vreg.class? = o.vreg.class?
  plain : (∃ o ∈ ops, ∃ m, o.constraint = .Reuse m) → ∀ o ∈ ops, ∀ p, o.constraint ≠ .FixedReg p
  apart : ∀ (k k' : Nat) (o o' : Op) (p : PReg), ops[k]? = some o → ops[k']? = some o' → k ≠ k' →
    o.constraint = .FixedReg p → o'.constraint = .FixedReg p → o.pos ≠ o'.pos ∧ (o.kind = .Def → o.pos = .Late)

/-- What is known of a generated instruction that defines `v`: besides, it defines the registers
numbered from `nv` to `nv'`, and it reads registers that satisfy `R`. -/
structure Made (v : VReg) (R : VReg → Prop) (nv nv' : Nat) (ops : List Op) (cl : List PReg) : Prop where
  le : nv ≤ nv'
  writes : ∃ cs, opWrites ops = v :: cs ∧ cs.map VReg.vreg = List.range' nv (nv' - nv) ∧ ∀ c ∈ cs, Good c
  reads : ∀ r ∈ opReads ops, R r
  ok : OperandsOk ops cl
  fixed : ∀ o ∈ ops, ∀ p, o.constraint = .FixedReg p → (p.hwEnc ≤ 62 ∧ (o.vreg = v ∨ R o.vreg)) ∨
    (∃ c, o.vreg = VReg.new VReg.MAX c ∧ p = PReg.new 63 c ∧ o.kind = .Use)
  outs : ∀ o ∈ ops, o.kind = .Def → o.vreg = v ∨ o.constraint = .Any

theorem Core.ok {v : VReg} {R : VReg → Prop} {ops : List Op} (h : Core v R ops) {cl : List PReg}
    (hcl : ∀ o ∈ ops, ∀ p, o.kind = .Def → o.constraint = .FixedReg p → p ∉ cl) : OperandsOk ops cl := by
  refine ⟨h.early, ?_, ?_, ?_, hcl, h.reuse, h.plain⟩
  · intro o ho
    rcases h.con o ho with (h1 | h1) | ⟨p, h1, -⟩ | h1
    · exact .inl h1
    · exact .inr (.inl h1)
    · exact .inr (.inr (.inl ⟨p, h1⟩))
    · exact .inr (.inr (.inr h1))
  · intro o ho p hp
    rcases h.con o ho with (h1 | h1) | ⟨q, h1, h2, -⟩ | ⟨m, h1⟩
    · rw [h1] at hp; cases hp
    · rw [h1] at hp; cases hp
    · rw [h1] at hp; cases hp; exact h2
    · rw [h1] at hp; cases hp
  · intro k k' o o' p hk hk' hne ho ho'
    obtain ⟨h1, h2⟩ := h.apart k k' o o' p hk hk' hne ho ho'
    obtain ⟨-, h3⟩ := h.apart k' k o' o p hk' hk (fun e => hne e.symm) ho' ho
    have e1 := h.early o (List.mem_of_getElem? hk)
    have e2 := h.early o' (List.mem_of_getElem? hk')
    cases ek : o.kind <;> cases ek' : o'.kind <;> rw [ek] at h2 e1 <;> rw [ek'] at h3 e2
    · exact absurd ((h2 rfl).trans (h3 rfl).symm) h1
    · exact .inr ⟨rfl, e2 rfl, rfl, h2 rfl⟩
    · exact .inl ⟨rfl, e1 rfl, rfl, h3 rfl⟩
    · exact absurd ((e1 rfl).trans (e2 rfl).symm) h1

theorem Core.fixed {v : VReg} {R : VReg → Prop} {ops : List Op} (h : Core v R ops) {o : Op} (ho : o ∈ ops) {p : PReg}
    (hp : o.constraint = .FixedReg p) : p.hwEnc ≤ 62 ∧ (o.vreg = v ∨ R o.vreg) := by
  constructor
  · rcases h.con o ho with (h1 | h1) | ⟨q, h1, -, h2⟩ | ⟨m, h1⟩
    · rw [h1] at hp; cases hp
    · rw [h1] at hp; cases hp
    · rw [h1] at hp; cases hp; exact h2
    · rw [h1] at hp; cases hp
  · cases hk : o.kind
    · exact .inl (h.defs o ho hk)
    · exact .inr (h.reads o ho hk)

theorem Core.opReads {v : VReg} {R : VReg → Prop} {ops : List Op} (h : Core v R ops) : ∀ r ∈ opReads ops, R r := by
  intro r hr
  unfold Regalloc.opReads at hr
  obtain ⟨o, ho, rfl⟩ := List.mem_map.mp hr
  rw [List.mem_filter] at ho
  exact h.reads o ho.1 (of_decide_eq_true ho.2).1

theorem Core.made {v : VReg} {R : VReg → Prop} {ops : List Op} (h : Core v R ops) (nv : Nat) {cl : List PReg}
    (hcl : ∀ o ∈ ops, ∀ p, o.kind = .Def → o.constraint = .FixedReg p → p ∉ cl) : Made v R nv nv ops cl := by
  refine ⟨Nat.le_refl _, ⟨[], h.writes, by simp, by simp⟩, h.opReads, h.ok hcl, ?_, fun o ho hk => .inl (h.defs o ho hk)⟩
  intro o ho p hp
  exact .inl (h.fixed ho hp)

theorem getElem?_append_cases {α : Type} {l m : List α} {k : Nat} {x : α} (h : (l ++ m)[k]? = some x) :
    l[k]? = some x ∨ (l.length ≤ k ∧ x ∈ m) := by
  rw [List.getElem?_append] at h
  split at h
  · exact .inl h
  · exact .inr ⟨by omega, List.mem_of_getElem? h⟩

theorem getElem?_append_lt {α : Type} {l m : List α} {k : Nat} {x : α} (h : l[k]? = some x) : (l ++ m)[k]? = some x := by
  have := (List.getElem?_eq_some_iff.mp h).1
  rw [List.getElem?_append_left this]
  exact h

/-- Operands without fixed registers and reuse may be added at the end. -/
theorem OperandsOk.append {ops ds : List Op} {cl : List PReg} (h : OperandsOk ops cl) (hd : ∀ o ∈ ds, o.constraint = .Any)
    (he : ∀ o ∈ ds, o.kind = .Def) : OperandsOk (ops ++ ds) cl := by
  refine ⟨?_, ?_, ?_, ?_, ?_, ?_, ?_⟩
  · intro o ho hk
    rcases List.mem_append.mp ho with h' | h'
    · exact h.early o h' hk
    · rw [he o h'] at hk; cases hk
  · intro o ho
    rcases List.mem_append.mp ho with h' | h'
    · exact h.kinds o h'
    · exact .inl (hd o h')
  · intro o ho p hp
    rcases List.mem_append.mp ho with h' | h'
    · exact h.fixed_class o h' p hp
    · rw [hd o h'] at hp; cases hp
  · intro k k' o o' p hk hk' hne ho ho'
    rcases getElem?_append_cases hk with hk | ⟨-, hk⟩
    · rcases getElem?_append_cases hk' with hk' | ⟨-, hk'⟩
      · exact h.fixed_apart k k' o o' p hk hk' hne ho ho'
      · rw [hd o' hk'] at ho'; cases ho'
    · rw [hd o hk] at ho; cases ho
  · intro o ho p hk hp
    rcases List.mem_append.mp ho with h' | h'
    · exact h.clobber o h' p hk hp
    · rw [hd o h'] at hp; cases hp
  · intro k m o hk ho
    rcases getElem?_append_cases hk with hk | ⟨-, hk⟩
    · obtain ⟨a, b, c, c', o', d, e⟩ := h.reuse k m o hk ho
      exact ⟨a, b, c, c', o', getElem?_append_lt d, e⟩
    · rw [hd o hk] at ho; cases ho
  · rintro ⟨o, ho, m, hm⟩ o' ho' p hp
    rcases List.mem_append.mp ho with h' | h'
    · rcases List.mem_append.mp ho' with h'' | h''
      · exact h.reuse_plain ⟨o, h', m, hm⟩ o' h'' p hp
      · rw [hd o' h''] at hp; cases hp
    · rw [hd o h'] at hm; cases hm

/-! ### Reuse -/

theorem sg_set {ops : List Op} {k : Nat} {o o' : Op} (h : ops[k]? = some o) (hs : sg o' = sg o) : (ops.set k o').map sg = ops.map sg := by
  rw [List.map_set, hs]
  apply List.ext_getElem?
  intro j
  rw [List.getElem?_set]
  by_cases e : k = j
  · subst e
    rw [if_pos rfl, List.getElem?_map, h]
    have := (List.getElem?_eq_some_iff.mp h).1
    rw [if_pos (by simpa using this)]; rfl
  · rw [if_neg e]

/-- The operands at first: an output and inputs, all with plain constraints. -/
structure Basic (v : VReg) (R : VReg → Prop) (ops : List Op) : Prop where
  head : ∃ d us, ops = d :: us ∧ d.vreg = v ∧ d.kind = .Def ∧ Plain d.constraint ∧
    ∀ o ∈ us, o.kind = .Use ∧ o.pos = .Early ∧ Plain o.constraint ∧ R o.vreg

theorem Basic.core {v : VReg} {R : VReg → Prop} {ops : List Op} (h : Basic v R ops) : Core v R ops := by
  obtain ⟨d, us, rfl, hv, hk, hp, hu⟩ := h.head
  have hplain : ∀ o ∈ d :: us, Plain o.constraint := by
    intro o ho
    rcases List.mem_cons.mp ho with rfl | ho
    · exact hp
    · exact (hu o ho).2.2.1
  have hnofix : ∀ o ∈ d :: us, ∀ p, o.constraint ≠ .FixedReg p := by
    intro o ho p e
    rcases hplain o ho with h' | h' <;> rw [h'] at e <;> cases e
  have hnore : ∀ o ∈ d :: us, ∀ p, o.constraint ≠ .Reuse p := by
    intro o ho p e
    rcases hplain o ho with h' | h' <;> rw [h'] at e <;> cases e
  refine ⟨?_, ?_, ?_, ?_, ?_, ?_, ?_, ?_, ?_⟩
  · unfold opWrites
    rw [List.filter_cons_of_pos (by simp [hk]), List.filter_eq_nil_iff.mpr]
    · simp [hv]
    · intro o ho; simp [(hu o ho).1]
  · intro o ho hk'
    rcases List.mem_cons.mp ho with rfl | ho
    · rw [hk] at hk'; cases hk'
    · exact (hu o ho).2.2.2
  · intro o ho hk'
    rcases List.mem_cons.mp ho with rfl | ho
    · exact hv
    · rw [(hu o ho).1] at hk'; cases hk'
  · intro o ho hk'
    rcases List.mem_cons.mp ho with rfl | ho
    · rw [hk] at hk'; cases hk'
    · exact (hu o ho).2.1
  · intro k o hk' hd
    cases k with
    | zero => rfl
    | succ k =>
      rw [List.getElem?_cons_succ] at hk'
      rw [(hu o (List.mem_of_getElem? hk')).1] at hd; cases hd
  · intro o ho; exact .inl (hplain o ho)
  · intro k m o hk' ho; exact absurd ho (hnore o (List.mem_of_getElem? hk') m)
  · rintro ⟨o, ho, m, hm⟩; exact absurd hm (hnore o ho m)
  · intro k k' o o' p hk1 _ _ ho _; exact absurd ho (hnofix o (List.mem_of_getElem? hk1) p)

theorem toReuse_sat {v : VReg} {R : VReg → Prop} {ops : List Op} (h : Basic v R ops) (h1 : 1 < ops.length) (h31 : ops.length ≤ 32) :
    Sat (toReuse ops) (Core v R) := by
  have hc := h.core
  obtain ⟨d, us, rfl, hv, hk, hp, hu⟩ := h.head
  unfold toReuse
  show Sat (if d.kind ≠ .Def then _ else _) _
  rw [if_neg (by simp [hk])]
  refine (Sat.intIn (by simp only [List.length_cons] at h1 ⊢; omega)).bind fun k hk1 => ?_
  have hlt : k < (d :: us).length := by simp only [List.length_cons] at hk1 ⊢; omega
  cases hu' : (d :: us)[k]? with
  | none => rw [List.getElem?_eq_getElem hlt] at hu'; cases hu'
  | some u =>
    dsimp only
    refine Sat.ite (fun hcl => ?_) (fun _ => Sat.pure hc)
    refine Sat.ite (fun hk31 => ?_) (fun hn => absurd (show k ≤ 31 by simp only [List.length_cons] at hk1 h31; omega) hn)
    refine Sat.pure ?_
    obtain ⟨k', rfl⟩ : ∃ k', k = k' + 1 := ⟨k - 1, by omega⟩
    rw [List.getElem?_cons_succ] at hu'
    have huu := hu u (List.mem_of_getElem? hu')
    show Core v R (({ vreg := d.vreg, constraint := .Reuse (k' + 1), kind := d.kind, pos := .Late } :: us).set (k' + 1) _)
    rw [List.set_cons_succ]
    have husg : (us.set k' { vreg := u.vreg, constraint := .Reg, kind := u.kind, pos := .Early }).map sg = us.map sg :=
      sg_set hu' (by unfold sg; rw [huu.2.1])
    have hget : ∀ (j : Nat) (o : Op), (us.set k' { vreg := u.vreg, constraint := .Reg, kind := u.kind, pos := .Early })[j]? = some o →
        o.kind = .Use ∧ o.pos = .Early ∧ Plain o.constraint ∧ R o.vreg := by
      intro j o hj
      rw [List.getElem?_set] at hj
      split at hj
      · split at hj
        · cases hj; exact ⟨huu.1, rfl, .inr rfl, huu.2.2.2⟩
        · cases hj
      · exact hu o (List.mem_of_getElem? hj)
    have hmem : ∀ o ∈ us.set k' { vreg := u.vreg, constraint := .Reg, kind := u.kind, pos := .Early },
        o.kind = .Use ∧ o.pos = .Early ∧ Plain o.constraint ∧ R o.vreg := by
      intro o ho
      obtain ⟨j, hj⟩ := List.mem_iff_getElem?.mp ho
      exact hget j o hj
    have hnofix : ∀ o ∈ ({ vreg := d.vreg, constraint := .Reuse (k' + 1), kind := d.kind, pos := .Late } : Op) ::
        us.set k' { vreg := u.vreg, constraint := .Reg, kind := u.kind, pos := .Early }, ∀ p, o.constraint ≠ .FixedReg p := by
      intro o ho p e
      rcases List.mem_cons.mp ho with rfl | ho
      · cases e
      · rcases (hmem o ho).2.2.1 with h' | h' <;> rw [h'] at e <;> cases e
    refine ⟨?_, ?_, ?_, ?_, ?_, ?_, ?_, fun _ => hnofix, ?_⟩
    · unfold opWrites
      rw [List.filter_cons_of_pos (by simp [hk]), List.filter_eq_nil_iff.mpr]
      · simp [hv]
      · intro o ho; simp [(hmem o ho).1]
    · intro o ho hk'
      rcases List.mem_cons.mp ho with rfl | ho
      · dsimp only at hk'; rw [hk] at hk'; cases hk'
      · exact (hmem o ho).2.2.2
    · intro o ho hk'
      rcases List.mem_cons.mp ho with rfl | ho
      · exact hv
      · rw [(hmem o ho).1] at hk'; cases hk'
    · intro o ho hk'
      rcases List.mem_cons.mp ho with rfl | ho
      · dsimp only at hk'; rw [hk] at hk'; cases hk'
      · exact (hmem o ho).2.1
    · intro j o hj hd
      cases j with
      | zero => rfl
      | succ j =>
        rw [List.getElem?_cons_succ] at hj
        rw [(hget j o hj).1] at hd; cases hd
    · intro o ho
      rcases List.mem_cons.mp ho with rfl | ho
      · exact .inr (.inr ⟨_, rfl⟩)
      · exact .inl (hmem o ho).2.2.1
    · intro j m o hj ho
      cases j with
      | zero =>
        simp only [List.getElem?_cons_zero, Option.some.injEq] at hj
        subst hj
        cases ho
        refine ⟨rfl, hk, rfl, hk31, { vreg := u.vreg, constraint := .Reg, kind := u.kind, pos := .Early }, ?_, huu.1, rfl, ?_⟩
        · rw [List.getElem?_cons_succ]
          exact List.getElem?_set_self (List.getElem?_eq_some_iff.mp hu').1
        · exact hcl.symm
      | succ j =>
        rw [List.getElem?_cons_succ] at hj
        rcases (hget j o hj).2.2.1 with h' | h' <;> rw [h'] at ho <;> cases ho
    · intro j j' o o' p hj _ _ ho _
      exact absurd ho (hnofix o (List.mem_of_getElem? hj) p)

/-! ### Fixed registers -/

structure FixInv (v : VReg) (R : VReg → Prop) (s : Fixing) : Prop where
  core : Core v R s.ops
  noreuse : ∀ o ∈ s.ops, ∀ m, o.constraint ≠ .Reuse m
  cls : ∀ o ∈ s.ops, ∃ c, o.vreg.class? = some c
  early : ∀ o ∈ s.ops, ∀ p, o.pos = .Early → o.constraint = .FixedReg p → p ∈ s.early
  late : ∀ o ∈ s.ops, ∀ p, o.pos = .Late → o.constraint = .FixedReg p → p ∈ s.late

theorem FixInv.set {v : VReg} {R : VReg → Prop} {s : Fixing} (h : FixInv v R s) {i : Nat} {o : Op} (hi : s.ops[i]? = some o) {p : PReg}
    (hcl : p.class? = o.vreg.class?) (h62 : p.hwEnc ≤ 62) (hde : o.kind = .Def → o.pos = .Early → p ∉ s.late)
    (hE : o.pos = .Early → p ∉ s.early) (hL : o.pos = .Late → p ∉ s.late) {E L : List PReg}
    (hEs : ∀ q ∈ s.early, q ∈ E) (hLs : ∀ q ∈ s.late, q ∈ L) (hpE : o.pos = .Early → p ∈ E) (hpL : o.pos = .Late → p ∈ L) :
    FixInv v R ⟨s.ops.set i ⟨o.vreg, .FixedReg p, o.kind, o.pos⟩, E, L⟩ := by
  have hsg : (s.ops.set i ⟨o.vreg, .FixedReg p, o.kind, o.pos⟩).map sg = s.ops.map sg := sg_set hi rfl
  have hom := List.mem_of_getElem? hi
  have hget : ∀ (j : Nat) (x : Op), (s.ops.set i ⟨o.vreg, .FixedReg p, o.kind, o.pos⟩)[j]? = some x →
      (i = j ∧ x = ⟨o.vreg, .FixedReg p, o.kind, o.pos⟩) ∨ (i ≠ j ∧ s.ops[j]? = some x) := by
    intro j x hj
    rw [List.getElem?_set] at hj
    split at hj
    · next e =>
      split at hj
      · cases hj; exact .inl ⟨e, rfl⟩
      · cases hj
    · next e => exact .inr ⟨e, hj⟩
  have hmem : ∀ x ∈ s.ops.set i ⟨o.vreg, .FixedReg p, o.kind, o.pos⟩, x = ⟨o.vreg, .FixedReg p, o.kind, o.pos⟩ ∨ x ∈ s.ops := by
    intro x hx
    obtain ⟨j, hj⟩ := List.mem_iff_getElem?.mp hx
    rcases hget j x hj with h' | h'
    · exact .inl h'.2
    · exact .inr (List.mem_of_getElem? h'.2)
  have hnr : ∀ x ∈ s.ops.set i ⟨o.vreg, .FixedReg p, o.kind, o.pos⟩, ∀ m, x.constraint ≠ .Reuse m := by
    intro x hx m e
    rcases hmem x hx with rfl | hx
    · cases e
    · exact h.noreuse x hx m e
  -- the new operand and another one fixed to the same register
  have key : ∀ (j : Nat) (x : Op), i ≠ j → s.ops[j]? = some x → x.constraint = .FixedReg p →
      o.pos ≠ x.pos ∧ (o.kind = .Def → o.pos = .Late) ∧ (x.kind = .Def → x.pos = .Late) := by
    intro j x hne hj hx
    have hxm := List.mem_of_getElem? hj
    cases hxp : x.pos with
    | Early =>
      have hin := h.early x hxm p hxp hx
      cases hop : o.pos with
      | Early => exact absurd hin (hE hop)
      | Late =>
        refine ⟨by decide, fun _ => rfl, ?_⟩
        intro hxk
        have hod : o.kind = .Def := by
          cases hok : o.kind with
          | Def => rfl
          | Use => have := h.core.early o hom hok; rw [hop] at this; cases this
        exact absurd ((h.core.one i o hi hod).trans (h.core.one j x hj hxk).symm) hne
    | Late =>
      have hin := h.late x hxm p hxp hx
      cases hop : o.pos with
      | Late => exact absurd hin (hL hop)
      | Early =>
        refine ⟨by decide, ?_, fun _ => rfl⟩
        intro hod
        exact absurd hin (hde hod hop)
  refine ⟨⟨?_, ?_, ?_, ?_, ?_, ?_, ?_, ?_, ?_⟩, hnr, ?_, ?_, ?_⟩
  · rw [opWrites_sg, hsg, ← opWrites_sg]; exact h.core.writes
  · intro x hx hk
    rcases hmem x hx with rfl | hx
    · exact h.core.reads o hom hk
    · exact h.core.reads x hx hk
  · intro x hx hk
    rcases hmem x hx with rfl | hx
    · exact h.core.defs o hom hk
    · exact h.core.defs x hx hk
  · intro x hx hk
    rcases hmem x hx with rfl | hx
    · exact h.core.early o hom hk
    · exact h.core.early x hx hk
  · intro j x hj hk
    rcases hget j x hj with ⟨rfl, rfl⟩ | ⟨-, hj⟩
    · exact h.core.one i o hi hk
    · exact h.core.one j x hj hk
  · intro x hx
    rcases hmem x hx with rfl | hx
    · exact .inr (.inl ⟨p, rfl, hcl, h62⟩)
    · exact h.core.con x hx
  · intro j m x hj hx
    exact absurd hx (hnr x (List.mem_of_getElem? hj) m)
  · rintro ⟨x, hx, m, hm⟩
    exact absurd hm (hnr x hx m)
  · intro j j' x x' q hj hj' hne hx hx'
    rcases hget j x hj with ⟨rfl, rfl⟩ | ⟨h1, hj⟩
    · rcases hget j' x' hj' with ⟨e, -⟩ | ⟨h2, hj'⟩
      · exact absurd e hne
      · cases hx
        exact ⟨(key j' x' h2 hj' hx').1, (key j' x' h2 hj' hx').2.1⟩
    · rcases hget j' x' hj' with ⟨rfl, rfl⟩ | ⟨h2, hj'⟩
      · cases hx'
        exact ⟨fun e => (key j x h1 hj hx).1 e.symm, (key j x h1 hj hx).2.2⟩
      · exact h.core.apart j j' x x' q hj hj' hne hx hx'
  · intro x hx
    rcases hmem x hx with rfl | hx
    · exact h.cls o hom
    · exact h.cls x hx
  · intro x hx q hp hq
    rcases hmem x hx with rfl | hx
    · cases hq; exact hpE hp
    · exact hEs q (h.early x hx q hp hq)
  · intro x hx q hp hq
    rcases hmem x hx with rfl | hx
    · cases hq; exact hpL hp
    · exact hLs q (h.late x hx q hp hq)

theorem toFixed_sat {v : VReg} {R : VReg → Prop} {s : Fixing} (h : FixInv v R s) {i : Nat} (hi : i < s.ops.length) :
    Sat (toFixed s i) (FixInv v R) := by
  unfold toFixed
  cases ho : s.ops[i]? with
  | none => rw [List.getElem?_eq_getElem hi] at ho; cases ho
  | some o =>
    dsimp only
    obtain ⟨c, hc⟩ := h.cls o (List.mem_of_getElem? ho)
    rw [hc]
    dsimp only
    refine (Sat.intIn (Nat.zero_le _)).bind fun e he => ?_
    have h62 : (PReg.new e c).hwEnc ≤ 62 := by
      rw [(C05_preg_roundtrip e c (by have : PReg.MAX = 63 := by decide
                                      omega)).1]; exact he.2
    have hcl : (PReg.new e c).class? = o.vreg.class? := by
      rw [hc, (C05_preg_roundtrip e c (by have : PReg.MAX = 63 := by decide
                                          omega)).2.1]
    refine Sat.ite (fun _ => Sat.pure h) (fun h1 => ?_)
    refine Sat.ite (fun _ => Sat.pure h) (fun _ => ?_)
    have hde : o.kind = .Def → o.pos = .Early → PReg.new e c ∉ s.late := fun a b m => h1 ⟨a, b, m⟩
    have mk := fun (E L : List PReg) => @FixInv.set v R s h i o ho (PReg.new e c) hcl h62 hde
    cases hp : o.pos with
    | Early =>
      dsimp only
      refine Sat.ite (fun _ => Sat.pure h) (fun h2 => Sat.pure ?_)
      have := h.set ho hcl h62 hde (fun _ => h2) (fun e => by rw [hp] at e; cases e) (E := s.early ++ [PReg.new e c]) (L := s.late)
        (fun q hq => List.mem_append_left _ hq) (fun q hq => hq) (fun _ => List.mem_append_right _ (by simp)) (fun e => by rw [hp] at e; cases e)
      rw [hp] at this
      exact this
    | Late =>
      dsimp only
      refine Sat.ite (fun _ => Sat.pure h) (fun h2 => Sat.pure ?_)
      have := h.set ho hcl h62 hde (fun e => by rw [hp] at e; cases e) (fun _ => h2) (E := s.early) (L := s.late ++ [PReg.new e c])
        (fun q hq => hq) (fun q hq => List.mem_append_left _ hq) (fun e => by rw [hp] at e; cases e) (fun _ => List.mem_append_right _ (by simp))
      rw [hp] at this
      exact this

theorem FixInv.nonempty {v : VReg} {R : VReg → Prop} {s : Fixing} (h : FixInv v R s) : 0 < s.ops.length := by
  have := h.core.writes
  cases hs : s.ops with
  | nil => rw [hs] at this; simp [opWrites] at this
  | cons => simp

theorem fixSome_sat {v : VReg} {R : VReg → Prop} : ∀ (k : Nat) (s : Fixing), FixInv v R s → Sat (fixSome k s) (FixInv v R) := by
  intro k
  induction k with
  | zero => intro s h; exact Sat.pure h
  | succ k ih =>
    intro s h
    unfold fixSome
    refine (Sat.intIn (Nat.zero_le _)).bind fun i hi => ?_
    have := h.nonempty
    exact (toFixed_sat h (by omega)).bind fun s' h' => ih s' h'

/-! ### Fresh registers and clobbers -/

theorem allocVreg_sat (nv : Nat) : Sat (allocVreg nv) (fun x => x.2 = nv + 1 ∧ Good x.1 ∧ x.1.vreg = nv) := by
  unfold allocVreg anyClass
  refine (Sat.choose _).bind fun c _ => ?_
  refine Sat.ite (fun h => Sat.pure ⟨rfl, ⟨nv, c, h, rfl⟩, vreg_num c h⟩) (fun _ => Sat.fail (by decide))

theorem callDefs_sat : ∀ (k nv : Nat), Sat (callDefs k nv) (fun x => nv ≤ x.2 ∧ (∀ o ∈ x.1, o.constraint = .Any ∧ o.kind = .Def ∧ o.pos = .Late ∧ Good o.vreg) ∧
    x.1.map (fun o => o.vreg.vreg) = List.range' nv (x.2 - nv)) := by
  intro k
  induction k with
  | zero => intro nv; exact Sat.pure ⟨Nat.le_refl _, by simp, by simp⟩
  | succ k ih =>
    intro nv
    unfold callDefs
    refine (allocVreg_sat nv).bind fun x hx => ?_
    refine (ih x.2).bind fun r hr => ?_
    obtain ⟨h1, h2, h3⟩ := hx
    obtain ⟨r1, r2, r3⟩ := hr
    rw [h1] at r1 r3
    refine Sat.pure ⟨by dsimp only; omega, ?_, ?_⟩
    · intro o ho
      rcases List.mem_cons.mp ho with rfl | ho
      · exact ⟨rfl, rfl, rfl, h2⟩
      · exact r2 o ho
    · dsimp only
      rw [List.map_cons, h3, r3, show r.2 - nv = (r.2 - (nv + 1)) + 1 by omega, List.range'_succ]

theorem callClobbers_sat (ops : List Op) : ∀ k, Sat (callClobbers ops k) (fun cl => ∀ o ∈ ops, ∀ p, o.kind = .Def → o.constraint = .FixedReg p → p ∉ cl) := by
  intro k
  induction k with
  | zero => exact Sat.pure (fun _ _ _ _ _ => by simp)
  | succ k ih =>
    unfold callClobbers anyClass
    refine (Sat.intIn (Nat.zero_le _)).bind fun e _ => ?_
    refine (Sat.choose _).bind fun c _ => ?_
    refine ih.bind fun ps hps => Sat.pure ?_
    intro o ho p hk hp hm
    split at hm
    · exact hps o ho p hk hp hm
    · next hn =>
      rcases List.mem_cons.mp hm with rfl | hm
      · exact hn (List.any_eq_true.mpr ⟨o, ho, by simp [fixedDef, hk, hp]⟩)
      · exact hps o ho p hk hp hm

theorem plainClobbers_sat : ∀ (k : Nat) (ps : List PReg), Sat (plainClobbers k ps) (fun _ => True) := by
  intro k
  induction k with
  | zero => intro ps; exact Sat.pure trivial
  | succ k ih =>
    intro ps
    unfold plainClobbers anyClass
    refine (Sat.intIn (Nat.zero_le _)).bind fun e _ => ?_
    refine Sat.ite (fun _ => ih _) (fun _ => ?_)
    exact (Sat.choose _).bind fun c _ => ih _

/-! ### One instruction -/

theorem special_sat {opts : Options} (hopts : OptionsOk opts) {v : VReg} {R : VReg → Prop} {ops : List Op} (h : Basic v R ops)
    (hv : ∃ c, v.class? = some c) (hR : ∀ r, R r → ∃ c, r.class? = some c) (hlen : ops.length ≤ opts.numUses.2 + 1) (nv : Nat) :
    Sat (special opts ops nv) (fun x => Made v R nv x.2.2 x.1 x.2.1) := by
  have hc := h.core
  have hnofix : ∀ o ∈ ops, ∀ p, o.constraint ≠ .FixedReg p := by
    obtain ⟨d, us, rfl, -, -, hp, hu⟩ := h.head
    intro o ho p e
    rcases List.mem_cons.mp ho with rfl | ho
    · rcases hp with h' | h' <;> rw [h'] at e <;> cases e
    · rcases (hu o ho).2.2.1 with h' | h' <;> rw [h'] at e <;> cases e
  have hnore : ∀ o ∈ ops, ∀ p, o.constraint ≠ .Reuse p := by
    obtain ⟨d, us, rfl, -, -, hp, hu⟩ := h.head
    intro o ho p e
    rcases List.mem_cons.mp ho with rfl | ho
    · rcases hp with h' | h' <;> rw [h'] at e <;> cases e
    · rcases (hu o ho).2.2.1 with h' | h' <;> rw [h'] at e <;> cases e
  unfold special
  refine (Sat.andFlip _).bind fun r hr => ?_
  refine Sat.ite (fun hr' => ?_) (fun _ => ?_)
  · have hcond := hr hr'
    rw [Bool.and_eq_true] at hcond
    have := hopts.reuse hcond.2
    refine (toReuse_sat h (of_decide_eq_true hcond.1) (by omega)).bind fun ops' h' => Sat.pure ?_
    exact h'.made nv (fun _ _ _ _ _ => by simp)
  · refine (Sat.andFlip _).bind fun f _ => ?_
    refine Sat.ite (fun _ => ?_) (fun _ => ?_)
    · refine (Sat.intIn (Nat.zero_le _)).bind fun k _ => ?_
      have hf0 : FixInv v R ⟨ops, [], []⟩ := by
        refine ⟨hc, hnore, ?_, ?_, ?_⟩
        · intro o ho
          cases hk : o.kind with
          | Def => rw [hc.defs o ho hk]; exact hv
          | Use => exact hR _ (hc.reads o ho hk)
        · intro o ho p _ hp; exact absurd hp (hnofix o ho p)
        · intro o ho p _ hp; exact absurd hp (hnofix o ho p)
      refine (fixSome_sat k _ hf0).bind fun s hs => ?_
      refine (Sat.andFlip _).bind fun c _ => ?_
      refine Sat.ite (fun _ => ?_) (fun _ => Sat.pure (hs.core.made nv (fun _ _ _ _ _ => by simp)))
      refine (Sat.intIn hopts.callsite).bind fun m _ => ?_
      refine (callDefs_sat m nv).bind fun ds hds => ?_
      refine (Sat.intIn hopts.clobbers).bind fun k _ => ?_
      refine (callClobbers_sat _ k).bind fun cl hcl => Sat.pure ?_
      obtain ⟨d1, d2, d3⟩ := hds
      refine ⟨d1, ⟨ds.1.map Op.vreg, ?_, ?_, ?_⟩, ?_, ?_, ?_, ?_⟩
      · dsimp only
        unfold opWrites
        rw [List.filter_append, List.map_append]
        have : (s.ops.filter (fun o => decide (o.kind = .Def))).map Op.vreg = [v] := hs.core.writes
        rw [this, List.filter_eq_self.mpr (fun o ho => by simp [(d2 o ho).2.1])]
        rfl
      · rw [List.map_map]; exact d3
      · intro c hc'
        obtain ⟨o, ho, rfl⟩ := List.mem_map.mp hc'
        exact (d2 o ho).2.2.2
      · intro r hr
        dsimp only at hr
        unfold opReads at hr
        rw [List.filter_append, List.map_append] at hr
        rcases List.mem_append.mp hr with hr | hr
        · exact hs.core.opReads r hr
        · obtain ⟨o, ho, rfl⟩ := List.mem_map.mp hr
          rw [List.mem_filter] at ho
          have := (of_decide_eq_true ho.2).1
          rw [(d2 o ho.1).2.1] at this; cases this
      · exact (hs.core.ok (fun o ho p hk hp => hcl o (List.mem_append_left _ ho) p hk hp)).append (fun o ho => (d2 o ho).1) (fun o ho => (d2 o ho).2.1)
      · intro o ho p hp
        rcases List.mem_append.mp ho with ho | ho
        · exact .inl (hs.core.fixed ho hp)
        · rw [(d2 o ho).1] at hp; cases hp
      · intro o ho hk
        rcases List.mem_append.mp ho with ho | ho
        · exact .inl (hs.core.defs o ho hk)
        · exact .inr (d2 o ho).1
    · refine (Sat.andFlip _).bind fun c _ => ?_
      refine Sat.ite (fun _ => ?_) (fun _ => ?_)
      · refine (Sat.intIn hopts.clobbers).bind fun k _ => ?_
        refine (plainClobbers_sat k []).bind fun cl _ => Sat.pure ?_
        exact hc.made nv (fun o ho p _ hp => absurd hp (hnofix o ho p))
      · refine (Sat.andFlip _).bind fun x _ => ?_
        refine Sat.ite (fun _ => ?_) (fun _ => Sat.pure (hc.made nv (fun _ _ _ _ _ => by simp)))
        unfold anyClass
        refine (Sat.choose _).bind fun c _ => Sat.pure ?_
        have hmax : (VReg.new VReg.MAX c).vreg = VReg.MAX := vreg_num c (Nat.le_refl _)
        have hcore := hc.ok (cl := []) (fun _ _ _ _ _ => by simp)
        have h63 := C05_preg_roundtrip 63 c (by decide)
        refine ⟨Nat.le_refl _, ⟨[], ?_, by simp, by simp⟩, ?_, ?_, ?_, ?_⟩
        · dsimp only
          unfold opWrites
          rw [List.filter_append, List.map_append]
          have : (ops.filter (fun o => decide (o.kind = .Def))).map Op.vreg = [v] := hc.writes
          rw [this]
          simp
        · intro r hr
          dsimp only at hr
          unfold opReads at hr
          rw [List.filter_append, List.map_append] at hr
          rcases List.mem_append.mp hr with hr | hr
          · exact hc.opReads r hr
          · obtain ⟨o, ho, rfl⟩ := List.mem_map.mp hr
            rw [List.mem_filter, List.mem_singleton] at ho
            have := (of_decide_eq_true ho.2).2
            rw [ho.1] at this
            simp [Op.asFixedNonallocatable, hmax] at this
        · refine ⟨?_, ?_, ?_, ?_, fun _ _ _ _ _ => by simp, ?_, ?_⟩
          · intro o ho hk
            rcases List.mem_append.mp ho with ho | ho
            · exact hc.early o ho hk
            · rw [List.mem_singleton] at ho; subst ho; rfl
          · intro o ho
            rcases List.mem_append.mp ho with ho | ho
            · exact hcore.kinds o ho
            · rw [List.mem_singleton] at ho; subst ho; exact .inr (.inr (.inl ⟨_, rfl⟩))
          · intro o ho p hp
            rcases List.mem_append.mp ho with ho | ho
            · exact hcore.fixed_class o ho p hp
            · rw [List.mem_singleton] at ho; subst ho
              cases hp
              rw [h63.2.1, (C05_vreg_roundtrip VReg.MAX c (Nat.le_refl _)).2]
          · intro k k' o o' p hk hk' hne ho ho'
            rcases getElem?_append_cases hk with hk | ⟨hk, hk2⟩
            · exact absurd ho (hnofix o (List.mem_of_getElem? hk) p)
            · rcases getElem?_append_cases hk' with hk' | ⟨hk', hk2'⟩
              · exact absurd ho' (hnofix o' (List.mem_of_getElem? hk') p)
              · have l1 := (List.getElem?_eq_some_iff.mp ‹(ops ++ _)[k]? = some o›).1
                have l2 := (List.getElem?_eq_some_iff.mp ‹(ops ++ _)[k']? = some o'›).1
                simp only [List.length_append, List.length_singleton] at l1 l2
                omega
          · intro k m o hk ho
            rcases getElem?_append_cases hk with hk | ⟨-, hk⟩
            · exact absurd ho (hnore o (List.mem_of_getElem? hk) m)
            · rw [List.mem_singleton] at hk; subst hk; cases ho
          · rintro ⟨o, ho, m, hm⟩
            rcases List.mem_append.mp ho with ho | ho
            · exact absurd hm (hnore o ho m)
            · rw [List.mem_singleton] at ho; subst ho; cases hm
        · intro o ho p hp
          rcases List.mem_append.mp ho with ho | ho
          · exact absurd hp (hnofix o ho p)
          · rw [List.mem_singleton] at ho; subst ho
            cases hp
            exact .inr ⟨c, rfl, rfl, rfl⟩
        · intro o ho hk
          rcases List.mem_append.mp ho with ho | ho
          · exact .inl (hc.defs o ho hk)
          · rw [List.mem_singleton] at ho; subst ho; cases hk

end Regalloc.FuzzGen
