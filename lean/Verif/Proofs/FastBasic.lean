import Verif.Spec.Fastalloc
import Verif.Props.PRegSet
import Verif.Props.Lru
import Verif.Proofs.Encodings

/-
Basic facts used in the proofs about the single-pass allocator.
-/
namespace Regalloc
namespace Fast
open Exec

/-! ### Register sets -/

theorem cont_iff {p q : PReg} : p.index = q.index ↔ p = q := ⟨PRegSet.index_inj, fun e => by rw [e]⟩

theorem cont_remove (s : PRegSet) (p q : PReg) : (s.remove q).contains p = true ↔ p ≠ q ∧ s.contains p = true := by
  simp only [PRegSet.contains_eq_has, PRegSet.has_remove, Bool.and_eq_true, Bool.not_eq_true', decide_eq_false_iff_not,
    cont_iff, ne_eq]

theorem cont_add (s : PRegSet) (p q : PReg) : (s.add q).contains p = true ↔ p = q ∨ s.contains p = true := by
  simp only [PRegSet.contains_eq_has, PRegSet.has_add, Bool.or_eq_true, decide_eq_true_eq, cont_iff]

theorem cont_inter (s t : PRegSet) (p : PReg) :
    (s.intersectFrom t).contains p = true ↔ s.contains p = true ∧ t.contains p = true := by
  simp only [PRegSet.contains_eq_has, PRegSet.has_inter, Bool.and_eq_true]

theorem cont_union (s t : PRegSet) (p : PReg) :
    (s.unionFrom t).contains p = true ↔ s.contains p = true ∨ t.contains p = true := by
  simp only [PRegSet.contains_eq_has, PRegSet.has_union, Bool.or_eq_true]

theorem cont_invert (s : PRegSet) (p : PReg) : s.invert.contains p = true ↔ ¬ s.contains p = true := by
  simp only [PRegSet.contains_eq_has, PRegSet.has_invert _ _ (PRegSet.index_lt p)]
  simp

theorem cont_empty (p : PReg) : PRegSet.empty.contains p = false := by
  simp only [PRegSet.contains_eq_has, PRegSet.has_empty]

theorem cont_foldl_add (l : List PReg) (s : PRegSet) (p : PReg) :
    (l.foldl PRegSet.add s).contains p = true ↔ p ∈ l ∨ s.contains p = true := by
  simp only [PRegSet.contains_eq_has, PRegSet.has_ofList, Bool.or_eq_true, decide_eq_true_eq, cont_iff]
  simp

theorem cont_ofList (l : List PReg) (p : PReg) : (PRegSet.ofList l).contains p = true ↔ p ∈ l := by
  unfold PRegSet.ofList
  rw [cont_foldl_add, cont_empty]
  simp

theorem mem_toList (s : PRegSet) (p : PReg) : p ∈ s.toList ↔ s.contains p = true := (C06_iteration s).1 p

/-! ### Locations -/

theorem stk_toNat {n : Nat} (h : n < 2 ^ 29) : (stk n).bits.toNat = 2 * 2 ^ 29 + n := by
  unfold stk Allocation.stack
  rw [SpillSlot.new_toNat (by omega), Allocation.new_toNat _ _ h]
  rfl

theorem reg_toNat (p : PReg) : (Allocation.reg p).bits.toNat = 2 ^ 29 + p.index := by
  have := PRegSet.index_lt p
  unfold Allocation.reg
  rw [Allocation.new_toNat _ _ (by omega)]
  simp [AllocationKind.toNat]

theorem none_toNat : (Allocation.none).bits.toNat = 0 := by decide

theorem reg_inj {p q : PReg} (h : Allocation.reg p = Allocation.reg q) : p = q := by
  have := congrArg (fun a => a.bits.toNat) h
  simp only [reg_toNat] at this
  exact PRegSet.index_inj (by omega)

@[simp] theorem reg_inj_iff {p q : PReg} : Allocation.reg p = Allocation.reg q ↔ p = q := ⟨reg_inj, fun h => by rw [h]⟩

theorem stk_inj {m n : Nat} (hm : m < 2 ^ 29) (hn : n < 2 ^ 29) (h : stk m = stk n) : m = n := by
  have := congrArg (fun a => a.bits.toNat) h
  simp only [stk_toNat hm, stk_toNat hn] at this
  omega

theorem reg_ne_stk {p : PReg} {n : Nat} (hn : n < 2 ^ 29) : Allocation.reg p ≠ stk n := by
  intro h
  have := congrArg (fun a => a.bits.toNat) h
  have hp := PRegSet.index_lt p
  simp only [reg_toNat, stk_toNat hn] at this
  omega

@[simp] theorem reg_ne_none (p : PReg) : Allocation.reg p ≠ Allocation.none := by
  intro h
  have := congrArg (fun a => a.bits.toNat) h
  simp only [reg_toNat, none_toNat] at this
  omega

theorem stk_ne_none {n : Nat} (hn : n < 2 ^ 29) : stk n ≠ Allocation.none := by
  intro h
  have := congrArg (fun a => a.bits.toNat) h
  simp only [stk_toNat hn, none_toNat] at this
  omega

theorem kind_reg (p : PReg) : (Allocation.reg p).kind? = some .Reg := by
  rw [Allocation.kind?_eq_some, reg_toNat]
  have := PRegSet.index_lt p
  simp only [AllocationKind.toNat]
  omega

theorem kind_stk {n : Nat} (hn : n < 2 ^ 29) : (stk n).kind? = some .Stack := by
  rw [Allocation.kind?_eq_some, stk_toNat hn]
  simp only [AllocationKind.toNat]
  omega

theorem kind_none : Allocation.none.kind? = some .None := by decide

@[simp] theorem asReg_reg (p : PReg) : (Allocation.reg p).asReg = some p := by
  unfold Allocation.asReg
  rw [if_pos (kind_reg p)]
  have hp := PRegSet.index_lt p
  congr 1
  apply PRegSet.index_inj
  have e : (Allocation.reg p).index = p.index := by rw [Allocation.index_eq, reg_toNat]; omega
  rw [e]
  unfold PReg.index
  rw [PReg.fromIndex_toNat]
  have : p.bits.toNat < 256 := hp
  omega

theorem asReg_stk {n : Nat} (hn : n < 2 ^ 29) : (stk n).asReg = none := by
  unfold Allocation.asReg
  rw [if_neg (by rw [kind_stk hn]; decide)]

@[simp] theorem asReg_none : Allocation.none.asReg = none := by decide

@[simp] theorem isNone_reg (p : PReg) : (Allocation.reg p).isNone = false := by
  unfold Allocation.isNone; rw [kind_reg]; rfl

theorem isNone_stk {n : Nat} (hn : n < 2 ^ 29) : (stk n).isNone = false := by
  unfold Allocation.isNone; rw [kind_stk hn]; rfl

@[simp] theorem isNone_none : Allocation.none.isNone = true := by decide

theorem isStack_stk (cx : Cx) {n : Nat} (hn : n < 2 ^ 29) : cx.isStack (stk n) = true := by
  unfold Cx.isStack Allocation.isStack; rw [kind_stk hn]; rfl

theorem isStack_reg (cx : Cx) (p : PReg) : cx.isStack (Allocation.reg p) = cx.fixedStack.contains p := by
  unfold Cx.isStack Allocation.isStack; rw [kind_reg, asReg_reg]; rfl

theorem isStack_none (cx : Cx) : cx.isStack Allocation.none = false := by
  unfold Cx.isStack; simp [Allocation.isStack, kind_none]

/-! ### The environment -/

theorem regs_iff (cx : Cx) (c : RegClass) (p : PReg) : (cx.regs c).contains p = true ↔ AllocatableIn cx.env c p := by
  unfold Cx.regs AllocatableIn
  rw [cont_union]

theorem allocatable_iff (cx : Cx) (p : PReg) : cx.allocatable.contains p = true ↔ ∃ c, AllocatableIn cx.env c p := by
  unfold Cx.allocatable PRegSet.ofEnv AllocatableIn
  simp only [List.foldl, cont_union, cont_empty]
  constructor
  · rintro ((((((h | h) | h) | h) | h) | h) | h) <;> first | cases h; done | exact ⟨_, .inl h⟩ | exact ⟨_, .inr h⟩
  · rintro ⟨c, h | h⟩ <;> cases c <;> simp [h]

theorem initAvail_iff (cx : Cx) (p : PReg) :
    cx.initAvail.contains p = true ↔ p ∈ cx.env.fixedStackSlots ∨ ∃ c, AllocatableIn cx.env c p := by
  unfold Cx.initAvail
  rw [cont_foldl_add, allocatable_iff]

theorem fixedStack_iff (cx : Cx) (p : PReg) : cx.fixedStack.contains p = true ↔ p ∈ cx.env.fixedStackSlots := by
  unfold Cx.fixedStack; rw [cont_ofList]

theorem EnvOk.isStack_reg {cx : Cx} (h : EnvOk cx) {c : RegClass} {p : PReg} (hp : (cx.regs c).contains p = true) :
    cx.isStack (Allocation.reg p) = false := by
  rw [Fast.isStack_reg]
  cases e : cx.fixedStack.contains p with
  | false => rfl
  | true => exact absurd ((fixedStack_iff cx p).mp e) (h.real c p ((regs_iff cx c p).mp hp))

theorem EnvOk.pcls_reg {cx : Cx} (h : EnvOk cx) {c : RegClass} {p : PReg} (hp : (cx.regs c).contains p = true) :
    pcls p = c := by
  unfold pcls
  rw [h.class_ok c p ((regs_iff cx c p).mp hp)]
  rfl

theorem regs_init {cx : Cx} {c : RegClass} {p : PReg} (hp : (cx.regs c).contains p = true) :
    cx.initAvail.contains p = true := (initAvail_iff cx p).mpr (.inr ⟨c, (regs_iff cx c p).mp hp⟩)

theorem EnvOk.scratch_init {cx : Cx} (h : EnvOk cx) {c : RegClass} {r : PReg} (hr : cx.env.scratch c = some r) :
    ¬ cx.initAvail.contains r = true := by
  rw [initAvail_iff]
  rintro (hm | ⟨c', hm⟩)
  · exact (h.scratch c r hr).1 hm
  · exact (h.scratch c r hr).2 c' hm

theorem EnvOk.scratch_stack {cx : Cx} (h : EnvOk cx) {c : RegClass} {r : PReg} (hr : cx.env.scratch c = some r) :
    cx.isStack (Allocation.reg r) = false := by
  rw [Fast.isStack_reg]
  cases e : cx.fixedStack.contains r with
  | false => rfl
  | true => exact absurd ((fixedStack_iff cx r).mp e) (h.scratch c r hr).1

theorem EnvOk.allocatable_cls {cx : Cx} (h : EnvOk cx) {p : PReg} (hp : cx.allocatable.contains p = true) :
    (cx.regs (pcls p)).contains p = true := by
  obtain ⟨c, hc⟩ := (allocatable_iff cx p).mp hp
  have := (regs_iff cx c p).mpr hc
  rwa [h.pcls_reg this]

/-! ### The recency lists -/

/-- The recency lists hold exactly the allocatable registers of their class. -/
def LruOk (cx : Cx) (lrus : RegClass → Lru) : Prop :=
  ∀ c, ∃ o, Lru.Inv (lrus c) o ∧ (lrus c).cls = c ∧ (∀ x ∈ o, (cx.regs c).contains (PReg.new x c) = true) ∧
    ∀ p, (cx.regs c).contains p = true → p.hwEnc ∈ o

theorem lruOk_init {cx : Cx} (h : EnvOk cx) : LruOk cx (fun c => Lru.new c (cx.regs c)) := by
  intro c
  have hcls : ∀ q ∈ (cx.regs c).toList, q.class? = some c := fun q hq =>
    h.class_ok c q ((regs_iff cx c q).mp ((mem_toList _ _).mp hq))
  have hnd : (Lru.encs (cx.regs c).toList).Nodup := Lru.encs_nodup _
    ((C06_iteration _).2.1.imp (fun h e => by rw [e] at h; omega)) hcls
  refine ⟨_, Lru.new_ok hnd ?_, rfl, ?_, ?_⟩
  · intro x hx
    obtain ⟨q, _, rfl⟩ := List.mem_map.mp hx
    exact Lru.hwEnc_lt q
  · intro x hx
    obtain ⟨q, hq, rfl⟩ := List.mem_map.mp hx
    rw [Lru.new_hwEnc (hcls q hq)]
    exact (mem_toList _ _).mp hq
  · intro p hp
    exact List.mem_map.mpr ⟨p, (mem_toList _ _).mpr hp, rfl⟩

theorem lruOk_poke {cx : Cx} {lrus : RegClass → Lru} (h : LruOk cx lrus) {c : RegClass} {p : PReg} {l : Lru}
    (hp : (cx.regs c).contains p = true) (e : (lrus c).poke? p = some l) : LruOk cx (set1 lrus c l) := by
  intro c'
  by_cases hc : c' = c
  · subst hc
    obtain ⟨o, I, hcl, h1, h2⟩ := h c'
    obtain ⟨l', e', I', hcl'⟩ := Lru.poke_ok I (h2 p hp)
    rw [e] at e'
    cases e'
    have : set1 lrus c' l c' = l := by simp [set1]
    rw [this]
    refine ⟨_, I', hcl'.trans hcl, ?_, ?_⟩
    · intro x hx
      rcases List.mem_cons.mp hx with rfl | hx
      · exact h1 _ (h2 p hp)
      · exact h1 x (List.mem_of_mem_erase hx)
    · intro q hq
      by_cases hqp : q.hwEnc = p.hwEnc
      · rw [hqp]; exact List.mem_cons_self
      · exact List.mem_cons_of_mem _ ((List.mem_erase_of_ne hqp).mpr (h2 q hq))
  · have : set1 lrus c l c' = lrus c' := by simp [set1, hc]
    rw [this]; exact h c'

theorem last_mem {cx : Cx} {lrus : RegClass → Lru} (h : LruOk cx lrus) {c : RegClass} {p : PReg} {m : PRegSet}
    (e : (lrus c).last? m = some (some p)) : (cx.regs c).contains p = true ∧ m.contains p = true := by
  obtain ⟨o, I, hcl, h1, _⟩ := h c
  by_cases ho : o = []
  · subst ho
    have hh : (lrus c).head = 255 := by simpa using I.hd
    exfalso
    unfold Lru.last? Lru.lastSatisfying? at e
    simp [Lru.isEmpty, hh, Lru.U8MAX] at e
  · unfold Lru.last? at e
    rw [Lru.lastSatisfying_ok I ho] at e
    have e := Option.some.inj e
    have hm := List.mem_of_find?_eq_some e
    have hf := List.find?_some e
    obtain ⟨x, hx, rfl⟩ := List.mem_map.mp hm
    rw [hcl] at *
    exact ⟨h1 x (List.mem_reverse.mp hx), by simpa using hf⟩

/-! ### Small things -/

@[simp] theorem set1_same {α β : Type} [DecidableEq α] (g : α → β) (a : α) (x : β) : set1 g a x a = x := by simp [set1]

theorem set1_ne {α β : Type} [DecidableEq α] (g : α → β) {a b : α} (x : β) (h : b ≠ a) : set1 g a x b = g b := by
  simp [set1, h]

theorem slotAt_ge {bl : Bool} {size n : Nat} (h : 0 < size) : n ≤ slotAt bl size n := by
  have h1 : n ≤ (n + size - 1) / size * size := by
    have := Nat.div_add_mod (n + size - 1) size
    have hm := Nat.mod_lt (n + size - 1) h
    rw [Nat.mul_comm] at this
    omega
  unfold slotAt
  dsimp only
  split <;> omega

theorem slotAt_lt_next {bl : Bool} {size n : Nat} (h : 0 < size) : slotAt bl size n < slotNext size n := by
  unfold slotAt slotNext
  dsimp only
  split <;> omega

theorem slotNext_le {bl : Bool} {size n : Nat} (h : 0 < size) : slotNext size n ≤ slotAt bl size n + size := by
  unfold slotAt slotNext
  dsimp only
  split <;> omega

theorem slotNext_le' {size n : Nat} (h : 0 < size) : slotNext size n ≤ n + 2 * size := by
  have h1 : (n + size - 1) / size * size ≤ n + size - 1 := Nat.div_mul_le_self _ _
  unfold slotNext
  omega

end Fast
end Regalloc
