import Verif.Proofs.Lru

/-
C15: the LRU of fastalloc.
-/
namespace Regalloc
namespace Lru
open Ring

theorem lastUse_append (hist : List PReg) (x y : PReg) :
    lastUse (hist ++ [x]) y = if x = y then hist.length + 1 else lastUse hist y := by
  induction hist with
  | nil => simp [lastUse]
  | cons h hist ih =>
    simp only [List.cons_append, lastUse, ih, List.length_cons]
    split <;> simp

theorem lastUse_le (hist : List PReg) (y : PReg) : lastUse hist y ≤ hist.length := by
  induction hist with
  | nil => simp [lastUse]
  | cons h hist ih =>
    simp only [lastUse, List.length_cons]
    split
    · omega
    · split <;> omega

theorem new_hwEnc {p : PReg} {c : RegClass} (h : p.class? = some c) : PReg.new p.hwEnc c = p := by
  obtain ⟨b⟩ := p
  have : ∀ b : Fin 256, ∀ c : RegClass, (PReg.mk ⟨⟨b⟩⟩).class? = some c →
      PReg.new (PReg.mk ⟨⟨b⟩⟩).hwEnc c = PReg.mk ⟨⟨b⟩⟩ := by
    intro b c
    cases c <;> revert b <;> decide +kernel
  exact this b.toBitVec.toFin c h

theorem hwEnc_lt (p : PReg) : p.hwEnc < 64 := by
  unfold PReg.hwEnc
  have : p.bits.toNat &&& PReg.MAX ≤ PReg.MAX := Nat.and_le_right
  have h : PReg.MAX = 63 := by decide
  omega

theorem hwEnc_inj {p q : PReg} {c : RegClass} (hp : p.class? = some c) (hq : q.class? = some c)
    (h : p.hwEnc = q.hwEnc) : p = q := by
  rw [← new_hwEnc hp, ← new_hwEnc hq, h]

theorem encs_erase {c : RegClass} (o : List PReg) (p : PReg) (ho : ∀ q ∈ o, q.class? = some c)
    (hp : p.class? = some c) : encs (o.erase p) = (encs o).erase p.hwEnc := by
  induction o with
  | nil => rfl
  | cons q o ih =>
    have ih' := ih (fun x hx => ho x (List.mem_cons_of_mem _ hx))
    by_cases h : q = p
    · subst h; simp [encs]
    · have : q.hwEnc ≠ p.hwEnc := fun e => h (hwEnc_inj (ho q (by simp)) hp e)
      rw [List.erase_cons_tail (by simpa using h)]
      unfold encs at ih' ⊢
      rw [List.map_cons, List.map_cons, List.erase_cons_tail (by simpa using this), ih']

theorem encs_nodup {c : RegClass} (o : List PReg) (hnd : o.Nodup) (ho : ∀ q ∈ o, q.class? = some c) :
    (encs o).Nodup := by
  unfold encs
  unfold List.Nodup at hnd ⊢
  rw [List.pairwise_map]
  exact hnd.imp_of_mem (fun ha hb h e => h (hwEnc_inj (ho _ ha) (ho _ hb) e))

/-- The state after a history of uses. -/
theorem history {cls : RegClass} {s : PRegSet} (hs : ∀ p, s.contains p = true → p.class? = some cls)
    (hist : List PReg) (hh : ∀ p ∈ hist, s.contains p = true) :
    ∃ l o, pokes? (new cls s) hist = some l ∧ Inv l (encs o) ∧ l.cls = cls ∧ o.Perm s.toList ∧
      o.Pairwise (fun p q => lastUse hist q ≤ lastUse hist p) := by
  obtain ⟨i1, i2, i3⟩ := C06_iteration s
  have hcls : ∀ q ∈ s.toList, q.class? = some cls := fun q hq => hs q ((i1 q).mp hq)
  have app : ∀ (l : Lru) (h : List PReg) (p : PReg), pokes? l (h ++ [p]) =
      match pokes? l h with | none => none | some l' => l'.poke? p := by
    intro l h p
    induction h generalizing l with
    | nil => simp only [List.nil_append, pokes?]; cases l.poke? p <;> rfl
    | cons q h ih =>
      simp only [List.cons_append, pokes?]
      cases l.poke? q with
      | none => rfl
      | some l' => exact ih l'
  have key : ∀ n, ∀ hist : List PReg, hist.length = n → (∀ p ∈ hist, s.contains p = true) →
      ∃ l o, pokes? (new cls s) hist = some l ∧ Inv l (encs o) ∧ l.cls = cls ∧ o.Perm s.toList ∧
      o.Pairwise (fun p q => lastUse hist q ≤ lastUse hist p) := by
    intro n
    induction n with
    | zero =>
      intro hist hn _
      have : hist = [] := List.eq_nil_of_length_eq_zero hn
      subst this
      refine ⟨new cls s, s.toList, rfl, new_ok (encs_nodup _ i3 hcls) ?_, rfl, List.Perm.refl _, ?_⟩
      · intro x hx
        obtain ⟨p, _, rfl⟩ := List.mem_map.mp hx
        exact hwEnc_lt p
      · exact List.pairwise_iff_forall_sublist.mpr (fun _ => by simp [lastUse])
    | succ n ih =>
      intro hist hn hh
      have hne : hist ≠ [] := by rintro rfl; simp at hn
      obtain ⟨h0, p, rfl⟩ : ∃ h0 p, hist = h0 ++ [p] := ⟨_, _, (List.dropLast_concat_getLast hne).symm⟩
      obtain ⟨l, o, e1, I, e2, e3, e4⟩ := ih h0 (by simpa using hn) (fun q hq => hh q (by simp [hq]))
      have hpo : p ∈ o := e3.mem_iff.mpr ((i1 p).mpr (hh p (by simp)))
      have hoc : ∀ q ∈ o, q.class? = some cls := fun q hq => hcls q (e3.mem_iff.mp hq)
      obtain ⟨l', f1, f2, f3⟩ := poke_ok I (p := p) (List.mem_map_of_mem hpo)
      have hno : o.Nodup := e3.nodup_iff.mpr i3
      refine ⟨l', p :: o.erase p, by rw [app, e1]; exact f1, ?_, by rw [f3, e2], ?_, ?_⟩
      · have := encs_erase o p hoc (hoc p hpo)
        simp only [encs, List.map_cons] at this f2 ⊢
        rw [this]; exact f2
      · exact (List.perm_cons_erase hpo).symm.trans e3
      · rw [List.pairwise_cons]
        constructor
        · intro q _
          rw [lastUse_append, lastUse_append, if_pos rfl]
          have := lastUse_le h0 q
          split <;> omega
        · refine (e4.sublist List.erase_sublist).imp_of_mem ?_
          intro a b ha hb hab
          have na : p ≠ a := by rintro rfl; exact (hno.not_mem_erase) ha
          have nb : p ≠ b := by rintro rfl; exact (hno.not_mem_erase) hb
          rw [lastUse_append, lastUse_append, if_neg na, if_neg nb]
          exact hab
  exact key _ hist rfl hh

theorem encs_back {cls : RegClass} (o : List PReg) (ho : ∀ q ∈ o, q.class? = some cls) :
    (encs o).reverse.map (fun x => PReg.new x cls) = o.reverse := by
  rw [List.map_reverse]
  congr 1
  unfold encs
  rw [List.map_map]
  conv => rhs; rw [← List.map_id o]
  exact List.map_congr_left (fun q hq => new_hwEnc (ho q hq))

/-- C15. After any sequence of uses of managed registers (none of which panics,
debug validation included), `last_satisfying` returns the least recently used
register among those satisfying the predicate, or `None` exactly when no managed
register does. -/
theorem C15_last_satisfying (cls : RegClass) (s : PRegSet) (hs : ∀ p, s.contains p = true → p.class? = some cls)
    (hne : ∃ p, s.contains p = true) (hist : List PReg) (hh : ∀ p ∈ hist, s.contains p = true) :
    ∃ l, pokes? (new cls s) hist = some l ∧ ∀ f : PReg → Bool,
      (∃ p, l.lastSatisfying? f = some (some p) ∧ s.contains p = true ∧ f p = true ∧
        ∀ q, s.contains q = true → f q = true → lastUse hist p ≤ lastUse hist q) ∨
      (l.lastSatisfying? f = some none ∧ ∀ q, s.contains q = true → f q = false) := by
  obtain ⟨l, o, e1, I, e2, e3, e4⟩ := history hs hist hh
  obtain ⟨i1, i2, i3⟩ := C06_iteration s
  have hoc : ∀ q ∈ o, q.class? = some cls := fun q hq => hs q ((i1 q).mp (e3.mem_iff.mp hq))
  refine ⟨l, e1, ?_⟩
  intro f
  have hon : encs o ≠ [] := by
    obtain ⟨p, hp⟩ := hne
    have : p ∈ o := e3.mem_iff.mpr ((i1 p).mpr hp)
    intro e
    have := List.mem_map_of_mem (f := PReg.hwEnc) this
    unfold encs at e
    rw [e] at this
    simp at this
  rw [lastSatisfying_ok I hon f, e2, encs_back o hoc]
  have hmem : ∀ q, s.contains q = true ↔ q ∈ o.reverse := by
    intro q
    rw [List.mem_reverse, e3.mem_iff, i1]
  cases hf : o.reverse.find? f with
  | none =>
    right
    refine ⟨rfl, ?_⟩
    intro q hq
    have := List.find?_eq_none.mp hf q ((hmem q).mp hq)
    simpa using this
  | some p =>
    left
    refine ⟨p, rfl, (hmem p).mpr (List.mem_of_find?_eq_some hf), List.find?_some hf, ?_⟩
    intro q hq hfq
    obtain ⟨_, l1, l2, h1, h2⟩ := List.find?_eq_some_iff_append.mp hf
    have hq' := (hmem q).mp hq
    have hp : o.reverse.Pairwise (fun p q => lastUse hist p ≤ lastUse hist q) := by
      rw [List.pairwise_reverse]; exact e4
    rw [h1] at hq' hp
    rcases List.mem_append.mp hq' with hm | hm
    · have := h2 q hm; simp [hfq] at this
    · rcases List.mem_cons.mp hm with rfl | hm
      · exact Nat.le_refl _
      · exact List.rel_of_pairwise_cons (List.pairwise_append.mp hp).2.1 hm

/-- C15. `last` is `last_satisfying` for membership in a set. -/
theorem C15_last (l : Lru) (s : PRegSet) : l.last? s = l.lastSatisfying? s.contains := rfl

/-- C15. `pop` returns a least recently used register. -/
theorem C15_pop (cls : RegClass) (s : PRegSet) (hs : ∀ p, s.contains p = true → p.class? = some cls)
    (hne : ∃ p, s.contains p = true) (hist : List PReg) (hh : ∀ p ∈ hist, s.contains p = true) :
    ∃ l p, pokes? (new cls s) hist = some l ∧ l.pop? = some p ∧ s.contains p = true ∧
      ∀ q, s.contains q = true → lastUse hist p ≤ lastUse hist q := by
  obtain ⟨l, o, e1, I, e2, e3, e4⟩ := history hs hist hh
  obtain ⟨i1, i2, i3⟩ := C06_iteration s
  have hoc : ∀ q ∈ o, q.class? = some cls := fun q hq => hs q ((i1 q).mp (e3.mem_iff.mp hq))
  have ho : o ≠ [] := by
    obtain ⟨p, hp⟩ := hne
    rintro rfl
    have := e3.mem_iff.mpr ((i1 p).mpr hp)
    simp at this
  have hon : encs o ≠ [] := by simpa [encs] using ho
  have hlast : PReg.new ((encs o).getLast hon) l.cls = o.getLast ho := by
    have : (encs o).getLast hon = (o.getLast ho).hwEnc := List.getLast_map (f := PReg.hwEnc) (l := o) (by simpa using ho)
    rw [this, e2, new_hwEnc (hoc _ (List.getLast_mem ho))]
  refine ⟨l, o.getLast ho, e1, by rw [pop_ok I hon, hlast], ?_, ?_⟩
  · exact (i1 _).mp (e3.mem_iff.mp (List.getLast_mem ho))
  · intro q hq
    have hq' : q ∈ o := e3.mem_iff.mpr ((i1 q).mpr hq)
    have e := List.dropLast_concat_getLast ho
    rw [← e] at hq' e4
    rcases List.mem_append.mp hq' with hm | hm
    · exact (List.pairwise_append.mp e4).2.2 q hm _ (by simp)
    · simp at hm; subst hm; exact Nat.le_refl _

theorem follow_ok {l : Lru} {h : Nat} (hh : l.head = h) (t2 : List Nat) : ∀ (t1 : List Nat) (c fuel : Nat),
    IsRing (nx l.data) (pv l.data) (t1 ++ c :: t2) → (∃ t, t1 ++ c :: t2 = h :: t) →
    (∀ x ∈ c :: t2, x < l.data.length) → t2.length < fuel → l.follow fuel c = c :: t2 := by
  induction t2 with
  | nil =>
    intro t1 c fuel hr ⟨t, ht⟩ hlt hf
    cases fuel with
    | zero => simp at hf
    | succ n =>
      unfold follow
      rw [getElem_node (hlt c (by simp))]
      have := (ring_wrap (ht ▸ hr) ht.symm).1
      simp [this, hh]
  | cons b t2 ih =>
    intro t1 c fuel hr ⟨t, ht⟩ hlt hf
    cases fuel with
    | zero => simp at hf
    | succ n =>
      unfold follow
      rw [getElem_node (hlt c (by simp))]
      have e := (ring_adj hr rfl).1
      have hbh : b ≠ h := by
        rintro rfl
        have hnd := hr.1
        rw [ht] at hnd
        cases t1 with
        | nil => simp at ht; obtain ⟨rfl, rfl⟩ := ht; simp at hnd
        | cons a t1 => simp at ht; obtain ⟨rfl, rfl⟩ := ht; simp at hnd
      simp only [e, hh, hbh, if_false]
      rw [ih (t1 ++ [c]) b n (by simpa using hr) ⟨t, by simpa using ht⟩
        (fun x hx => hlt x (List.mem_cons_of_mem _ hx)) (by simpa using hf)]

/-- C15. After any history the ring holds exactly the managed registers, each
once. -/
theorem C15_ring_holds_registers (cls : RegClass) (s : PRegSet)
    (hs : ∀ p, s.contains p = true → p.class? = some cls) (hist : List PReg) (hh : ∀ p ∈ hist, s.contains p = true) :
    ∃ l, pokes? (new cls s) hist = some l ∧ l.ringList.Nodup ∧
      ∀ x, x ∈ l.ringList ↔ ∃ p, s.contains p = true ∧ p.hwEnc = x := by
  obtain ⟨l, o, e1, I, e2, e3, e4⟩ := history hs hist hh
  obtain ⟨i1, i2, i3⟩ := C06_iteration s
  refine ⟨l, e1, ?_⟩
  have hring : l.ringList = encs o := by
    unfold ringList isEmpty U8MAX
    cases ho : encs o with
    | nil => have := I.hd; rw [ho] at this; simp at this; simp [this]
    | cons h t =>
      have I := I
      rw [ho] at I
      have hhead : l.head = h := by simpa using I.hd
      have h64 := I.lt h (by simp)
      rw [hhead, if_neg (by simp; omega)]
      have := length_le_64 I.ring.1 I.lt
      exact follow_ok hhead t [] h _ (by simpa using I.ring) ⟨t, by simp⟩
        (fun x hx => by rw [I.len]; exact I.lt x hx) (by rw [I.len]; simp at this; omega)
  rw [hring]
  refine ⟨I.ring.1, ?_⟩
  intro x
  unfold encs
  rw [List.mem_map]
  constructor
  · rintro ⟨p, hp, rfl⟩; exact ⟨p, (i1 p).mp (e3.mem_iff.mp hp), rfl⟩
  · rintro ⟨p, hp, rfl⟩; exact ⟨p, e3.mem_iff.mpr ((i1 p).mpr hp), rfl⟩

/-- C15. Poking a register that is not managed is not harmless: it panics. -/
theorem C15_poke_unmanaged_panics :
    (new .Int (PRegSet.ofList [PReg.new 1 .Int, PReg.new 2 .Int, PReg.new 5 .Int])).poke? (PReg.new 3 .Int) = none := by
  decide +kernel

/-- Concrete: three registers, four uses; the least recently used even one is r2. -/
example :
    let s := PRegSet.ofList [PReg.new 1 .Int, PReg.new 2 .Int, PReg.new 4 .Int]
    let hist := [PReg.new 2 .Int, PReg.new 1 .Int, PReg.new 4 .Int, PReg.new 1 .Int]
    (pokes? (new .Int s) hist).map Lru.ringList = some [1, 4, 2] ∧
    (pokes? (new .Int s) hist).bind (fun l => l.lastSatisfying? (fun p => p.hwEnc % 2 == 0)) =
      some (some (PReg.new 2 .Int)) ∧
    (∀ p ∈ hist, s.contains p = true) := by
  refine ⟨by decide +kernel, by decide +kernel, by decide +kernel⟩

end Lru
end Regalloc
