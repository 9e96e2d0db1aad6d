import Verif.Proofs.Ring
import Verif.Spec.Lru
import Verif.Props.PRegSet
import Verif.Props.Encodings
import Batteries.Data.List.Perm

namespace Regalloc.Lru
open Ring

def nx (d : List LruNode) (i : Nat) : Nat := ((d[i]?).map LruNode.next).getD 255
def pv (d : List LruNode) (i : Nat) : Nat := ((d[i]?).map LruNode.prev).getD 255

theorem getElem_node {d : List LruNode} {i : Nat} (h : i < d.length) : d[i]? = some ⟨pv d i, nx d i⟩ := by
  unfold pv nx
  rw [List.getElem?_eq_getElem h]
  rfl

theorem nx_set {d : List LruNode} {i : Nat} (h : i < d.length) (nd : LruNode) (j : Nat) :
    nx (d.set i nd) j = if j = i then nd.next else nx d j := by
  unfold nx
  rw [List.getElem?_set]
  by_cases e : i = j
  · subst e; simp [h]
  · rw [if_neg e, if_neg (fun e' => e e'.symm)]

theorem pv_set {d : List LruNode} {i : Nat} (h : i < d.length) (nd : LruNode) (j : Nat) :
    pv (d.set i nd) j = if j = i then nd.prev else pv d j := by
  unfold pv
  rw [List.getElem?_set]
  by_cases e : i = j
  · subst e; simp [h]
  · rw [if_neg e, if_neg (fun e' => e e'.symm)]

theorem setNext_spec {d : List LruNode} {i : Nat} (h : i < d.length) (x : Nat) :
    ∃ d', setNext? d i x = some d' ∧ d'.length = d.length ∧
      (∀ j, nx d' j = if j = i then x else nx d j) ∧ ∀ j, pv d' j = pv d j := by
  refine ⟨d.set i ⟨pv d i, x⟩, ?_, by simp, ?_, ?_⟩
  · unfold setNext?; rw [getElem_node h]
  · intro j; rw [nx_set h]
  · intro j; rw [pv_set h]; split <;> simp_all

theorem setPrev_spec {d : List LruNode} {i : Nat} (h : i < d.length) (x : Nat) :
    ∃ d', setPrev? d i x = some d' ∧ d'.length = d.length ∧
      (∀ j, pv d' j = if j = i then x else pv d j) ∧ ∀ j, nx d' j = nx d j := by
  refine ⟨d.set i ⟨x, nx d i⟩, ?_, by simp, ?_, ?_⟩
  · unfold setPrev?; rw [getElem_node h]
  · intro j; rw [pv_set h]
  · intro j; rw [nx_set h]; split <;> simp_all

/-- The ring lists the registers `o`, most recent first. -/
structure Inv (l : Lru) (o : List Nat) : Prop where
  len : l.data.length = 64
  lt : ∀ x ∈ o, x < 64
  ring : IsRing (nx l.data) (pv l.data) o
  hd : l.head = o.head?.getD 255
  off : ∀ i, i ∉ o → nx l.data i = 255 ∧ pv l.data i = 255

theorem length_le_64 {o : List Nat} (h : o.Nodup) (hlt : ∀ x ∈ o, x < 64) : o.length ≤ 64 := by
  have : o.Subperm (List.range 64) := List.subperm_of_subset h (fun x hx => by simp; exact hlt x hx)
  simpa using this.length_le

theorem ring_next {l : Lru} {h : Nat} {t1 t2 : List Nat} {c : Nat} (hr : IsRing (nx l.data) (pv l.data) (h :: (t1 ++ c :: t2))) :
    nx l.data c = (t2 ++ [h]).head (by simp) := by
  cases t2 with
  | nil => exact (ring_wrap hr (A' := h :: t1) (by simp)).1
  | cons d t2 => exact (ring_adj hr (l1 := h :: t1) (by simp; rfl)).1

theorem validateLoop_ok {l : Lru} {h : Nat} (hh : l.head = h) (t2 : List Nat) : ∀ (t1 : List Nat) (fuel : Nat),
    IsRing (nx l.data) (pv l.data) (h :: (t1 ++ t2)) → (∀ x ∈ t2, x < l.data.length) → t2.length < fuel →
    validateLoop l fuel ((t2 ++ [h]).head (by simp)) t1.reverse = true := by
  induction t2 with
  | nil =>
    intro t1 fuel _ _ hf
    cases fuel with
    | zero => simp at hf
    | succ n => simp [validateLoop, hh]
  | cons c t2 ih =>
    intro t1 fuel hr hlt hf
    cases fuel with
    | zero => simp at hf
    | succ n =>
      have hnd := hr.1
      have hch : c ≠ h := by
        rintro rfl
        exact (List.nodup_cons.mp hnd).1 (by simp)
      have hct : c ∉ t1 := by
        intro hc
        have := (List.nodup_cons.mp hnd).2
        rw [List.nodup_append] at this
        exact this.2.2 c hc c (by simp) rfl
      have hn := ring_next hr
      unfold validateLoop
      simp only [List.cons_append, List.head_cons, hh, hch, if_false, List.mem_reverse, hct]
      rw [getElem_node (hlt c (by simp))]
      simp only [hn]
      have := ih (t1 ++ [c]) n (by simpa using hr) (fun x hx => hlt x (by simp [hx])) (by simpa using hf)
      simpa using this

theorem validate_ok {l : Lru} {o : List Nat} (I : Inv l o) : l.validate = true := by
  unfold validate U8MAX
  cases o with
  | nil => have := I.hd; simp at this; simp [this]
  | cons h t =>
    have hh : l.head = h := by simpa using I.hd
    have h64 : h < 64 := I.lt h (by simp)
    rw [hh, if_neg (by omega), getElem_node (by rw [I.len]; omega)]
    simp only [Bool.and_eq_true]
    have hlen := length_le_64 I.ring.1 I.lt
    constructor
    · have hn : nx l.data h = (t ++ [h]).head (by simp) := by
        cases t with
        | nil => exact (ring_wrap I.ring (A' := []) rfl).1
        | cons c t => exact (ring_adj I.ring (l1 := []) rfl).1
      rw [hn]
      exact validateLoop_ok hh t [] _ (by simpa using I.ring)
        (fun x hx => by rw [I.len]; exact I.lt x (by simp [hx])) (by rw [I.len]; simp at hlen; omega)
    · rw [List.all_eq_true]
      intro i hi
      simp at hi
      unfold validateNode U8MAX
      rw [getElem_node hi]
      simp only
      by_cases hio : i ∈ h :: t
      · obtain ⟨c1, c2, c3, c4⟩ := ring_closed I.ring hio
        have d1 := I.lt _ c1
        have d2 := I.lt _ c2
        rw [if_neg (by omega), if_neg (by omega), getElem_node (by rw [I.len]; omega),
          getElem_node (by rw [I.len]; omega)]
        simp [c3, c4]
      · obtain ⟨e1, e2⟩ := I.off i hio
        simp [e1, e2]

theorem checked_ok {l : Lru} {o : List Nat} (I : Inv l o) : l.checked = some l := by
  unfold checked; rw [if_pos (validate_ok I)]

theorem remove_ok {l : Lru} {h x : Nat} {A B : List Nat} (I : Inv l (h :: (A ++ x :: B))) :
    ∃ l', l.remove? x = some l' ∧ Inv l' (h :: (A ++ B)) ∧ l'.cls = l.cls := by
  have hx64 : x < 64 := I.lt x (by simp)
  obtain ⟨c1, c2, c3, c4⟩ := ring_closed I.ring (x := x) (by simp)
  have hp := I.lt _ c2
  have hn := I.lt _ c1
  have hxh : x ≠ h := by
    rintro rfl; exact (List.nodup_cons.mp I.ring.1).1 (by simp)
  have hxAB : x ∉ h :: (A ++ B) := by
    have hnd : (h :: (A ++ x :: B)).Nodup := I.ring.1
    have hperm : (h :: (A ++ x :: B)).Perm (x :: h :: (A ++ B)) :=
      (List.perm_middle.cons h).trans (List.Perm.swap x h _)
    exact (List.nodup_cons.mp (hperm.nodup_iff.mp hnd)).1
  have hl := I.len
  have hpx : pv l.data x ≠ x := by
    intro e
    have hr := ring_remove I.ring (nx' := fun i => if i = pv l.data x then nx l.data x else nx l.data i)
      (pv' := fun i => if i = nx l.data x then pv l.data x else pv l.data i) (fun _ _ => rfl) (fun _ _ => rfl)
    -- the predecessor of `x` is on the ring before it
    obtain ⟨A', p, hA⟩ := exists_snoc h A
    have := (ring_adj I.ring (l1 := A') (a := p) (b := x) (l2 := B) (by
      rw [← List.cons_append, hA]; simp)).2
    rw [this] at e
    apply hxAB
    rw [← e, ← List.cons_append, hA]; simp
  obtain ⟨d1, s1, n1, a1, b1⟩ := setNext_spec (d := l.data) (i := pv l.data x) (by omega) (nx l.data x)
  obtain ⟨d2, s2, n2, a2, b2⟩ := setPrev_spec (d := d1) (i := nx l.data x) (by omega) (pv l.data x)
  obtain ⟨d3, s3, n3, a3, b3⟩ := setPrev_spec (d := d2) (i := x) (by omega) U8MAX
  obtain ⟨d4, s4, n4, a4, b4⟩ := setNext_spec (d := d3) (i := x) (by omega) U8MAX
  have hhead : l.head = h := by simpa using I.hd
  have key : Inv ⟨d4, l.head, l.cls⟩ (h :: (A ++ B)) := by
    refine ⟨by simp; omega, ?_, ?_, by simpa using hhead, ?_⟩
    · intro y hy; apply I.lt; simp at hy ⊢; grind
    · apply ring_remove I.ring
      · intro i hi
        simp only [a4, b3, b2, a1, if_neg hi]
      · intro i hi
        simp only [b4, a3, a2, b1, if_neg hi]
    · intro i hi
      simp only
      by_cases hix : i = x
      · subst hix
        rw [a4, b4, a3]; simp [U8MAX]
      · have hio : i ∉ h :: (A ++ x :: B) := by simp at hi ⊢; grind
        obtain ⟨e1, e2⟩ := I.off i hio
        have k1 : i ≠ pv l.data x := fun e => hio (e ▸ c2)
        have k2 : i ≠ nx l.data x := fun e => hio (e ▸ c1)
        rw [a4, b4, a3, b3, a2, b2, a1, b1]
        simp [hix, k1, k2, e1, e2]
  refine ⟨_, ?_, key, rfl⟩
  unfold remove?
  rw [getElem_node (by omega)]
  simp only [Option.bind_eq_bind, Option.bind_some, s1]
  rw [getElem_node (by omega)]
  simp only [Option.bind_some, b1, s2, s3, s4]
  rw [if_neg (by rw [hhead]; exact hxh)]
  exact checked_ok key

theorem insertBefore_ok {l : Lru} {h x : Nat} {t : List Nat} (I : Inv l (h :: t)) (hx : x < 64) (hxo : x ∉ h :: t) :
    ∃ l', l.insertBefore? x h = some l' ∧ Inv l' (h :: (t ++ [x])) ∧ l'.cls = l.cls := by
  have hl := I.len
  have h64 : h < 64 := I.lt h (by simp)
  obtain ⟨A', a, ha⟩ := exists_snoc h t
  obtain ⟨w1, w2⟩ := ring_wrap I.ring ha
  have ha64 : a < 64 := I.lt a (by rw [ha]; simp)
  have hax : a ≠ x := by rintro rfl; apply hxo; rw [ha]; simp
  have hhx : h ≠ x := by rintro rfl; simp at hxo
  obtain ⟨d1, s1, n1, a1, b1⟩ := setNext_spec (d := l.data) (i := a) (by omega) x
  obtain ⟨d2, s2, n2, a2, b2⟩ := setPrev_spec (d := d1) (i := h) (by omega) x
  have hx2 : x < d2.length := by omega
  have hhead : l.head = h := by simpa using I.hd
  have key : Inv ⟨d2.set x ⟨a, h⟩, l.head, l.cls⟩ (h :: (t ++ [x])) := by
    refine ⟨by simp; omega, ?_, ?_, by simpa using hhead, ?_⟩
    · intro y hy
      simp at hy
      rcases hy with rfl | hy | rfl
      · exact h64
      · exact I.lt y (by simp [hy])
      · exact hx
    · refine ring_insert (A := t) (B := []) (by simpa using I.ring) ha (by simpa using hxo) ?_ ?_
      · intro i
        simp only [nx_set hx2, b2, a1, w1]
      · intro i
        simp only [pv_set hx2, a2, b1, w1]
    · intro i hi
      simp at hi
      simp only [nx_set hx2, pv_set hx2, if_neg hi.2.2]
      rw [b2, a1, a2, b1, if_neg hi.1, if_neg]
      · exact I.off i (by simp [hi])
      · rintro rfl
        have : i ∈ h :: t := by rw [ha]; simp
        simp at this; grind
  refine ⟨_, ?_, key, rfl⟩
  unfold insertBefore?
  rw [getElem_node (by omega)]
  simp only [Option.bind_eq_bind, Option.bind_some, w2, s1, s2]
  rw [if_pos hx2]
  exact checked_ok key

theorem rotate_ok {l : Lru} {h x : Nat} {t : List Nat} (I : Inv l (h :: (t ++ [x]))) :
    Inv { l with head := x } (x :: h :: t) := by
  refine ⟨I.len, ?_, ring_rotate I.ring, rfl, ?_⟩
  · intro y hy; apply I.lt; simp at hy ⊢; grind
  · intro i hi; apply I.off; simp at hi ⊢; grind

theorem poke_ok {l : Lru} {o : List Nat} {p : PReg} (I : Inv l o) (hx : p.hwEnc ∈ o) :
    ∃ l', l.poke? p = some l' ∧ Inv l' (p.hwEnc :: o.erase p.hwEnc) ∧ l'.cls = l.cls := by
  obtain ⟨h, t, rfl⟩ : ∃ h t, o = h :: t := by
    cases o with
    | nil => simp at hx
    | cons h t => exact ⟨h, t, rfl⟩
  have hhead : l.head = h := by simpa using I.hd
  have h64 : h < 64 := I.lt h (by simp)
  unfold poke?
  simp only [hhead]
  obtain ⟨x, hxd⟩ : ∃ x, x = p.hwEnc := ⟨_, rfl⟩
  rw [← hxd] at hx ⊢
  by_cases hxh : x = h
  · subst hxh
    rw [if_pos rfl]
    exact ⟨l, rfl, by simpa using I, rfl⟩
  · rw [if_neg hxh, getElem_node (by rw [I.len]; omega)]
    have hxt : x ∈ t := by simpa [hxh] using hx
    obtain ⟨A, B, rfl⟩ := List.append_of_mem hxt
    have hnd := I.ring.1
    have hxA : x ∉ A := by
      intro hc
      have := (List.nodup_cons.mp hnd).2
      rw [List.nodup_append] at this
      exact this.2.2 x hc x (by simp) rfl
    have her : (h :: (A ++ x :: B)).erase x = h :: (A ++ B) := by
      rw [List.erase_cons_tail (by simpa using fun e => hxh e.symm), List.erase_append_right _ hxA,
        List.erase_cons_head]
    rw [her]
    by_cases hpv : pv l.data h = x
    · simp only [hpv, ne_eq, not_true_eq_false, if_false]
      have hB : B = [] := by
        obtain ⟨A', a, ha⟩ := exists_snoc h (A ++ x :: B)
        have w := (ring_wrap I.ring ha).2
        rw [hpv] at w
        subst w
        cases hBc : B with
        | nil => rfl
        | cons c B' =>
          exfalso
          subst hBc
          have e := congrArg List.getLast? ha
          have hm : x ∈ c :: B' := by
            simp [List.getLast?_cons, List.getLast?_append] at e
            have := List.getLast_mem (l := c :: B') (by simp)
            rw [List.getLast_eq_getLastD] at this
            simp at this
            grind
          have := (List.nodup_cons.mp hnd).2
          rw [List.nodup_append, List.nodup_cons] at this
          exact this.2.1.1 hm
      subst hB
      have := rotate_ok I
      refine ⟨_, checked_ok this, by simpa using this, rfl⟩
    · simp only [ne_eq, hpv, not_false_eq_true, if_true]
      obtain ⟨l1, r1, I1, k1⟩ := remove_ok I
      have hxo : x ∉ h :: (A ++ B) := by
        have hperm : (h :: (A ++ x :: B)).Perm (x :: h :: (A ++ B)) :=
          (List.perm_middle.cons h).trans (List.Perm.swap x h _)
        exact (List.nodup_cons.mp (hperm.nodup_iff.mp hnd)).1
      have hh1 : l1.head = h := by simpa using I1.hd
      obtain ⟨l2, r2, I2, k2⟩ := insertBefore_ok I1 (I.lt x (by simp)) hxo
      rw [r1]; simp only [hh1, r2]
      have := rotate_ok I2
      exact ⟨_, checked_ok this, this, by simp [k2, k1]⟩

theorem pop_ok {l : Lru} {o : List Nat} (I : Inv l o) (hne : o ≠ []) :
    l.pop? = some (PReg.new (o.getLast hne) l.cls) := by
  obtain ⟨h, t, rfl⟩ : ∃ h t, o = h :: t := by
    cases o with
    | nil => simp at hne
    | cons h t => exact ⟨h, t, rfl⟩
  have hhead : l.head = h := by simpa using I.hd
  have h64 : h < 64 := I.lt h (by simp)
  unfold pop? isEmpty U8MAX
  rw [hhead, if_neg (by simp; omega), getElem_node (by rw [I.len]; omega)]
  simp only [validate_ok I, if_true]
  have := (ring_wrap I.ring (List.dropLast_concat_getLast hne).symm).2
  rw [this]

theorem lastLoop_ok {l : Lru} {o : List Nat} (I : Inv l o) (f : PReg → Bool) {a : Nat}
    (ha : o.reverse.head? = some a) (s : List Nat) : ∀ (done : List Nat) (c fuel : Nat),
    o.reverse = done ++ c :: s → s.length < fuel →
    lastLoop l f a fuel c = some (((c :: s).map (fun x => PReg.new x l.cls)).find? f) := by
  induction s with
  | nil =>
    intro done c fuel e hf
    cases fuel with
    | zero => simp at hf
    | succ n =>
      have ho : o = c :: done.reverse := by
        have := congrArg List.reverse e; simpa using this
      subst ho
      have hc := I.lt c (by simp)
      unfold lastLoop
      simp only [List.map_cons, List.map_nil, List.find?_cons, List.find?_nil]
      cases hfc : f (PReg.new c l.cls) with
      | true => simp
      | false =>
        simp only [Bool.false_eq_true, if_false]
        rw [getElem_node (by rw [I.len]; omega)]
        have hne : c :: done.reverse ≠ [] := by simp
        have w := (ring_wrap I.ring (List.dropLast_concat_getLast hne).symm).2
        have : (c :: done.reverse).getLast hne = a := by
          rw [List.head?_reverse, List.getLast?_eq_some_getLast hne] at ha
          simpa using ha
        rw [this] at w
        simp [w]
  | cons b s ih =>
    intro done c fuel e hf
    cases fuel with
    | zero => simp at hf
    | succ n =>
      have ho : o = s.reverse ++ b :: c :: done.reverse := by
        have := congrArg List.reverse e; simpa using this
      have hpv := (ring_adj I.ring ho).2
      have hc := I.lt c (by rw [ho]; simp)
      unfold lastLoop
      rw [List.map_cons, List.find?_cons]
      simp only
      cases hfc : f (PReg.new c l.cls) with
      | true => simp
      | false =>
        rw [if_neg (by simp), getElem_node (by rw [I.len]; omega)]
        simp only [hpv]
        rw [if_neg]
        · exact ih (done ++ [c]) b n (by rw [e]; simp) (by simpa using hf)
        · rintro rfl
          have hnd : (o.reverse).Nodup := by
            rw [List.Perm.nodup_iff (List.reverse_perm o)]; exact I.ring.1
          rw [e] at hnd ha
          cases done with
          | nil => simp at ha; subst ha; simp at hnd
          | cons d done => simp at ha; subst ha; simp at hnd

theorem lastSatisfying_ok {l : Lru} {o : List Nat} (I : Inv l o) (hne : o ≠ []) (f : PReg → Bool) :
    l.lastSatisfying? f = some ((o.reverse.map (fun x => PReg.new x l.cls)).find? f) := by
  obtain ⟨h, t, rfl⟩ : ∃ h t, o = h :: t := by
    cases o with
    | nil => simp at hne
    | cons h t => exact ⟨h, t, rfl⟩
  have hhead : l.head = h := by simpa using I.hd
  have h64 : h < 64 := I.lt h (by simp)
  unfold lastSatisfying? isEmpty U8MAX
  rw [hhead, if_neg (by simp; omega), getElem_node (by rw [I.len]; omega)]
  simp only
  have w := (ring_wrap I.ring (List.dropLast_concat_getLast hne).symm).2
  rw [w]
  have hlen := length_le_64 I.ring.1 I.lt
  have e : (h :: t).reverse = (h :: t).getLast hne :: (h :: t).dropLast.reverse := by
    conv => lhs; rw [← List.dropLast_concat_getLast hne]
    simp
  rw [e]
  refine lastLoop_ok I f (by rw [e]; simp) _ [] _ _ (by simpa using e) ?_
  rw [I.len]; simp at hlen ⊢; omega

/-- Links from positions. -/
theorem linked_of_index {nxf pvf : Nat → Nat} (l : List Nat)
    (h : ∀ i, (hi : i + 1 < l.length) → nxf l[i] = l[i + 1] ∧ pvf l[i + 1] = l[i]) : Linked nxf pvf l := by
  induction l with
  | nil => trivial
  | cons a l ih =>
    cases l with
    | nil => trivial
    | cons b l =>
      refine ⟨(h 0 (by simp)).1, (h 0 (by simp)).2, ih ?_⟩
      intro i hi
      exact h (i + 1) (by simpa using hi)

def encs (regs : List PReg) : List Nat := regs.map PReg.hwEnc

theorem initNodes_spec {regs : List PReg} (hnd : (encs regs).Nodup) (hlt : ∀ x ∈ encs regs, x < 64) (k : Nat)
    (hk : k ≤ regs.length) :
    let d := initNodes regs k (List.replicate 64 ⟨255, 255⟩)
    d.length = 64 ∧
    (∀ j, (hj : j < k) → d[(encs regs)[j]'(by simp [encs]; omega)]? = some
      ⟨(encs regs)[if j = 0 then regs.length - 1 else j - 1]'(by simp [encs]; split <;> omega),
       (encs regs)[if j ≥ regs.length - 1 then 0 else j + 1]'(by simp [encs]; split <;> omega)⟩) ∧
    (∀ i, i < 64 → (∀ j, (hj : j < k) → (encs regs)[j]'(by simp [encs]; omega) ≠ i) → d[i]? = some ⟨255, 255⟩) := by
  induction k with
  | zero =>
    refine ⟨by simp [initNodes], by simp, ?_⟩
    intro i hi _
    simp only [initNodes]; rw [List.getElem?_replicate, if_pos hi]
  | succ k ih =>
    obtain ⟨h1, h2, h3⟩ := ih (by omega)
    have henc : ∀ m, (hm : m < regs.length) → ((regs[m]?).map PReg.hwEnc).getD 0 = (encs regs)[m]'(by simpa [encs] using hm) := by
      intro m hm
      rw [List.getElem?_eq_getElem hm]
      simp [encs]
    have hklt : (encs regs)[k]'(by simp [encs]; omega) < 64 := hlt _ (List.getElem_mem _)
    have hd : initNodes regs (k + 1) (List.replicate 64 ⟨255, 255⟩) =
        (initNodes regs k (List.replicate 64 ⟨255, 255⟩)).set ((encs regs)[k]'(by simp [encs]; omega))
        ⟨(encs regs)[if k = 0 then regs.length - 1 else k - 1]'(by simp [encs]; split <;> omega),
         (encs regs)[if k ≥ regs.length - 1 then 0 else k + 1]'(by simp [encs]; split <;> omega)⟩ := by
      rw [initNodes]
      simp only
      rw [henc k (by omega), henc _ (by split <;> omega), henc _ (by split <;> omega)]
    rw [hd]
    refine ⟨by simpa using h1, ?_, ?_⟩
    · intro j hj
      rw [List.getElem?_set]
      by_cases e : j = k
      · subst e
        rw [if_pos rfl, if_pos (by rw [h1]; exact hklt)]
      · rw [if_neg]
        · exact h2 j (by omega)
        · intro e'
          exact e ((List.getElem_inj hnd).mp e').symm
    · intro i hi hne
      rw [List.getElem?_set, if_neg (hne k (by omega))]
      exact h3 i hi (fun j hj => hne j (by omega))

theorem new_ok {cls : RegClass} {s : PRegSet} (hnd : (encs s.toList).Nodup) (hlt : ∀ x ∈ encs s.toList, x < 64) :
    Inv (new cls s) (encs s.toList) := by
  obtain ⟨h1, h2, h3⟩ := initNodes_spec hnd hlt s.toList.length (Nat.le_refl _)
  generalize hregs : s.toList = regs at *
  have hdata : (new cls s).data = initNodes regs regs.length (List.replicate 64 ⟨255, 255⟩) := by
    unfold new; rw [hregs]; rfl
  have hlenE : (encs regs).length = regs.length := by simp [encs]
  refine ⟨by rw [hdata]; exact h1, hlt, ⟨hnd, ?_⟩, ?_, ?_⟩
  · intro h t e
    rw [hdata]
    apply linked_of_index
    have hln : regs.length = t.length + 1 := by rw [← hlenE, e]; simp
    have hg : ∀ m, (hm : m < (h :: (t ++ [h])).length) → (h :: (t ++ [h]))[m] =
        (encs regs)[if m = regs.length then 0 else m]'(by simp at hm; split <;> omega) := by
      intro m hm
      simp at hm
      simp only [e]
      by_cases hmm : m = regs.length
      · subst hmm
        simp only [if_true, List.getElem_cons_zero]
        rw [List.getElem_cons]
        rw [dif_neg (by omega), List.getElem_append_right (by omega)]
        simp
      · simp only [hmm, if_false]
        cases m with
        | zero => simp
        | succ m =>
          simp only [List.getElem_cons_succ]
          rw [List.getElem_append_left (by omega)]
    intro i hi
    simp at hi
    rw [hg i (by simp; omega), hg (i + 1) (by simp; omega)]
    have hin : i ≠ regs.length := by omega
    constructor
    · have := h2 i (by omega)
      simp only [hin, if_false]
      unfold nx
      rw [this]
      simp only [Option.map_some, Option.getD_some]
      congr 1
      split <;> split <;> omega
    · have := h2 (if i + 1 = regs.length then 0 else i + 1) (by split <;> omega)
      unfold pv
      rw [this]
      simp only [Option.map_some, Option.getD_some]
      congr 1
      split <;> split <;> (try split) <;> omega
  · unfold new
    rw [hregs]
    cases regs <;> simp [encs, U8MAX]
  · intro i hi
    rw [hdata]
    unfold nx pv
    by_cases hi64 : i < 64
    · rw [h3 i hi64 (by intro j hj e; exact hi (e ▸ List.getElem_mem _))]; simp
    · rw [List.getElem?_eq_none (by omega)]; simp

end Regalloc.Lru
