import Verif.Proofs.Ring
import Verif.Spec.VRegSet
import Batteries.Data.List.Perm

namespace Regalloc.VRegSet
open Ring

def nx (d : List VRegNode) (i : Nat) : Nat := ((d[i]?).map VRegNode.next).getD 0
def pv (d : List VRegNode) (i : Nat) : Nat := ((d[i]?).map VRegNode.prev).getD 0
def vr (d : List VRegNode) (i : Nat) : VReg := ((d[i]?).map VRegNode.vreg).getD VReg.invalid

theorem getElem_node {d : List VRegNode} {i : Nat} (h : i < d.length) : d[i]? = some ⟨nx d i, pv d i, vr d i⟩ := by
  unfold pv nx vr
  rw [List.getElem?_eq_getElem h]
  rfl

theorem set_spec {d : List VRegNode} {i : Nat} (h : i < d.length) (nd : VRegNode) :
    (∀ j, nx (d.set i nd) j = if j = i then nd.next else nx d j) ∧
    (∀ j, pv (d.set i nd) j = if j = i then nd.prev else pv d j) ∧
    (∀ j, vr (d.set i nd) j = if j = i then nd.vreg else vr d j) := by
  unfold nx pv vr
  refine ⟨?_, ?_, ?_⟩ <;>
  · intro j
    rw [List.getElem?_set]
    by_cases e : i = j
    · subst e; simp [h]
    · rw [if_neg e, if_neg (fun e' => e e'.symm)]

theorem setNext_spec {d : List VRegNode} {i : Nat} (h : i < d.length) (x : Nat) :
    ∃ d', setNext? d i x = some d' ∧ d'.length = d.length ∧
      (∀ j, nx d' j = if j = i then x else nx d j) ∧ (∀ j, pv d' j = pv d j) ∧ ∀ j, vr d' j = vr d j := by
  obtain ⟨a, b, c⟩ := set_spec h ⟨x, pv d i, vr d i⟩
  refine ⟨d.set i ⟨x, pv d i, vr d i⟩, ?_, by simp, a, ?_, ?_⟩
  · unfold setNext?; rw [getElem_node h]
  · intro j; rw [b]; split <;> simp_all
  · intro j; rw [c]; split <;> simp_all

theorem setPrev_spec {d : List VRegNode} {i : Nat} (h : i < d.length) (x : Nat) :
    ∃ d', setPrev? d i x = some d' ∧ d'.length = d.length ∧
      (∀ j, pv d' j = if j = i then x else pv d j) ∧ (∀ j, nx d' j = nx d j) ∧ ∀ j, vr d' j = vr d j := by
  obtain ⟨a, b, c⟩ := set_spec h ⟨nx d i, x, vr d i⟩
  refine ⟨d.set i ⟨nx d i, x, vr d i⟩, ?_, by simp, b, ?_, ?_⟩
  · unfold setPrev?; rw [getElem_node h]
  · intro j; rw [a]; split <;> simp_all
  · intro j; rw [c]; split <;> simp_all

/-- The list holds exactly `l`, in order, behind the sentinel `n`. -/
structure Inv (n : Nat) (s : VRegSet) (l : List VReg) : Prop where
  hd : s.head = n
  len : s.items.length = n + 1
  lt : ∀ v ∈ l, v.vreg < n
  ring : IsRing (nx s.items) (pv s.items) (n :: l.map VReg.vreg)
  vals : ∀ v ∈ l, vr s.items v.vreg = v
  off : ∀ i, i ≤ n → i ∉ l.map VReg.vreg → vr s.items i = VReg.invalid

theorem new_inv (n : Nat) : Inv n (withCapacity n) [] := by
  have g : ∀ i, i ≤ n → (withCapacity n).items[i]? = some ⟨n, n, VReg.invalid⟩ := by
    intro i hi
    simp only [withCapacity]
    rw [List.getElem?_replicate, if_pos (by omega)]
  refine ⟨rfl, by simp [withCapacity], by simp, (isRing_cons _ _).mpr ⟨by simp, ?_⟩, by simp, ?_⟩
  · simp only [List.map_nil, List.nil_append]
    unfold Linked nx pv
    rw [g n (by omega)]
    exact ⟨rfl, rfl, trivial⟩
  · intro i hi _
    unfold vr
    rw [g i hi]; rfl

theorem insert_ok {n : Nat} {s : VRegSet} {l : List VReg} {v : VReg} (I : Inv n s l)
    (hv : (SetOp.insert v).Valid n l) : ∃ s', s.insert? v = some s' ∧ Inv n s' (v :: l) := by
  obtain ⟨h1, h2, h3⟩ := hv
  have hlen := I.len
  obtain ⟨c1, -, c3, -⟩ := ring_closed I.ring (x := n) (by simp)
  have hnn : nx s.items n < n + 1 := by
    rcases List.mem_cons.mp c1 with e | e
    · omega
    · obtain ⟨w, hw, e⟩ := List.mem_map.mp e; rw [← e]; have := I.lt w hw; omega
  have hnv : nx s.items n ≠ v.vreg := by
    intro e
    rcases List.mem_cons.mp c1 with e' | e'
    · omega
    · exact h3 (e ▸ e')
  obtain ⟨a0, b0, v0⟩ := set_spec (d := s.items) (i := v.vreg) (by omega) ⟨nx s.items n, s.head, v⟩
  have hl0 : (s.items.set v.vreg ⟨nx s.items n, s.head, v⟩).length = n + 1 := by simpa using hlen
  obtain ⟨d1, s1, n1, a1, b1, v1⟩ := setNext_spec (i := n) (x := v.vreg)
    (d := s.items.set v.vreg ⟨nx s.items n, s.head, v⟩) (by omega)
  obtain ⟨d2, s2, n2, a2, b2, v2⟩ := setPrev_spec (d := d1) (i := nx s.items n) (x := v.vreg) (by omega)
  refine ⟨⟨d2, n⟩, ?_, ⟨rfl, by simp; omega, ?_, ?_, ?_, ?_⟩⟩
  · unfold insert?
    rw [getElem_node (by omega)]
    simp only [Option.bind_eq_bind, Option.bind_some]
    rw [if_neg (by rw [I.off _ (by omega) h3]; simp), I.hd, getElem_node (by omega)]
    simp only [Option.bind_some]
    rw [I.hd] at s1
    rw [s1]; simp only [Option.bind_some]
    rw [s2]; rfl
  · intro w hw
    rcases List.mem_cons.mp hw with rfl | hw
    · exact h1
    · exact I.lt w hw
  · have hx : v.vreg ∉ n :: ([] ++ l.map VReg.vreg) := by
      simp only [List.nil_append, List.mem_cons, not_or]; exact ⟨by omega, h3⟩
    refine ring_insert (A := []) (B := l.map VReg.vreg) (A' := []) (a := n) (by simpa using I.ring) rfl hx ?_ ?_
    · intro i
      simp only [b2, a1, a0]
      by_cases hi : i = v.vreg
      · subst hi; simp; omega
      · simp [hi]
    · intro i
      simp only [a2, b1, b0]
      simp only [I.hd]
      by_cases hi : i = v.vreg
      · subst hi; simp; intro e; exact absurd e.symm hnv
      · simp [hi]
  · intro w hw
    simp only [v2, v1, v0]
    rcases List.mem_cons.mp hw with rfl | hw
    · simp
    · rw [if_neg]
      · exact I.vals w hw
      · intro e; exact h3 (e ▸ List.mem_map_of_mem hw)
  · intro i hi hio
    simp at hio
    simp only [v2, v1, v0]
    rw [if_neg hio.1]
    exact I.off i hi (by simpa using hio.2)

theorem filter_split {l : List VReg} {w : VReg} {l1 l2 : List VReg} (h : l = l1 ++ w :: l2)
    (hnd : (l.map VReg.vreg).Nodup) : l.filter (fun v => v.vreg ≠ w.vreg) = l1 ++ l2 := by
  subst h
  rw [List.map_append, List.map_cons, List.nodup_append, List.nodup_cons] at hnd
  obtain ⟨_, ⟨h2, _⟩, h3⟩ := hnd
  rw [List.filter_append, List.filter_cons_of_neg (by simp)]
  congr 1
  · rw [List.filter_eq_self]
    intro v hv
    simp only [ne_eq, decide_eq_true_eq]
    intro e
    exact h3 v.vreg (List.mem_map_of_mem hv) w.vreg (by simp) e
  · rw [List.filter_eq_self]
    intro v hv
    simp only [ne_eq, decide_eq_true_eq]
    intro e
    exact h2 (e ▸ List.mem_map_of_mem hv)

theorem remove_ok {n : Nat} {s : VRegSet} {l : List VReg} {k : Nat} (I : Inv n s l)
    (hv : (SetOp.remove k).Valid n l) :
    ∃ s', s.remove? k = some s' ∧ Inv n s' (l.filter (fun v => v.vreg ≠ k)) := by
  obtain ⟨w, hw, rfl⟩ := List.mem_map.mp hv
  obtain ⟨l1, l2, hl⟩ := List.append_of_mem hw
  have hnd := (List.nodup_cons.mp I.ring.1).2
  rw [filter_split hl hnd]
  have hlen := I.len
  have hwn := I.lt w hw
  have hmemv : ∀ {x}, x ∈ n :: l.map VReg.vreg → x < n + 1 := by
    intro x hx
    rcases List.mem_cons.mp hx with e | e
    · omega
    · obtain ⟨u, hu, e⟩ := List.mem_map.mp e; rw [← e]; have := I.lt u hu; omega
  obtain ⟨c1, c2, c3, c4⟩ := ring_closed I.ring (x := w.vreg) (by simp; exact .inr ⟨w, hw, rfl⟩)
  obtain ⟨d1, s1, n1, a1, b1, v1⟩ := setNext_spec (d := s.items) (i := pv s.items w.vreg) (x := nx s.items w.vreg)
    (by have := hmemv c2; omega)
  obtain ⟨d2, s2, n2, a2, b2, v2⟩ := setPrev_spec (d := d1) (i := nx s.items w.vreg) (x := pv s.items w.vreg)
    (by have := hmemv c1; omega)
  obtain ⟨a3, b3, v3⟩ := set_spec (d := d2) (i := w.vreg) (by omega) ⟨nx d2 w.vreg, pv d2 w.vreg, VReg.invalid⟩
  have hsub : ∀ {v}, v ∈ l1 ++ l2 → v ∈ l ∧ v.vreg ≠ w.vreg := by
    intro v hv
    have hf := filter_split hl hnd
    rw [← hf] at hv
    obtain ⟨h1, h2⟩ := List.mem_filter.mp hv
    exact ⟨h1, by simpa using h2⟩
  refine ⟨⟨d2.set w.vreg ⟨nx d2 w.vreg, pv d2 w.vreg, VReg.invalid⟩, n⟩, ?_, ⟨rfl, by simp; omega, ?_, ?_, ?_, ?_⟩⟩
  · unfold remove?
    rw [getElem_node (by omega)]
    simp only [Option.bind_eq_bind, Option.bind_some, s1, s2]
    rw [getElem_node (by omega), I.hd]; rfl
  · intro v hv; exact I.lt v (hsub hv).1
  · have hr := I.ring
    rw [hl, List.map_append, List.map_cons] at hr
    rw [List.map_append]
    refine ring_remove hr ?_ ?_
    · intro i hi
      rw [a3, if_neg hi, b2, a1]
    · intro i hi
      rw [b3, if_neg hi, a2]; simp only [b1]
  · intro v hv
    simp only [v3, if_neg (hsub hv).2, v2, v1]
    exact I.vals v (hsub hv).1
  · intro i hi hio
    simp only [v3, v2, v1]
    by_cases e : i = w.vreg
    · simp [e]
    · rw [if_neg e]
      apply I.off i hi
      intro hm
      apply hio
      rw [hl] at hm
      simp at hm ⊢
      grind

theorem iterLoop_ok {n : Nat} {s : VRegSet} {l : List VReg} (I : Inv n s l) (l2 : List VReg) :
    ∀ (l1 : List VReg) (fuel : Nat), l = l1 ++ l2 → l2.length < fuel →
      iterLoop s fuel ((l2.map VReg.vreg ++ [n]).head (by simp)) = some l2 := by
  induction l2 with
  | nil =>
    intro l1 fuel _ hf
    cases fuel with
    | zero => simp at hf
    | succ m => simp [iterLoop, I.hd]
  | cons v l2 ih =>
    intro l1 fuel e hf
    cases fuel with
    | zero => simp at hf
    | succ m =>
      have hvl : v ∈ l := by rw [e]; simp
      have hvn := I.lt v hvl
      have hnext : nx s.items v.vreg = (l2.map VReg.vreg ++ [n]).head (by simp) := by
        have hr := I.ring
        rw [e] at hr
        cases l2 with
        | nil => exact (ring_wrap hr (A' := n :: l1.map VReg.vreg) (by simp)).1
        | cons u l2 => exact (ring_adj hr (l1 := n :: l1.map VReg.vreg) (l2 := l2.map VReg.vreg) (by simp)).1
      simp only [List.map_cons, List.cons_append, List.head_cons, iterLoop]
      rw [if_pos (by rw [I.hd]; omega), getElem_node (by rw [I.len]; omega)]
      simp only [hnext, I.vals v hvl]
      rw [ih (l1 ++ [v]) m (by rw [e]; simp) (by simpa using hf)]
      rfl

theorem toList_ok {n : Nat} {s : VRegSet} {l : List VReg} (I : Inv n s l) : s.toList? = some l := by
  unfold toList?
  rw [I.hd, getElem_node (by rw [I.len]; omega)]
  have hnext : nx s.items n = (l.map VReg.vreg ++ [n]).head (by simp) := by
    cases l with
    | nil => exact (ring_wrap I.ring (A' := []) rfl).1
    | cons u l => exact (ring_adj I.ring (l1 := []) rfl).1
  simp only [hnext]
  apply iterLoop_ok I l [] _ rfl
  have hnd := (List.nodup_cons.mp I.ring.1).2
  have : (l.map VReg.vreg).Subperm (List.range n) := List.subperm_of_subset hnd (by
    intro x hx
    obtain ⟨w, hw, rfl⟩ := List.mem_map.mp hx
    simpa using I.lt w hw)
  have := this.length_le
  simp at this
  rw [I.len]; omega

theorem isEmpty_ok {n : Nat} {s : VRegSet} {l : List VReg} (I : Inv n s l) : s.isEmpty? = some l.isEmpty := by
  unfold isEmpty?
  rw [I.hd, getElem_node (by rw [I.len]; omega)]
  simp only [Option.map_some, Option.some.injEq]
  cases l with
  | nil =>
    have := (ring_wrap I.ring (A' := []) rfl).1
    simp [this]
  | cons u l =>
    have := (ring_adj I.ring (l1 := []) rfl).1
    have h2 := I.lt u (by simp)
    simp [this]; omega

theorem run_ok {n : Nat} (ops : List SetOp) : ∀ {s : VRegSet} {l : List VReg}, Inv n s l → ValidHist n l ops →
    ∃ s', run? s ops = some s' ∧ Inv n s' (absRun l ops) := by
  induction ops with
  | nil => intro s l I _; exact ⟨s, rfl, I⟩
  | cons op ops ih =>
    intro s l I h
    obtain ⟨h1, h2⟩ := h
    cases op with
    | insert v =>
      obtain ⟨s1, e1, I1⟩ := insert_ok I h1
      obtain ⟨s2, e2, I2⟩ := ih I1 h2
      exact ⟨s2, by simp only [run?, e1]; exact e2, I2⟩
    | remove k =>
      obtain ⟨s1, e1, I1⟩ := remove_ok I h1
      obtain ⟨s2, e2, I2⟩ := ih I1 h2
      exact ⟨s2, by simp only [run?, e1]; exact e2, I2⟩

end Regalloc.VRegSet
