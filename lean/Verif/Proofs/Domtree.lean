import Verif.Model.Domtree
import Verif.Proofs.Postorder
import Batteries.Data.List.Perm

namespace Regalloc

theorem Walk.mem_last {succs : Nat → List Nat} {e b : Nat} {l : List Nat} (h : Walk succs e b l) : b ∈ l := by
  cases h <;> simp

theorem Walk.head {succs : Nat → List Nat} {e b : Nat} {l : List Nat} (h : Walk succs e b l) :
    ∃ t, l = b :: t := by
  cases h <;> exact ⟨_, rfl⟩

/-- A walk can be cut at any block on it. -/
theorem Walk.cut {succs : Nat → List Nat} {e b x : Nat} {l1 l2 : List Nat}
    (h : Walk succs e b (l1 ++ x :: l2)) : Walk succs e x (x :: l2) := by
  generalize hl : l1 ++ x :: l2 = l at h
  induction h generalizing l1 with
  | start =>
    cases l1 with
    | nil => simp at hl; obtain ⟨rfl, rfl⟩ := hl; exact .start
    | cons a l1 => simp at hl
  | @step a b l hw hs ih =>
    cases l1 with
    | nil => simp at hl; obtain ⟨rfl, rfl⟩ := hl; exact hw.step hs
    | cons c l1 => simp at hl; exact ih hl.2

theorem Walk.reach_mem {succs : Nat → List Nat} {e b : Nat} {l : List Nat}
    (h : Walk succs e b l) : ∀ x ∈ l, Reaches succs e x := by
  intro x hx
  obtain ⟨l1, l2, rfl⟩ := List.append_of_mem hx
  exact ⟨_, h.cut⟩

/-- Every walk contains a walk without repetitions. -/
theorem Walk.simple {succs : Nat → List Nat} {e b : Nat} {l : List Nat}
    (h : Walk succs e b l) : ∃ l', Walk succs e b l' ∧ l'.Nodup ∧ ∀ x ∈ l', x ∈ l := by
  induction h with
  | start => exact ⟨_, .start, by simp, fun _ h => h⟩
  | @step a b l _ hs ih =>
    obtain ⟨l', hw, hn, hsub⟩ := ih
    by_cases hb : b ∈ l'
    · obtain ⟨l1, l2, rfl⟩ := List.append_of_mem hb
      refine ⟨b :: l2, hw.cut, ?_, ?_⟩
      · exact (List.nodup_append.mp hn).2.1
      · intro x hx
        exact List.mem_cons_of_mem _ (hsub x (by simp at hx ⊢; grind))
    · refine ⟨b :: l', hw.step hs, List.nodup_cons.mpr ⟨hb, hn⟩, ?_⟩
      intro x hx
      rcases List.mem_cons.mp hx with rfl | hx
      · simp
      · exact List.mem_cons_of_mem _ (hsub x hx)

theorem nodup_length_le {l : List Nat} {n : Nat} (h : l.Nodup) (hlt : ∀ x ∈ l, x < n) : l.length ≤ n := by
  have : l.Subperm (List.range n) := List.subperm_of_subset h (fun x hx => by simp; exact hlt x hx)
  simpa using this.length_le

namespace Dom

variable {succs : Nat → List Nat} {entry : Nat}

theorem refl (x : Nat) : Dom succs entry x x := fun _ h => h.mem_last

theorem trans {a b c : Nat} (h1 : Dom succs entry a b) (h2 : Dom succs entry b c) : Dom succs entry a c := by
  intro l hl
  have hb := h2 l hl
  obtain ⟨l1, l2, rfl⟩ := List.append_of_mem hb
  have := h1 _ hl.cut
  simp at this ⊢; grind

theorem of_entry {d : Nat} (h : Dom succs entry d entry) : d = entry := by
  have := h _ .start
  simpa using this

/-- strict dominators dominate every reachable predecessor -/
theorem pred {d x p : Nat} (h : Dom succs entry d x) (hne : d ≠ x) (hp : x ∈ succs p) :
    Dom succs entry d p := by
  intro l hl
  have := h _ (hl.step hp)
  simp at this
  rcases this with h | h
  · exact absurd h hne
  · exact h

end Dom

namespace Domtree

/-- Standing assumptions: `order` is the reverse postorder, `rpo` its numbering,
and predecessor lists agree with successor lists on reachable blocks. -/
structure Ctx (succs preds : Nat → List Nat) (entry n : Nat) (order : List Nat)
    (rpo : List (Option Nat)) : Prop where
  nodup : order.Nodup
  mem : ∀ b, b ∈ order ↔ Reaches succs entry b
  lt : ∀ b ∈ order, b < n
  entryRank : order.idxOf entry = 0
  parent : ∀ x ∈ order, x ≠ entry → ∃ p ∈ order, x ∈ succs p ∧ order.idxOf p < order.idxOf x
  rpoIn : ∀ x ∈ order, rpo[x]? = some (some (order.idxOf x))
  rpoOut : ∀ x, x < n → x ∉ order → rpo[x]? = some none
  predLt : ∀ x ∈ order, ∀ p ∈ preds x, p < n
  predSucc : ∀ x ∈ order, ∀ p ∈ order, p ∈ preds x ↔ x ∈ succs p

variable {succs preds : Nat → List Nat} {entry n : Nat} {order : List Nat} {rpo : List (Option Nat)}

theorem Ctx.entry_mem (C : Ctx succs preds entry n order rpo) : entry ∈ order :=
  (C.mem entry).mpr (.refl _ _)

theorem Ctx.rank_inj (_ : Ctx succs preds entry n order rpo) {x y : Nat} (hx : x ∈ order) (hy : y ∈ order)
    (h : order.idxOf x = order.idxOf y) : x = y := by
  have h1 := List.getElem_idxOf (xs := order) (List.idxOf_lt_length_of_mem hx)
  have h2 := List.getElem_idxOf (xs := order) (List.idxOf_lt_length_of_mem hy)
  rw [← h1, ← h2]
  congr 1

theorem Ctx.dom_rank (C : Ctx succs preds entry n order rpo) {x : Nat} (hx : x ∈ order) {d : Nat}
    (h : Dom succs entry d x) : d ∈ order ∧ order.idxOf d ≤ order.idxOf x := by
  have key : ∀ r x, x ∈ order → order.idxOf x = r → ∃ l, Walk succs entry x l ∧
      ∀ y ∈ l, order.idxOf y ≤ r := by
    intro r
    induction r using Nat.strongRecOn with
    | _ r ih =>
      intro x hx hr
      by_cases e : x = entry
      · subst e
        refine ⟨_, .start, ?_⟩
        intro y hy; simp at hy; subst hy; omega
      · obtain ⟨p, hp, hs, hlt⟩ := C.parent x hx e
        obtain ⟨l, hl, hm⟩ := ih (order.idxOf p) (by omega) p hp rfl
        refine ⟨_, hl.step hs, ?_⟩
        intro y hy
        rcases List.mem_cons.mp hy with rfl | hy
        · omega
        · have := hm y hy; omega
  obtain ⟨l, hl, hm⟩ := key _ x hx rfl
  have hd := h l hl
  exact ⟨(C.mem d).mpr (hl.reach_mem d hd), hm d hd⟩

/-- processed -/
def Proc (D : List (Option Nat)) (x : Nat) : Prop := ∃ p, D[x]? = some (some p)

structure Inv (succs : Nat → List Nat) (entry n : Nat) (order : List Nat) (D : List (Option Nat)) : Prop where
  len : D.length = n
  root : D[entry]? = some (some entry)
  mem : ∀ x p : Nat, D[x]? = some (some p) → x ∈ order
  up : ∀ x p : Nat, D[x]? = some (some p) → Proc D p
  rank : ∀ x p : Nat, D[x]? = some (some p) → x ≠ entry → order.idxOf p < order.idxOf x
  dom : ∀ x p : Nat, D[x]? = some (some p) → ∀ d, Dom succs entry d x → d ≠ x → Dom succs entry d p

/-- `a` is `x` or an ancestor of `x` in the current tree. -/
inductive Anc (entry : Nat) (D : List (Option Nat)) (a : Nat) : Nat → Prop
  | refl : Anc entry D a a
  | up {x p : Nat} : D[x]? = some (some p) → x ≠ entry → Anc entry D a p → Anc entry D a x

theorem Anc.trans {D : List (Option Nat)} {a b c : Nat} (h1 : Anc entry D a b) (h2 : Anc entry D b c) :
    Anc entry D a c := by
  induction h2 with
  | refl => exact h1
  | up h hne _ ih => exact .up h hne ih

variable {D : List (Option Nat)}

theorem mergeSets_spec (C : Ctx succs preds entry n order rpo) (I : Inv succs entry n order D)
    (fuel a b : Nat) (ha : Proc D a) (hb : Proc D b) (hf : order.idxOf a + order.idxOf b < fuel) :
    ∃ m, mergeSets D rpo fuel (some a) (some b) = some (some m) ∧ Proc D m ∧ Anc entry D m a ∧
      Anc entry D m b ∧ order.idxOf m ≤ order.idxOf a ∧
      ∀ d, Dom succs entry d a → Dom succs entry d b → Dom succs entry d m := by
  induction fuel generalizing a b with
  | zero => omega
  | succ fuel ih =>
    unfold mergeSets
    by_cases e : a = b
    · subst e
      exact ⟨a, by simp, ha, .refl, .refl, Nat.le_refl _, fun d h _ => h⟩
    · rw [if_neg (by simpa using e)]
      obtain ⟨pa, hpa⟩ := ha
      obtain ⟨pb, hpb⟩ := hb
      have hma := I.mem a pa hpa
      have hmb := I.mem b pb hpb
      simp only [C.rpoIn a hma, C.rpoIn b hmb]
      by_cases h1 : order.idxOf a > order.idxOf b
      · rw [if_pos h1]
        simp only [hpa]
        have hae : a ≠ entry := by rintro rfl; rw [C.entryRank] at h1; omega
        have hr := I.rank a pa hpa hae
        obtain ⟨m, hm, hp, h2, h3, h4, h5⟩ := ih pa b (I.up a pa hpa) ⟨pb, hpb⟩ (by omega)
        refine ⟨m, hm, hp, .up hpa hae h2, h3, by omega, ?_⟩
        intro d hda hdb
        apply h5 d _ hdb
        apply I.dom a pa hpa d hda
        rintro rfl
        have := (C.dom_rank hmb hdb).2
        omega
      · rw [if_neg h1]
        have h2 : order.idxOf b > order.idxOf a := by
          rcases Nat.lt_trichotomy (order.idxOf a) (order.idxOf b) with h | h | h
          · exact h
          · exact absurd (C.rank_inj hma hmb h) e
          · exact absurd h h1
        rw [if_pos h2]
        simp only [hpb]
        have hbe : b ≠ entry := by rintro rfl; rw [C.entryRank] at h2; omega
        have hr := I.rank b pb hpb hbe
        obtain ⟨m, hm, hp, h3, h4, h5, h6⟩ := ih a pb ⟨pa, hpa⟩ (I.up b pb hpb) (by omega)
        refine ⟨m, hm, hp, h3, .up hpb hbe h4, h5, ?_⟩
        intro d hda hdb
        apply h6 d hda
        apply I.dom b pb hpb d hdb
        rintro rfl
        have := (C.dom_rank hma hda).2
        omega

theorem idxOf_lt_len {x : Nat} (h : x ∈ order) : order.idxOf x < order.length :=
  List.idxOf_lt_length_of_mem h

theorem mergePreds_spec (C : Ctx succs preds entry n order rpo) (I : Inv succs entry n order D)
    (fuel : Nat) (hf : 2 * order.length ≤ fuel) (ps : List Nat) (q : Nat) (hq : Proc D q)
    (hps : ∀ p ∈ ps, p < n) :
    ∃ m, mergePreds D rpo fuel ps (some q) = some (some m) ∧ Proc D m ∧ Anc entry D m q ∧
      (∀ p ∈ ps, Proc D p → Anc entry D m p) ∧ order.idxOf m ≤ order.idxOf q ∧
      ∀ d, Dom succs entry d q → (∀ p ∈ ps, Proc D p → Dom succs entry d p) → Dom succs entry d m := by
  induction ps generalizing q with
  | nil => exact ⟨q, rfl, hq, .refl, by simp, Nat.le_refl _, fun d h _ => h⟩
  | cons p ps ih =>
    have hps' : ∀ p ∈ ps, p < n := fun x hx => hps x (List.mem_cons_of_mem _ hx)
    unfold mergePreds
    by_cases e : q = p
    · subst e
      simp only [if_true]
      obtain ⟨m, hm, h1, h2, h3, h4, h5⟩ := ih q hq hps'
      refine ⟨m, hm, h1, h2, ?_, h4, ?_⟩
      · intro x hx hpx
        rcases List.mem_cons.mp hx with rfl | hx
        · exact h2
        · exact h3 x hx hpx
      · intro d hd hall
        exact h5 d hd (fun x hx => hall x (List.mem_cons_of_mem _ hx))
    · rw [if_neg (by simpa using e)]
      have hlt : p < D.length := by rw [I.len]; exact hps p (by simp)
      have hD : ∃ o, D[p]? = some o := ⟨D[p], List.getElem?_eq_getElem hlt⟩
      obtain ⟨o, ho⟩ := hD
      rw [ho]
      cases o with
      | none =>
        simp only
        obtain ⟨m, hm, h1, h2, h3, h4, h5⟩ := ih q hq hps'
        refine ⟨m, hm, h1, h2, ?_, h4, ?_⟩
        · intro x hx hpx
          rcases List.mem_cons.mp hx with rfl | hx
          · obtain ⟨w, hw⟩ := hpx; rw [ho] at hw; simp at hw
          · exact h3 x hx hpx
        · intro d hd hall
          exact h5 d hd (fun x hx => hall x (List.mem_cons_of_mem _ hx))
      | some w =>
        simp only
        have hp : Proc D p := ⟨w, ho⟩
        have hpm := I.mem p w ho
        have hqm : q ∈ order := by obtain ⟨w, hw⟩ := hq; exact I.mem q w hw
        have l1 := idxOf_lt_len hpm
        have l2 := idxOf_lt_len hqm
        obtain ⟨m, hm, g1, g2, g3, g4, g5⟩ := mergeSets_spec C I fuel q p hq hp (by omega)
        rw [hm]
        simp only
        obtain ⟨m', hm', h1, h2, h3, h4, h5⟩ := ih m g1 hps'
        refine ⟨m', hm', h1, h2.trans g2, ?_, by omega, ?_⟩
        · intro x hx hpx
          rcases List.mem_cons.mp hx with rfl | hx
          · exact h2.trans g3
          · exact h3 x hx hpx
        · intro d hd hall
          exact h5 d (g5 d hd (hall p (by simp) hp)) (fun x hx => hall x (List.mem_cons_of_mem _ hx))

theorem firstParent_spec (C : Ctx succs preds entry n order rpo) (k : Nat) (ps : List Nat)
    (hps : ∀ p ∈ ps, p < n) :
    (∃ p ∈ ps, p ∈ order ∧ order.idxOf p < k ∧ firstParent rpo k ps = some (some p)) ∨
    (firstParent rpo k ps = some none ∧ ∀ p ∈ ps, p ∈ order → k ≤ order.idxOf p) := by
  induction ps with
  | nil => right; exact ⟨rfl, by simp⟩
  | cons p ps ih =>
    have ih := ih (fun x hx => hps x (List.mem_cons_of_mem _ hx))
    unfold firstParent
    by_cases hp : p ∈ order
    · rw [C.rpoIn p hp]
      simp only
      by_cases h : order.idxOf p < k
      · left; exact ⟨p, by simp, hp, h, by simp [h]⟩
      · rw [if_neg h]
        rcases ih with ⟨q, h1, h2, h3, h4⟩ | ⟨h1, h2⟩
        · left; exact ⟨q, List.mem_cons_of_mem _ h1, h2, h3, h4⟩
        · right
          refine ⟨h1, ?_⟩
          intro x hx hxo
          rcases List.mem_cons.mp hx with rfl | hx
          · omega
          · exact h2 x hx hxo
    · rw [C.rpoOut p (hps p (by simp)) hp]
      simp only
      rcases ih with ⟨q, h1, h2, h3, h4⟩ | ⟨h1, h2⟩
      · left; exact ⟨q, List.mem_cons_of_mem _ h1, h2, h3, h4⟩
      · right
        refine ⟨h1, ?_⟩
        intro x hx hxo
        rcases List.mem_cons.mp hx with rfl | hx
        · exact absurd hxo hp
        · exact h2 x hx hxo

/-- What one update of a non-entry block `x` to parent `m` guarantees. -/
structure Upd (succs preds : Nat → List Nat) (entry : Nat) (order : List Nat) (D : List (Option Nat))
    (x m : Nat) : Prop where
  ne : x ≠ entry
  mem : x ∈ order
  proc : Proc D m
  rank : order.idxOf m < order.idxOf x
  anc : ∀ p ∈ preds x, Proc D p → Anc entry D m p
  dom : ∀ d, (∀ p ∈ preds x, Proc D p → Dom succs entry d p) → Dom succs entry d m

theorem visit_spec (C : Ctx succs preds entry n order rpo) (I : Inv succs entry n order D)
    (fuel : Nat) (hf : 2 * order.length ≤ fuel) (c : Bool) (x : Nat) (hx : x ∈ order)
    (hproc : ∀ y ∈ order, order.idxOf y < order.idxOf x → Proc D y) :
    (x = entry ∧ visit preds rpo fuel (D, c) x = some (D, c)) ∨
    (∃ m, Upd succs preds entry order D x m ∧
      visit preds rpo fuel (D, c) x =
        some (if D[x]? = some (some m) then (D, c) else (D.set x (some m), true))) := by
  unfold visit
  rw [C.rpoIn x hx]
  simp only
  rcases firstParent_spec C (order.idxOf x) (preds x) (C.predLt x hx) with
    ⟨p, hpp, hpo, hpr, hfp⟩ | ⟨hfp, hnone⟩
  · right
    rw [hfp]
    simp only
    have hpP : Proc D p := hproc p hpo hpr
    obtain ⟨m, hm, h1, h2, h3, h4, h5⟩ :=
      mergePreds_spec C I fuel hf (preds x) p hpP (C.predLt x hx)
    rw [hm]
    have hlt : x < D.length := by rw [I.len]; exact C.lt x hx
    rw [List.getElem?_eq_getElem hlt]
    simp only
    refine ⟨m, ⟨?_, hx, h1, by omega, h3, ?_⟩, ?_⟩
    · rintro rfl; rw [C.entryRank] at hpr; omega
    · intro d hd; exact h5 d (hd p hpp hpP) hd
    · by_cases e : D[x] = some m
      · simp [e]
      · have : (some m) ≠ D[x] := fun h => e h.symm
        simp [e, this]
  · left
    rw [hfp]
    refine ⟨?_, rfl⟩
    apply Decidable.byContradiction
    intro hne
    obtain ⟨p, hp, hs, hlt⟩ := C.parent x hx hne
    have := hnone p ((C.predSucc x hx p hp).mpr hs) hp
    omega

theorem getElem?_set_of_lt {x y m : Nat} (hx : x < D.length) :
    (D.set x (some m))[y]? = if y = x then some (some m) else D[y]? := by
  by_cases e : y = x
  · subst e; simp [hx]
  · have : x ≠ y := fun h => e h.symm
    rw [List.getElem?_set_ne this, if_neg e]

theorem Upd.inv (C : Ctx succs preds entry n order rpo) (I : Inv succs entry n order D) {x m : Nat}
    (U : Upd succs preds entry order D x m) : Inv succs entry n order (D.set x (some m)) := by
  have hx : x < D.length := by rw [I.len]; exact C.lt x U.mem
  have hP : ∀ y, Proc D y → Proc (D.set x (some m)) y := by
    rintro y ⟨p, hp⟩
    unfold Proc
    rw [getElem?_set_of_lt hx]
    by_cases e : y = x
    · rw [if_pos e]; exact ⟨m, rfl⟩
    · rw [if_neg e]; exact ⟨p, hp⟩
  constructor
  · rw [List.length_set]; exact I.len
  · rw [getElem?_set_of_lt hx, if_neg (fun h => U.ne h.symm)]; exact I.root
  · intro y p h
    rw [getElem?_set_of_lt hx] at h
    split at h
    · next e => rw [e]; exact U.mem
    · exact I.mem y p h
  · intro y p h
    rw [getElem?_set_of_lt hx] at h
    split at h
    · simp at h; subst h; exact hP m U.proc
    · exact hP p (I.up y p h)
  · intro y p h hne
    rw [getElem?_set_of_lt hx] at h
    split at h
    · next e => simp at h; subst h; rw [e]; exact U.rank
    · exact I.rank y p h hne
  · intro y p h d hd hdy
    rw [getElem?_set_of_lt hx] at h
    split at h
    · next e =>
      simp at h; subst h; subst e
      apply U.dom d
      intro q hq ⟨w, hw⟩
      have hqo := I.mem q w hw
      exact hd.pred hdy ((C.predSucc y U.mem q hqo).mp hq)
    · exact I.dom y p h d hd hdy

/-- Ancestors after an update. -/
theorem anc_set {x m a z : Nat} (hx : x < D.length) (h : Anc entry (D.set x (some m)) a z) :
    Anc entry D a z ∨ (Anc entry D x z ∧ Anc entry D a m) := by
  induction h with
  | refl => left; exact .refl
  | @up z p hz hne _ ih =>
    rw [getElem?_set_of_lt hx] at hz
    split at hz
    · next e =>
      simp at hz; subst hz; subst e
      right
      rcases ih with h | ⟨_, h⟩
      · exact ⟨.refl, h⟩
      · exact ⟨.refl, h⟩
    · rcases ih with h | ⟨h, h'⟩
      · left; exact .up hz hne h
      · right; exact ⟨.up hz hne h, h'⟩

/-- Every tree ancestor of `z` lies on every path to `z` with at most `k` steps. -/
def Short (succs : Nat → List Nat) (entry k : Nat) (D : List (Option Nat)) (z : Nat) : Prop :=
  ∀ l, Walk succs entry z l → l.length ≤ k + 1 → ∀ a, Anc entry D a z → a ∈ l

theorem Upd.mem_of (C : Ctx succs preds entry n order rpo) {x m k : Nat}
    (U : Upd succs preds entry order D x m) (hall : ∀ z ∈ order, Proc D z)
    (hS : ∀ z, Short succs entry k D z) {l : List Nat} (hl : l.length ≤ k + 1)
    (hw : Walk succs entry x (x :: l)) {a : Nat} (ha : Anc entry D a m) : a ∈ l := by
  cases hw with
  | start => exact absurd rfl U.ne
  | @step q _ _ hq hs =>
    have hqo : q ∈ order := (C.mem q).mpr ⟨_, hq⟩
    have h1 := U.anc q ((C.predSucc x U.mem q hqo).mpr hs) (hall q hqo)
    exact hS q l hq hl a (ha.trans h1)

theorem Upd.short (C : Ctx succs preds entry n order rpo) (I : Inv succs entry n order D) {x m k k' : Nat}
    (U : Upd succs preds entry order D x m) (hall : ∀ z ∈ order, Proc D z)
    (hS : ∀ z, Short succs entry k D z) (hk : k' ≤ k + 1) {z : Nat} (hz : Short succs entry k' D z) :
    Short succs entry k' (D.set x (some m)) z := by
  intro l hw hl a ha
  have hx : x < D.length := by rw [I.len]; exact C.lt x U.mem
  rcases anc_set hx ha with h | ⟨h1, h2⟩
  · exact hz l hw hl a h
  · have hxl := hz l hw hl x h1
    obtain ⟨l1, l2, rfl⟩ := List.append_of_mem hxl
    have := U.mem_of C hall hS (l := l2) (by simp at hl; omega) hw.cut h2
    simp [this]

theorem Upd.short_self (C : Ctx succs preds entry n order rpo) (I : Inv succs entry n order D) {x m k : Nat}
    (U : Upd succs preds entry order D x m) (hall : ∀ z ∈ order, Proc D z)
    (hS : ∀ z, Short succs entry k D z) :
    Short succs entry (k + 1) (D.set x (some m)) x := by
  intro l hw hl a ha
  have hx : x < D.length := by rw [I.len]; exact C.lt x U.mem
  obtain ⟨l2, rfl⟩ := hw.head
  cases ha with
  | refl => simp
  | up h hne ha =>
    rw [getElem?_set_of_lt hx, if_pos rfl] at h
    simp at h; subst h
    have h2 : Anc entry D a m := by
      rcases anc_set hx ha with h | ⟨_, h⟩ <;> exact h
    have := U.mem_of C hall hS (l := l2) (by simp at hl; omega) hw h2
    simp [this]

theorem set_same {x m : Nat} (h : D[x]? = some (some m)) : D.set x (some m) = D := by
  apply List.ext_getElem?
  intro i
  obtain ⟨hx, _⟩ := List.getElem?_eq_some_iff.mp h
  rw [getElem?_set_of_lt hx]
  split
  · next e => rw [e, h]
  · rfl

/-- One pass: keeps the invariant and processes every block. -/
theorem pass_inv (C : Ctx succs preds entry n order rpo) (fuel : Nat) (hf : 2 * order.length ≤ fuel)
    (todo done : List Nat) (ho : order = done ++ todo) (D : List (Option Nat)) (c : Bool)
    (I : Inv succs entry n order D) (hd : ∀ z ∈ done, Proc D z) :
    ∃ D' c', pass preds rpo fuel todo (D, c) = some (D', c') ∧ Inv succs entry n order D' ∧
      (∀ z ∈ order, Proc D' z) ∧
      (c' = false → c = false ∧ D' = D ∧ ∀ x ∈ todo, x ≠ entry →
        ∃ m, D[x]? = some (some m) ∧ Upd succs preds entry order D x m) := by
  induction todo generalizing done D c with
  | nil =>
    refine ⟨D, c, rfl, I, ?_, fun h => ⟨h, rfl, by simp⟩⟩
    rw [ho]; simpa using hd
  | cons x todo ih =>
    have hx : x ∈ order := by rw [ho]; simp
    have hlt : x < D.length := by rw [I.len]; exact C.lt x hx
    have hnd := C.nodup
    rw [ho, List.nodup_append] at hnd
    have hproc : ∀ y ∈ order, order.idxOf y < order.idxOf x → Proc D y := by
      intro y hy hr
      apply hd
      rw [ho] at hy hr
      have hxd : x ∉ done := fun h => hnd.2.2 x h x (by simp) rfl
      have e1 : (done ++ x :: todo).idxOf x = done.length := by
        rw [List.idxOf_append, if_neg hxd]; simp
      rw [e1, List.idxOf_append] at hr
      split at hr
      · assumption
      · omega
    unfold pass
    rcases visit_spec C I fuel hf c x hx hproc with ⟨he, hv⟩ | ⟨m, U, hv⟩
    · rw [hv]
      simp only
      obtain ⟨D', c', h1, h2, h3, h4⟩ := ih (done ++ [x]) (by rw [ho]; simp) D c I (by
        intro z hz
        rcases List.mem_append.mp hz with hz | hz
        · exact hd z hz
        · simp at hz; subst hz; rw [he]; exact ⟨entry, I.root⟩)
      refine ⟨D', c', h1, h2, h3, ?_⟩
      intro hc
      obtain ⟨g1, g2, g3⟩ := h4 hc
      refine ⟨g1, g2, ?_⟩
      intro y hy hne
      rcases List.mem_cons.mp hy with rfl | hy
      · exact absurd he hne
      · exact g3 y hy hne
    · rw [hv]
      have hI' := U.inv C I
      by_cases e : D[x]? = some (some m)
      · rw [if_pos e]
        simp only
        obtain ⟨D', c', h1, h2, h3, h4⟩ := ih (done ++ [x]) (by rw [ho]; simp) D c I (by
          intro z hz
          rcases List.mem_append.mp hz with hz | hz
          · exact hd z hz
          · simp at hz; subst hz; exact ⟨m, e⟩)
        refine ⟨D', c', h1, h2, h3, ?_⟩
        intro hc
        obtain ⟨g1, g2, g3⟩ := h4 hc
        refine ⟨g1, g2, ?_⟩
        intro y hy hne
        rcases List.mem_cons.mp hy with rfl | hy
        · exact ⟨m, e, U⟩
        · exact g3 y hy hne
      · rw [if_neg e]
        simp only
        obtain ⟨D', c', h1, h2, h3, h4⟩ := ih (done ++ [x]) (by rw [ho]; simp) _ true hI' (by
          intro z hz
          unfold Proc
          rw [getElem?_set_of_lt hlt]
          split
          · exact ⟨m, rfl⟩
          · next hne =>
            rcases List.mem_append.mp hz with hz | hz
            · exact hd z hz
            · simp at hz; exact absurd hz hne)
        refine ⟨D', c', h1, h2, h3, ?_⟩
        intro hc
        have := (h4 hc).1
        simp at this

/-- One pass with everything processed extends `Short` by one step. -/
theorem pass_short (C : Ctx succs preds entry n order rpo) (fuel : Nat) (hf : 2 * order.length ≤ fuel)
    (k : Nat) (todo done : List Nat) (ho : order = done ++ todo) (D : List (Option Nat)) (c : Bool)
    (I : Inv succs entry n order D) (hall : ∀ z ∈ order, Proc D z)
    (hS : ∀ z, Short succs entry k D z) (hd : ∀ z ∈ done, Short succs entry (k + 1) D z)
    (D' : List (Option Nat)) (c' : Bool) (hp : pass preds rpo fuel todo (D, c) = some (D', c')) :
    ∀ z ∈ order, Short succs entry (k + 1) D' z := by
  induction todo generalizing done D c with
  | nil =>
    simp [pass] at hp
    obtain ⟨rfl, rfl⟩ := hp
    rw [ho]; simpa using hd
  | cons x todo ih =>
    have hx : x ∈ order := by rw [ho]; simp
    have hlt : x < D.length := by rw [I.len]; exact C.lt x hx
    unfold pass at hp
    have hext : ∀ D2 : List (Option Nat), (∀ z ∈ done, Short succs entry (k + 1) D2 z) →
        Short succs entry (k + 1) D2 x → ∀ z ∈ done ++ [x], Short succs entry (k + 1) D2 z := by
      intro D2 h1 h2 z hz
      rcases List.mem_append.mp hz with hz | hz
      · exact h1 z hz
      · simp at hz; subst hz; exact h2
    rcases visit_spec C I fuel hf c x hx (fun y hy _ => hall y hy) with ⟨he, hv⟩ | ⟨m, U, hv⟩
    · rw [hv] at hp
      simp only at hp
      refine ih (done ++ [x]) (by rw [ho]; simp) D c I hall hS (hext D hd ?_) hp
      intro l hw _ a ha
      subst he
      cases ha with
      | refl => exact hw.mem_last
      | up _ hne _ => exact absurd rfl hne
    · rw [hv] at hp
      have hself := U.short_self C I hall hS
      by_cases e : D[x]? = some (some m)
      · rw [if_pos e] at hp
        simp only at hp
        rw [set_same e] at hself
        exact ih (done ++ [x]) (by rw [ho]; simp) D c I hall hS (hext D hd hself) hp
      · rw [if_neg e] at hp
        simp only at hp
        refine ih (done ++ [x]) (by rw [ho]; simp) _ true (U.inv C I) ?_ ?_ (hext _ ?_ hself) hp
        · intro z hz
          unfold Proc
          rw [getElem?_set_of_lt hlt]
          split
          · exact ⟨m, rfl⟩
          · exact hall z hz
        · intro z; exact U.short C I hall hS (by omega) (hS z)
        · intro z hz; exact U.short C I hall hS (Nat.le_refl _) (hd z hz)

/-- Once ancestors lie on all short paths they dominate. -/
theorem dom_of_short (C : Ctx succs preds entry n order rpo) {k : Nat} (hk : n ≤ k + 1) {z : Nat}
    (h : Short succs entry k D z) {a : Nat} (ha : Anc entry D a z) : Dom succs entry a z := by
  intro l hl
  obtain ⟨l', h1, h2, h3⟩ := hl.simple
  apply h3
  refine h l' h1 ?_ a ha
  have := nodup_length_le h2 (fun x hx => C.lt x ((C.mem x).mpr (h1.reach_mem x hx)))
  omega

theorem visit_stable (C : Ctx succs preds entry n order rpo) (I : Inv succs entry n order D)
    (fuel : Nat) (hf : 2 * order.length ≤ fuel) (hall : ∀ z ∈ order, Proc D z)
    (hdom : ∀ z ∈ order, ∀ a, Anc entry D a z → Dom succs entry a z) (x : Nat) (hx : x ∈ order) :
    visit preds rpo fuel (D, false) x = some (D, false) := by
  rcases visit_spec C I fuel hf false x hx (fun y hy _ => hall y hy) with ⟨_, hv⟩ | ⟨m, U, hv⟩
  · exact hv
  · rw [hv]
    obtain ⟨p, hp⟩ := hall x hx
    have hpm : p ∈ order := by obtain ⟨w, hw⟩ := I.up x p hp; exact I.mem p w hw
    have hmm : m ∈ order := by obtain ⟨w, hw⟩ := U.proc; exact I.mem m w hw
    have hpx : Dom succs entry p x := hdom x hx p (.up hp U.ne .refl)
    have hrp := I.rank x p hp U.ne
    have hpm' : Dom succs entry p m := by
      apply U.dom p
      intro q hq ⟨w, hw⟩
      have hqo := I.mem q w hw
      apply hpx.pred (by rintro rfl; omega) ((C.predSucc x hx q hqo).mp hq)
    have hmx : Dom succs entry m x := by
      intro l hl
      cases hl with
      | start => exact absurd rfl U.ne
      | @step q _ l hq hs =>
        have hqo : q ∈ order := (C.mem q).mpr ⟨_, hq⟩
        have h1 := U.anc q ((C.predSucc x hx q hqo).mpr hs) (hall q hqo)
        exact List.mem_cons_of_mem _ (hdom q hqo m h1 l hq)
    have hmp : Dom succs entry m p := I.dom x p hp m hmx (by rintro rfl; have := U.rank; omega)
    have : p = m := C.rank_inj hpm hmm (by
      have h1 := (C.dom_rank hmm hpm').2
      have h2 := (C.dom_rank hpm hmp).2
      omega)
    subst this
    rw [if_pos hp]

theorem pass_stable (fuel : Nat) (todo : List Nat)
    (h : ∀ x ∈ todo, visit preds rpo fuel (D, false) x = some (D, false)) :
    pass preds rpo fuel todo (D, false) = some (D, false) := by
  induction todo with
  | nil => rfl
  | cons x todo ih =>
    unfold pass
    rw [h x (by simp)]
    exact ih (fun y hy => h y (List.mem_cons_of_mem _ hy))

/-- What the loop returns. -/
structure Fix (succs preds : Nat → List Nat) (entry n : Nat) (order : List Nat) (D : List (Option Nat)) : Prop where
  inv : Inv succs entry n order D
  all : ∀ z ∈ order, Proc D z
  fix : ∀ x ∈ order, x ≠ entry → ∃ m, D[x]? = some (some m) ∧ Upd succs preds entry order D x m

theorem loop_spec (C : Ctx succs preds entry n order rpo) (mfuel : Nat) (hf : 2 * order.length ≤ mfuel)
    (fuel k : Nat) (D : List (Option Nat)) (I : Inv succs entry n order D)
    (hall : ∀ z ∈ order, Proc D z) (hS : ∀ z ∈ order, Short succs entry k D z) (hk : n + 1 ≤ k + fuel)
    (hpos : 0 < fuel) :
    ∃ D', loop preds rpo order mfuel fuel D = some D' ∧ Fix succs preds entry n order D' := by
  induction fuel generalizing k D with
  | zero => omega
  | succ fuel ih =>
    have hS' : ∀ z, Short succs entry k D z := by
      intro z
      by_cases hz : z ∈ order
      · exact hS z hz
      · intro l hl; exact absurd ((C.mem z).mpr ⟨_, hl⟩) hz
    unfold loop
    obtain ⟨D', c', h1, h2, h3, h4⟩ := pass_inv C mfuel hf order [] rfl D false I (by simp)
    rw [h1]
    simp only
    cases c' with
    | false =>
      obtain ⟨_, rfl, g⟩ := h4 rfl
      exact ⟨_, rfl, h2, h3, g⟩
    | true =>
      simp only [if_true]
      have hstep := pass_short C mfuel hf k order [] rfl D false I hall hS' (by simp) D' true h1
      by_cases hfz : fuel = 0
      · exfalso
        have hdom : ∀ z ∈ order, ∀ a, Anc entry D a z → Dom succs entry a z :=
          fun z hz a ha => dom_of_short C (k := k) (by omega) (hS z hz) ha
        have := pass_stable (preds := preds) (rpo := rpo) (D := D) mfuel order
          (fun x hx => visit_stable C I mfuel hf hall hdom x hx)
        rw [this] at h1
        simp at h1
      · exact ih (k + 1) D' h2 h3 hstep (by omega) (by omega)

theorem numberBlocks_spec (rpo : List (Option Nat)) (i : Nat) (l : List Nat) (hnd : l.Nodup)
    (hlt : ∀ x ∈ l, x < rpo.length) :
    ∃ rpo', numberBlocks rpo i l = some rpo' ∧ rpo'.length = rpo.length ∧
      (∀ x ∈ l, rpo'[x]? = some (some (i + l.idxOf x))) ∧ (∀ x, x ∉ l → rpo'[x]? = rpo[x]?) := by
  induction l generalizing rpo i with
  | nil => exact ⟨rpo, rfl, rfl, by simp, by simp⟩
  | cons a l ih =>
    unfold numberBlocks
    have ha := hlt a (by simp)
    rw [if_pos ha]
    rw [List.nodup_cons] at hnd
    obtain ⟨rpo', h1, h2, h3, h4⟩ := ih (rpo.set a (some i)) (i + 1) hnd.2 (by
      intro x hx; rw [List.length_set]; exact hlt x (List.mem_cons_of_mem _ hx))
    refine ⟨rpo', h1, by rw [h2, List.length_set], ?_, ?_⟩
    · intro x hx
      by_cases e : x = a
      · subst e
        rw [h4 x hnd.1, getElem?_set_of_lt ha, if_pos rfl]
        simp
      · have hxl : x ∈ l := by simpa [e] using hx
        rw [h3 x hxl, List.idxOf_cons]
        have : (a == x) = false := by simp; exact fun h => e h.symm
        rw [this]
        simp only [cond_false]
        congr 2; omega
    · intro x hx
      rw [List.mem_cons, not_or] at hx
      rw [h4 x hx.2, getElem?_set_of_lt ha, if_neg hx.1]

/-- The immediate-dominator array is a correct dominator tree. -/
structure IsDomTree (succs : Nat → List Nat) (entry n : Nat) (idom : List (Option Nat)) : Prop where
  len : idom.length = n
  root : idom[entry]? = some none
  unreachable : ∀ x, x < n → ¬ Reaches succs entry x → idom[x]? = some none
  strict : ∀ x, Reaches succs entry x → x ≠ entry → ∃ p, idom[x]? = some (some p) ∧ p ≠ x ∧
    Dom succs entry p x ∧ ∀ d, Dom succs entry d x → d ≠ x → Dom succs entry d p

/-- There is a level function bounding the walk up the tree. -/
theorem calculate_spec (n entry : Nat) (succs preds : Nat → List Nat) (rpoList : List Nat)
    (R : Postorder.Result succs entry n rpoList)
    (hlt : ∀ x, Reaches succs entry x → ∀ p ∈ preds x, p < n)
    (hps : ∀ x p, Reaches succs entry x → Reaches succs entry p → (p ∈ preds x ↔ x ∈ succs p)) :
    ∃ idom, calculate? n preds rpoList.reverse entry = some idom ∧ IsDomTree succs entry n idom ∧
      (∀ x p : Nat, idom[x]? = some (some p) → rpoList.idxOf p < rpoList.idxOf x ∧ p ∈ rpoList) ∧
      rpoList.length ≤ n := by
  unfold calculate?
  rw [List.reverse_reverse]
  obtain ⟨rpo, h1, h2, h3, h4⟩ := numberBlocks_spec (List.replicate n none) 0 rpoList R.nodup (by
    intro x hx; rw [List.length_replicate]; exact R.lt x hx)
  rw [h1]
  simp only
  have he : entry < n := R.lt entry ((R.mem entry).mpr (.refl _ _))
  rw [if_pos he]
  have hhead : ∃ t, rpoList = entry :: t := by
    have := R.head
    cases rpoList with
    | nil => simp at this
    | cons a t => simp at this; subst this; exact ⟨t, rfl⟩
  have C : Ctx succs preds entry n rpoList rpo := by
    refine ⟨R.nodup, R.mem, R.lt, ?_, ?_, ?_, ?_, ?_, ?_⟩
    · obtain ⟨t, ht⟩ := hhead; rw [ht]; simp
    · intro x hx hne
      obtain ⟨pre, post, hpp⟩ := List.append_of_mem hx
      obtain ⟨p, hp, hm⟩ := R.parent pre x post hpp hne
      refine ⟨p, by rw [hpp]; simp [hm], hp, ?_⟩
      have hnd := R.nodup
      rw [hpp, List.nodup_append] at hnd
      have hxp : x ∉ pre := fun h => hnd.2.2 x h x (by simp) rfl
      rw [hpp, List.idxOf_append, if_pos hm, List.idxOf_append, if_neg hxp]
      have := List.idxOf_lt_length_of_mem hm
      omega
    · intro x hx; have := h3 x hx; simpa using this
    · intro x hx hxo
      rw [h4 x hxo]
      simp [hx]
    · intro x hx p hp; exact hlt x ((R.mem x).mp hx) p hp
    · intro x hx p hp; exact hps x p ((R.mem x).mp hx) ((R.mem p).mp hp)
  have hl0 : entry < (List.replicate n (none : Option Nat)).length := by simpa using he
  have hget : ∀ y, ((List.replicate n none).set entry (some entry))[y]? =
      if y = entry then some (some entry) else (List.replicate n none)[y]? :=
    fun y => getElem?_set_of_lt hl0
  have hsome : ∀ x p, ((List.replicate n none).set entry (some entry))[x]? = some (some p) →
      x = entry ∧ p = entry := by
    intro x p h
    rw [hget] at h
    split at h
    · next e => simp at h; exact ⟨e, h.symm⟩
    · rw [List.getElem?_replicate] at h; split at h <;> simp at h
  have I0 : Inv succs entry n rpoList ((List.replicate n none).set entry (some entry)) := by
    constructor
    · simp
    · rw [hget, if_pos rfl]
    · intro x p h; rw [(hsome x p h).1]; exact C.entry_mem
    · intro x p h; rw [(hsome x p h).2]; exact ⟨entry, by rw [hget, if_pos rfl]⟩
    · intro x p h hne; exact absurd (hsome x p h).1 hne
    · intro x p h d hd hne
      have := (hsome x p h).1
      subst this
      exact absurd hd.of_entry hne
  -- first pass
  have hmf : 2 * rpoList.length ≤ 2 * rpoList.reverse.length + 1 := by simp
  have hfix : ∃ D', loop preds rpo rpoList (2 * rpoList.reverse.length + 1) (n + 3)
      ((List.replicate n none).set entry (some entry)) = some D' ∧ Fix succs preds entry n rpoList D' := by
    unfold loop
    obtain ⟨D', c', g1, g2, g3, g4⟩ :=
      pass_inv C (2 * rpoList.reverse.length + 1) hmf rpoList [] rfl _ false I0 (by simp)
    rw [g1]
    simp only
    cases c' with
    | false =>
      obtain ⟨_, rfl, g⟩ := g4 rfl
      exact ⟨_, rfl, g2, g3, g⟩
    | true =>
      simp only [if_true]
      refine loop_spec C _ hmf (n + 2) 0 D' g2 g3 ?_ (by omega) (by omega)
      intro z _ l hw hl a ha
      cases hw with
      | start =>
        cases ha with
        | refl => simp
        | up _ hne _ => exact absurd rfl hne
      | step hw' _ =>
        obtain ⟨t, rfl⟩ := hw'.head
        simp at hl
  obtain ⟨D, hD, F⟩ := hfix
  rw [hD]
  simp only
  have hDlen := F.inv.len
  have hgetD : ∀ y, (D.set entry none)[y]? = if y = entry then some none else D[y]? := by
    intro y
    by_cases e : y = entry
    · subst e; rw [if_pos rfl]; simp [hDlen, he]
    · rw [if_neg e, List.getElem?_set_ne (fun h => e h.symm)]
  have hancdom : ∀ x l, Walk succs entry x l → ∀ a, Anc entry D a x → a ∈ l := by
    intro x l hw
    induction hw with
    | start =>
      intro a ha
      cases ha with
      | refl => simp
      | up _ hne _ => exact absurd rfl hne
    | @step q x l hw hs ih =>
      intro a ha
      cases ha with
      | refl => simp
      | up hx hne ha =>
        have hxo : x ∈ rpoList := (R.mem x).mpr ⟨_, hw.step hs⟩
        have hqo : q ∈ rpoList := (R.mem q).mpr ⟨_, hw⟩
        obtain ⟨m, hm, U⟩ := F.fix x hxo hne
        rw [hx] at hm
        simp at hm; subst hm
        have := U.anc q ((C.predSucc x hxo q hqo).mpr hs) (F.all q hqo)
        exact List.mem_cons_of_mem _ (ih a (ha.trans this))
  refine ⟨_, rfl, ⟨by simp [hDlen], by rw [hgetD, if_pos rfl], ?_, ?_⟩, ?_, ?_⟩
  · intro x hx hr
    have hne : x ≠ entry := by rintro rfl; exact hr (.refl _ _)
    rw [hgetD, if_neg hne]
    have hxl : x < D.length := by omega
    rw [List.getElem?_eq_getElem hxl]
    cases e : D[x] with
    | none => rfl
    | some p =>
      exact absurd ((R.mem x).mp (F.inv.mem x p (by rw [List.getElem?_eq_getElem hxl, e]))) hr
  · intro x hr hne
    have hxo := (R.mem x).mpr hr
    obtain ⟨p, hp⟩ := F.all x hxo
    refine ⟨p, by rw [hgetD, if_neg hne]; exact hp, ?_, ?_, F.inv.dom x p hp⟩
    · rintro rfl; have := F.inv.rank p p hp hne; omega
    · intro l hl; exact hancdom x l hl p (.up hp hne .refl)
  · intro x p h
    rw [hgetD] at h
    split at h
    · simp at h
    · next hne =>
      refine ⟨F.inv.rank x p h hne, ?_⟩
      obtain ⟨w, hw⟩ := F.inv.up x p h
      exact F.inv.mem p w hw
  · exact nodup_length_le R.nodup R.lt

theorem dominates_spec {idom : List (Option Nat)} (T : IsDomTree succs entry n idom) (rk : Nat → Nat)
    (hrk : ∀ x p : Nat, idom[x]? = some (some p) → rk p < rk x) (fuel a b : Nat)
    (hb : Reaches succs entry b) (hbn : ∀ x, Reaches succs entry x → x < n) (hf : rk b + 1 < fuel) :
    ∃ r, dominatesFuel idom fuel (some a) (some b) = some r ∧ (r = true ↔ Dom succs entry a b) := by
  induction fuel generalizing b with
  | zero => omega
  | succ fuel ih =>
    unfold dominatesFuel
    by_cases e : a = b
    · subst e; exact ⟨true, by simp, by simp [Dom.refl]⟩
    · rw [if_neg (by simpa using e)]
      simp only
      by_cases hbe : b = entry
      · subst hbe
        rw [T.root]
        simp only
        obtain ⟨f, rfl⟩ : ∃ f, fuel = f + 1 := ⟨fuel - 1, by omega⟩
        unfold dominatesFuel
        refine ⟨false, by simp, ?_⟩
        constructor
        · intro h; simp at h
        · intro h; exact absurd h.of_entry e
      · obtain ⟨p, hp, hne, hd, hall⟩ := T.strict b hb hbe
        rw [hp]
        simp only
        have hpr : Reaches succs entry p := by
          obtain ⟨l, hl⟩ := hb
          exact hl.reach_mem p (hd l hl)
        obtain ⟨r, h1, h2⟩ := ih p hpr (by have := hrk b p hp; omega)
        refine ⟨r, h1, h2.trans ⟨fun h => h.trans hd, fun h => hall a h e⟩⟩

end Domtree
end Regalloc
