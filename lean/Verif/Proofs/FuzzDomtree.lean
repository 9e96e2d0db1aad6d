import Verif.Model.FuzzDomtree
import Verif.Proofs.FuzzGraph
import Verif.Props.Domtree
import Verif.Props.Postorder

/-
Helper lemmas for C53: the fuzz target for dominator trees.
-/
namespace Regalloc.FuzzDom

open FuzzGen (G Sat)

/-- Successors of a block, as a function. -/
def succ (c : Cfg) (b : Nat) : List Nat := c.succs.getD b []

/-- `bs` continues a path at `a`. -/
def Follows (f : Nat → List Nat) : Nat → List Nat → Prop
  | _, [] => True
  | a, b :: bs => b ∈ f a ∧ Follows f b bs

theorem blockSuccs_sat {n : Nat} (hn : 0 < n) : ∀ k, Sat (blockSuccs n k) (fun l => ∀ b ∈ l, b < n)
  | 0 => Sat.pure (by intro b hb; cases hb)
  | k + 1 => by
    refine Sat.bind (Sat.intIn (Nat.zero_le _)) fun b hb => ?_
    refine Sat.bind (blockSuccs_sat hn k) fun r hr => ?_
    refine Sat.pure ?_
    intro x hx
    rcases List.mem_cons.mp hx with rfl | hx
    · omega
    · exact hr x hx

theorem allSuccs_sat {n : Nat} (hn : 0 < n) : ∀ m, Sat (allSuccs n m) (fun l => l.length = m ∧ ∀ x ∈ l, ∀ b ∈ x, b < n)
  | 0 => Sat.pure ⟨rfl, by intro x hx; cases hx⟩
  | m + 1 => by
    refine Sat.bind (Sat.intIn (Nat.zero_le _)) fun k _ => ?_
    refine Sat.bind (blockSuccs_sat hn k) fun b hb => ?_
    refine Sat.bind (allSuccs_sat hn m) fun r hr => ?_
    refine Sat.pure ⟨by rw [List.length_cons, hr.1], ?_⟩
    intro x hx
    rcases List.mem_cons.mp hx with rfl | hx
    · exact hb
    · exact hr.2 x hx

theorem mem_edges {succs : List (List Nat)} {p x : Nat} : (p, x) ∈ edges succs ↔ x ∈ succs.getD p [] := by
  unfold edges
  rw [List.mem_flatMap]
  constructor
  · rintro ⟨⟨l, k⟩, h, hm⟩
    obtain ⟨s, hs, he⟩ := List.mem_map.mp hm
    cases he
    have := (List.mem_zipIdx_iff_getElem?).mp h
    rw [List.getD_eq_getElem?_getD, this]
    exact hs
  · intro h
    rw [List.getD_eq_getElem?_getD] at h
    cases hg : succs[p]? with
    | none => rw [hg] at h; cases h
    | some l =>
      rw [hg] at h
      exact ⟨(l, p), List.mem_zipIdx_iff_getElem?.mpr hg, List.mem_map.mpr ⟨x, h, rfl⟩⟩

theorem makePreds_spec : ∀ (es : List (Nat × Nat)) (ps : List (List Nat)), (∀ e ∈ es, e.2 < ps.length) →
    ∃ ps', makePreds es ps = some ps' ∧ ∀ p x, p ∈ ps'.getD x [] ↔ p ∈ ps.getD x [] ∨ (p, x) ∈ es
  | [], ps, _ => ⟨ps, rfl, fun p x => by simp⟩
  | e :: es, ps, h => by
    have h0 : e.2 < ps.length := h e List.mem_cons_self
    obtain ⟨ps', h1, h2⟩ := makePreds_spec es (ps.set e.2 (ps[e.2] ++ [e.1])) (by
      intro e' he'
      rw [List.length_set]
      exact h e' (List.mem_cons_of_mem _ he'))
    refine ⟨ps', ?_, ?_⟩
    · show (match ps[e.2]? with | none => none | some l => makePreds es (ps.set e.2 (l ++ [e.1]))) = _
      rw [List.getElem?_eq_getElem h0]
      exact h1
    · intro p x
      rw [h2]
      simp only [List.getD_eq_getElem?_getD, List.getElem?_set, List.mem_cons]
      obtain ⟨e1, e2⟩ := e
      dsimp only at h0 ⊢
      by_cases hx : e2 = x
      · subst hx
        rw [if_pos rfl, if_pos h0, List.getElem?_eq_getElem h0]
        simp only [Option.getD_some, List.mem_append, List.mem_singleton, Prod.mk.injEq, and_true]
        grind
      · rw [if_neg hx]
        simp only [Prod.mk.injEq]
        grind

/-- What the generator promises about graphs. -/
structure CfgOk (c : Cfg) : Prop where
  pos : 0 < c.n
  len : c.succs.length = c.n
  lt : ∀ a, ∀ b ∈ succ c a, b < c.n
  preds : ∀ p x, p ∈ c.preds.getD x [] ↔ x ∈ succ c p

theorem genCfg_sat : Sat genCfg CfgOk := by
  refine Sat.bind (Sat.intIn (by decide)) fun n hn => ?_
  refine Sat.bind (allSuccs_sat (by omega) n) fun succs hs => ?_
  have hlt : ∀ a, ∀ b ∈ succs.getD a [], b < n := by
    intro a b hb
    rw [List.getD_eq_getElem?_getD] at hb
    cases hg : succs[a]? with
    | none => rw [hg] at hb; cases hb
    | some l => rw [hg] at hb; exact hs.2 l (List.mem_of_getElem? hg) b hb
  obtain ⟨ps, h1, h2⟩ := makePreds_spec (edges succs) (List.replicate n []) (by
    rintro ⟨p, x⟩ he
    rw [List.length_replicate]
    exact hlt p x (mem_edges.mp he))
  rw [h1]
  refine Sat.pure ⟨by show 0 < n; omega, hs.1, hlt, ?_⟩
  intro p x
  show p ∈ ps.getD x [] ↔ _
  rw [h2, mem_edges]
  constructor
  · rintro (h | h)
    · rw [List.getD_eq_getElem?_getD, List.getElem?_replicate] at h
      split at h <;> cases h
    · exact h
  · exact .inr

theorem follow_sat {c : Cfg} (hc : CfgOk c) : ∀ k b, b < c.n → Sat (follow c.succs k b) (Follows (succ c) b)
  | 0, _, _ => Sat.pure trivial
  | k + 1, b, hb => by
    unfold follow
    rw [List.getElem?_eq_getElem (by rw [hc.len]; exact hb)]
    have hs : succ c b = c.succs[b]'(by rw [hc.len]; exact hb) := by
      unfold succ
      rw [List.getD_eq_getElem?_getD, List.getElem?_eq_getElem (by rw [hc.len]; exact hb)]
      rfl
    generalize c.succs[b]'(by rw [hc.len]; exact hb) = l at hs
    cases l with
    | nil => exact Sat.pure trivial
    | cons s ss =>
      refine Sat.bind (Sat.choose _) fun x hx => ?_
      rw [← hs] at hx
      refine Sat.bind (follow_sat hc k x (hc.lt b x hx)) fun r hr => ?_
      exact Sat.pure ⟨hx, hr⟩

theorem genCase_sat : Sat genCase (fun t => CfgOk t.cfg ∧ ∃ r, t.path = 0 :: r ∧ Follows (succ t.cfg) 0 r) := by
  refine Sat.bind genCfg_sat fun c hc => ?_
  have hp : Sat (genPath c) (fun p => ∃ r, p = 0 :: r ∧ Follows (succ c) 0 r) := by
    refine Sat.bind (Sat.intIn (Nat.zero_le _)) fun k _ => ?_
    refine Sat.bind (follow_sat hc k 0 hc.pos) fun r hr => ?_
    exact Sat.pure ⟨r, rfl, hr⟩
  exact Sat.bind hp fun p hp => Sat.pure ⟨hc, hp⟩

/-- The climb from a block finds just the blocks for which `dominates` says so. -/
theorem climb_spec {idom : List (Option Nat)} {vis : List Nat} (hv : ∀ v ∈ vis, v < idom.length)
    (hc : ∀ v ∈ vis, ∀ q, idom[v]? = some (some q) → q ∈ vis) :
    ∀ (fuel : Nat) (p : Option Nat) (D : List Nat), (∀ q, p = some q → q ∈ vis) →
      (∃ r, Domtree.dominatesFuel idom fuel (some idom.length) p = some r) →
      ∃ D', climb idom vis fuel p D = .ok D' ∧ ∀ a, ∃ r, Domtree.dominatesFuel idom fuel (some a) p = some r ∧ (a ∈ D' ↔ a ∈ D ∨ r = true)
  | 0, _, _, _, ⟨_, h⟩ => by cases h
  | fuel + 1, none, D, _, _ => ⟨D, rfl, fun a => ⟨false, rfl, by simp⟩⟩
  | fuel + 1, some p, D, hp, ⟨r, h⟩ => by
    have hpv := hp p rfl
    have hlt := hv p hpv
    unfold Domtree.dominatesFuel at h
    have hne : ¬ (some idom.length = some p) := by
      intro e
      injection e with e
      omega
    rw [if_neg hne] at h
    dsimp only at h
    have hg := List.getElem?_eq_getElem hlt
    rw [hg] at h
    dsimp only at h
    obtain ⟨D', h1, h2⟩ := climb_spec hv hc fuel (idom[p]) (p :: D) (by
      intro q hq
      exact hc p hpv q (by rw [hg, hq])) ⟨r, h⟩
    refine ⟨D', ?_, ?_⟩
    · unfold climb
      rw [if_pos hpv, hg]
      exact h1
    · intro a
      obtain ⟨r', h3, h4⟩ := h2 a
      by_cases e : a = p
      · subst e
        refine ⟨true, ?_, ?_⟩
        · unfold Domtree.dominatesFuel
          rw [if_pos rfl]
        · rw [h4]
          simp
      · refine ⟨r', ?_, ?_⟩
        · unfold Domtree.dominatesFuel
          rw [if_neg (by intro e'; injection e' with e'; exact e e')]
          dsimp only
          rw [hg]
          exact h3
        · rw [h4, List.mem_cons]
          simp [e]

/-- What `calculate` promises (C09), for the loop over the path. -/
structure Tree (f : Nat → List Nat) (idom : List (Option Nat)) : Prop where
  entry : idom[0]? = some none
  ends : ∀ b, Reaches f 0 b → ∀ a, ∃ r, Domtree.dominates? idom (some a) (some b) = some r
  lt : ∀ b, Reaches f 0 b → b < idom.length
  up : ∀ b, Reaches f 0 b → b ≠ 0 → ∃ p, idom[b]? = some (some p) ∧ p ≠ b ∧ Dom f 0 p b

/-- One round: the climb succeeds and the answers of `dominates` agree. -/
theorem round {f : Nat → List Nat} {idom : List (Option Nat)} (h : Tree f idom) {vis : List Nat} (hv : ∀ v ∈ vis, v < idom.length)
    (hc : ∀ v ∈ vis, ∀ q, idom[v]? = some (some q) → q ∈ vis) {b : Nat} (hb : Reaches f 0 b)
    (hu : ∀ q, idom[b]? = some (some q) → q ∈ vis) (bs : List Nat) :
    violations idom vis (b :: bs) = violations idom (b :: vis) bs := by
  have hlt := h.lt b hb
  have hg := List.getElem?_eq_getElem hlt
  obtain ⟨r, hr⟩ := h.ends b hb idom.length
  have hdom : ∀ a, a ≠ b → Domtree.dominates? idom (some a) (some b) = Domtree.dominatesFuel idom (idom.length + 1) (some a) idom[b] := by
    intro a hab
    unfold Domtree.dominates?
    rw [show idom.length + 2 = (idom.length + 1) + 1 from rfl]
    conv => lhs; unfold Domtree.dominatesFuel
    rw [if_neg (by intro e; injection e with e; exact hab e)]
    dsimp only
    rw [hg]
  rw [hdom _ (by omega)] at hr
  obtain ⟨D, h1, h2⟩ := climb_spec hv hc (idom.length + 1) idom[b] [b] (fun q hq => hu q (by rw [hg, hq])) ⟨r, hr⟩
  have hall : (List.range idom.length).all (agrees idom D b) = true := by
    rw [List.all_eq_true]
    intro a _
    unfold agrees
    rw [decide_eq_true_iff]
    obtain ⟨r', h3, h4⟩ := h2 a
    by_cases e : a = b
    · subst e
      have : a ∈ D := h4.mpr (.inl List.mem_cons_self)
      rw [decide_eq_true this]
      unfold Domtree.dominates? Domtree.dominatesFuel
      rw [if_pos rfl]
    · rw [hdom a e, h3]
      congr 1
      rw [List.mem_singleton] at h4
      cases r' with
      | true => rw [decide_eq_true (h4.mpr (.inr rfl))]
      | false =>
        rw [decide_eq_false]
        intro hm
        rcases h4.mp hm with h | h
        · exact e h
        · cases h
  conv => lhs; unfold violations
  rw [hg]
  dsimp only
  rw [h1]
  dsimp only
  rw [if_pos hall]

theorem violations_ok {f : Nat → List Nat} {idom : List (Option Nat)} (h : Tree f idom) :
    ∀ (bs vis : List Nat) (a : Nat) (l : List Nat), Walk f 0 a l → (∀ v ∈ l, v ∈ vis) → (∀ v ∈ vis, v < idom.length) →
      (∀ v ∈ vis, ∀ q, idom[v]? = some (some q) → q ∈ vis) → Follows f a bs → violations idom vis bs = .ok ()
  | [], _, _, _, _, _, _, _, _ => rfl
  | b :: bs, vis, a, l, hw, hl, hv, hc, hf => by
    have hwb : Walk f 0 b (b :: l) := hw.step hf.1
    have hb : Reaches f 0 b := ⟨_, hwb⟩
    have hu : ∀ q, idom[b]? = some (some q) → q ∈ vis := by
      intro q hq
      by_cases e : b = 0
      · rw [e, h.entry] at hq
        cases hq
      · obtain ⟨p, hp, hne, hd⟩ := h.up b hb e
        rw [hp] at hq
        cases hq
        rcases List.mem_cons.mp (hd _ hwb) with e' | hm
        · exact absurd e' hne
        · exact hl _ hm
    rw [round h hv hc hb hu bs]
    refine violations_ok h bs (b :: vis) b (b :: l) hwb ?_ ?_ ?_ hf.2
    · intro v hm
      rcases List.mem_cons.mp hm with rfl | hm
      · exact List.mem_cons_self
      · exact List.mem_cons_of_mem _ (hl v hm)
    · intro v hm
      rcases List.mem_cons.mp hm with rfl | hm
      · exact h.lt _ hb
      · exact hv v hm
    · intro v hm q hq
      rcases List.mem_cons.mp hm with rfl | hm
      · exact List.mem_cons_of_mem _ (hu q hq)
      · exact List.mem_cons_of_mem _ (hc v hm q hq)

theorem check_ok {t : Case} (hc : CfgOk t.cfg) {r : List Nat} (hp : t.path = 0 :: r) (hf : Follows (succ t.cfg) 0 r) : check t = .ok () := by
  have hpost : ∃ out, Postorder.calculate? t.cfg.n 0 (succ t.cfg) = some (.ok out) :=
    (C08_succeeds_iff _ _ _).mpr ⟨hc.pos, fun a _ b hb => hc.lt a b hb⟩
  obtain ⟨post, hpost⟩ := hpost
  have hpm : PredsMatch t.cfg.n 0 (succ t.cfg) (fun b => t.cfg.preds.getD b []) := by
    refine ⟨?_, fun x p _ _ => hc.preds p x⟩
    intro x _ p hp
    have := (hc.preds p x).mp hp
    unfold succ at this
    rw [List.getD_eq_getElem?_getD] at this
    rw [← hc.len]
    rcases Nat.lt_or_ge p t.cfg.succs.length with h | h
    · exact h
    · rw [List.getElem?_eq_none h] at this
      cases this
  obtain ⟨idom, h1, h2, h3, -, h5⟩ := C09_immediate_dominator _ _ _ _ _ hpost hpm
  obtain ⟨idom', h1', h6⟩ := C09_dominates _ _ _ _ _ hpost hpm
  rw [h1] at h1'
  cases h1'
  have hT : Tree (succ t.cfg) idom := by
    refine ⟨h3, ?_, ?_, ?_⟩
    · intro b hb a
      obtain ⟨r, hr, -⟩ := h6 a b hb
      exact ⟨r, hr⟩
    · rintro b ⟨l, hw⟩
      rw [h2]
      cases hw with
      | start => exact hc.pos
      | step _ hs => exact hc.lt _ _ hs
    · intro b hb hne
      obtain ⟨p, a1, a2, a3, -⟩ := h5 b hb hne
      exact ⟨p, a1, a2, a3⟩
  unfold check
  rw [show (fun b => t.cfg.succs.getD b []) = succ t.cfg from rfl, hpost]
  dsimp only
  rw [h1]
  dsimp only
  rw [hp]
  have hlt0 : 0 < idom.length := by rw [h2]; exact hc.pos
  have hv : ∀ v ∈ [0], v < idom.length := by
    intro v hv
    rw [List.mem_singleton] at hv
    omega
  have hcl : ∀ v ∈ [0], ∀ q, idom[v]? = some (some q) → q ∈ [0] := by
    intro v hv q hq
    rw [List.mem_singleton] at hv
    rw [hv, h3] at hq
    cases hq
  rw [round hT hv hcl (.refl _ _) (by intro q hq; rw [h3] at hq; cases hq)]
  refine violations_ok hT r [0, 0] 0 [0] .start (by simp) ?_ ?_ hf
  · intro v hv
    simp only [List.mem_cons, List.not_mem_nil, or_false, or_self] at hv
    omega
  · intro v hv q hq
    simp only [List.mem_cons, List.not_mem_nil, or_false, or_self] at hv
    rw [hv, h3] at hq
    cases hq

/-! ### What the assertions say -/

/-- All a climb collects has been visited. -/
theorem climb_mem {idom : List (Option Nat)} {vis : List Nat} : ∀ (fuel : Nat) (p : Option Nat) (D D' : List Nat), climb idom vis fuel p D = .ok D' →
    ∀ a ∈ D', a ∈ D ∨ a ∈ vis
  | 0, _, _, _, h => by cases h
  | fuel + 1, none, D, D', h => by
    cases h
    intro a ha
    exact .inl ha
  | fuel + 1, some p, D, D', h => by
    unfold climb at h
    split at h
    · rename_i hp
      split at h
      · cases h
      · intro a ha
        rcases climb_mem fuel _ _ _ h a ha with h1 | h1
        · rcases List.mem_cons.mp h1 with rfl | h1
          · exact .inr hp
          · exact .inl h1
        · exact .inr h1
    · cases h

/-- The blocks `dominates` reports for a block that passes have been visited, or are the block. -/
theorem violation_mem {idom : List (Option Nat)} {vis bs : List Nat} {a b : Nat} (ha : a < idom.length)
    (hv : violations idom vis (b :: bs) = .ok ()) (hd : Domtree.dominates? idom (some a) (some b) = some true) : a ∈ b :: vis := by
  unfold violations at hv
  split at hv
  · cases hv
  · split at hv
    · cases hv
    · rename_i D hD
      split at hv
      · rename_i hall
        rw [List.all_eq_true] at hall
        have := of_decide_eq_true (hall a (List.mem_range.mpr ha))
        rw [hd] at this
        have hm : a ∈ D := of_decide_eq_true (Option.some.inj this).symm
        rcases climb_mem _ _ _ _ hD a hm with h | h
        · rw [List.mem_singleton] at h
          rw [h]
          exact List.mem_cons_self
        · exact List.mem_cons_of_mem _ h
      · cases hv

theorem violations_append {idom : List (Option Nat)} : ∀ (r vis bs : List Nat), violations idom vis (r ++ bs) = .ok () →
    violations idom (r.reverse ++ vis) bs = .ok ()
  | [], _, _, h => h
  | b :: r, vis, bs, h => by
    have : violations idom (b :: vis) (r ++ bs) = .ok () := by
      rw [List.cons_append] at h
      unfold violations at h
      split at h
      · cases h
      · split at h
        · cases h
        · split at h
          · exact h
          · cases h
    have h2 := violations_append r (b :: vis) bs this
    rw [List.reverse_cons, List.append_assoc]
    exact h2

theorem Follows.append {f : Nat → List Nat} : ∀ {r : List Nat} {a b : Nat}, Follows f a r → b ∈ f ((a :: r).getLast (by simp)) → Follows f a (r ++ [b])
  | [], _, _, _, hb => ⟨hb, trivial⟩
  | c :: r, a, b, h, hb => ⟨h.1, Follows.append h.2 (by rw [List.getLast_cons (by simp)] at hb; exact hb)⟩

/-- A walk, latest first, is a path of the target. -/
theorem walk_follows {f : Nat → List Nat} {b : Nat} {l : List Nat} (h : Walk f 0 b l) :
    ∃ r, l.reverse = 0 :: r ∧ Follows f 0 r ∧ (0 :: r).getLast (by simp) = b := by
  induction h with
  | start => exact ⟨[], rfl, trivial, rfl⟩
  | step _ hs ih =>
    obtain ⟨r, h1, h2, h3⟩ := ih
    rw [← h3] at hs
    refine ⟨r ++ [_], by rw [List.reverse_cons, h1, List.cons_append], h2.append hs, ?_⟩
    rw [List.getLast_cons (by simp)]
    exact List.getLast_concat

theorem path_passes {f : Nat → List Nat} {idom : List (Option Nat)} (h : ∀ r, Follows f 0 r → violations idom [0] (0 :: r) = .ok ())
    {b : Nat} {l : List Nat} (hw : Walk f 0 b l) :
    ∃ vis, violations idom vis [b] = .ok () ∧ ∀ a ∈ b :: vis, a ∈ l := by
  obtain ⟨r, h1, h2, h3⟩ := walk_follows hw
  have hv := h r h2
  obtain ⟨t, ht⟩ : ∃ t, 0 :: r = t ++ [b] := ⟨(0 :: r).dropLast, by rw [← h3]; exact (List.dropLast_concat_getLast (by simp)).symm⟩
  rw [ht] at hv
  have := violations_append t [0] [b] hv
  refine ⟨_, this, ?_⟩
  intro a ha
  rw [← List.mem_reverse, h1]
  rcases List.mem_cons.mp ha with rfl | ha
  · rw [ht]; simp
  · rcases List.mem_append.mp ha with ha | ha
    · rw [ht]
      exact List.mem_append_left _ (List.mem_reverse.mp ha)
    · rw [List.mem_singleton] at ha
      rw [ha]
      exact List.mem_cons_self

end Regalloc.FuzzDom
