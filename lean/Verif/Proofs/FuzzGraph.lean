import Verif.Model.FuzzFunc
import Verif.Spec.Graph
import Verif.Props.Domtree
import Verif.Props.Postorder

/-
C51: reasoning about computations that make choices, and the control-flow graph of generated functions.
-/
namespace Regalloc.FuzzGen

/-- The computation does not panic, and its result satisfies `Q`, whatever is chosen. -/
def Sat {α : Type} (m : G α) (Q : α → Prop) : Prop :=
  ∀ s, match m s with
    | .ok (a, _) => Q a
    | .error e => e ≠ .panic

theorem Sat.pure {α : Type} {a : α} {Q : α → Prop} (h : Q a) : Sat (Pure.pure a : G α) Q := fun _ => h

theorem Sat.bind {α β : Type} {m : G α} {k : α → G β} {P : α → Prop} {Q : β → Prop} (h : Sat m P)
    (hk : ∀ a, P a → Sat (k a) Q) : Sat (m >>= k) Q := by
  intro s
  show match (G.andThen m k s) with | .ok (a, _) => Q a | .error e => e ≠ .panic
  unfold G.andThen
  have := h s
  split at this
  · next a s' e => rw [e]; exact hk a this s'
  · next e he => rw [he]; exact this

theorem Sat.mono {α : Type} {m : G α} {P Q : α → Prop} (h : Sat m P) (hi : ∀ a, P a → Q a) : Sat m Q := by
  intro s
  have := h s
  split at this
  · next a s' e => exact hi a this
  · next e he => exact this

theorem Sat.fail {α : Type} {Q : α → Prop} {e : Err} (h : e ≠ .panic) : Sat (G.fail e) Q := fun _ => h

theorem Sat.intIn {lo hi : Nat} (h : lo ≤ hi) : Sat (intIn lo hi) (fun x => lo ≤ x ∧ x ≤ hi) := by
  intro s
  unfold FuzzGen.intIn
  rw [if_neg (by omega)]
  dsimp only
  have := Nat.mod_lt (s.headD 0) (show hi - lo + 1 > 0 by omega)
  omega

theorem Sat.flip : Sat flip (fun _ => True) := fun _ => trivial

theorem Sat.andFlip (c : Bool) : Sat (andFlip c) (fun x => x = true → c = true) := by
  unfold FuzzGen.andFlip
  split
  · next h => exact Sat.flip.mono (fun _ _ _ => h)
  · exact Sat.pure (by simp)

theorem Sat.choose {α : Type} (l : List α) : Sat (choose l) (fun x => x ∈ l) := by
  unfold FuzzGen.choose
  split
  · exact Sat.fail (by decide)
  · next x xs =>
    refine (Sat.intIn (Nat.zero_le _)).bind fun i hi => ?_
    rw [List.getElem?_eq_getElem (show i < (x :: xs).length by simp only [List.length_cons]; omega)]
    exact Sat.pure (List.getElem_mem _)

theorem Sat.ite {α : Type} {c : Prop} [Decidable c] {m m' : G α} {Q : α → Prop} (h : c → Sat m Q) (h' : ¬ c → Sat m' Q) :
    Sat (if c then m else m') Q := by
  split
  · exact h ‹_›
  · exact h' ‹_›

/-! ### Edges -/

def succOf (es : List (Nat × Nat)) (a : Nat) : List Nat := (es.filter (fun e => decide (e.1 = a))).map Prod.snd
def predOf (es : List (Nat × Nat)) (b : Nat) : List Nat := (es.filter (fun e => decide (e.2 = b))).map Prod.fst

theorem mem_succOf {es : List (Nat × Nat)} {a b : Nat} : b ∈ succOf es a ↔ (a, b) ∈ es := by
  unfold succOf
  rw [List.mem_map]
  constructor
  · rintro ⟨e, he, rfl⟩
    rw [List.mem_filter] at he
    have := of_decide_eq_true he.2
    rw [← this]; exact he.1
  · intro h
    exact ⟨(a, b), List.mem_filter.mpr ⟨h, by simp⟩, rfl⟩

theorem mem_predOf {es : List (Nat × Nat)} {a b : Nat} : a ∈ predOf es b ↔ (a, b) ∈ es := by
  unfold predOf
  rw [List.mem_map]
  constructor
  · rintro ⟨e, he, rfl⟩
    rw [List.mem_filter] at he
    have := of_decide_eq_true he.2
    rw [← this]; exact he.1
  · intro h
    exact ⟨(a, b), List.mem_filter.mpr ⟨h, by simp⟩, rfl⟩

theorem succOf_snoc (es : List (Nat × Nat)) (a b x : Nat) :
    succOf (es ++ [(a, b)]) x = succOf es x ++ (if a = x then [b] else []) := by
  unfold succOf
  rw [List.filter_append, List.map_append]
  congr 1
  by_cases h : a = x <;> simp [h]

theorem predOf_snoc (es : List (Nat × Nat)) (a b x : Nat) :
    predOf (es ++ [(a, b)]) x = predOf es x ++ (if b = x then [a] else []) := by
  unfold predOf
  rw [List.filter_append, List.map_append]
  congr 1
  by_cases h : b = x <;> simp [h]

theorem succOf_nil {es : List (Nat × Nat)} {a : Nat} (h : ∀ e ∈ es, e.1 ≠ a) : succOf es a = [] := by
  rw [List.eq_nil_iff_forall_not_mem]
  intro b hb
  exact h _ (mem_succOf.mp hb) rfl

theorem predOf_nil {es : List (Nat × Nat)} {b : Nat} (h : ∀ e ∈ es, e.2 ≠ b) : predOf es b = [] := by
  rw [List.eq_nil_iff_forall_not_mem]
  intro a ha
  exact h _ (mem_predOf.mp ha) rfl

/-- The graph has `n` blocks and the edges `es`. -/
structure Rep (g : Graph) (n : Nat) (es : List (Nat × Nat)) : Prop where
  ls : g.succs.length = n
  lp : g.preds.length = n
  succs : ∀ a, g.succs.getD a [] = succOf es a
  preds : ∀ b, g.preds.getD b [] = predOf es b
  lt : ∀ e ∈ es, e.1 < n ∧ e.2 < n

theorem Rep.start (n : Nat) : Rep (Graph.blocks n) n [] := by
  have hz : ∀ a, (List.replicate n ([] : List Nat)).getD a [] = [] := by
    intro a
    rw [List.getD_eq_getElem?_getD, List.getElem?_replicate]
    split <;> rfl
  refine ⟨by simp [Graph.blocks], by simp [Graph.blocks], hz, hz, ?_⟩
  intro e he; cases he

theorem getD_set {α : Type} (l : List α) (a : Nat) (y d : α) (x : Nat) (h : a < l.length) :
    (l.set a y).getD x d = if a = x then y else l.getD x d := by
  rw [List.getD_eq_getElem?_getD, List.getElem?_set, List.getD_eq_getElem?_getD]
  by_cases e : a = x
  · subst e; rw [if_pos rfl, if_pos h, if_pos rfl]; rfl
  · rw [if_neg e, if_neg e]

theorem Rep.addEdge {g : Graph} {n : Nat} {es : List (Nat × Nat)} (h : Rep g n es) {a b : Nat} (ha : a < n) (hb : b < n) :
    Sat (addEdge g a b) (fun g' => Rep g' n (es ++ [(a, b)])) := by
  unfold FuzzGen.addEdge
  have h1 : a < g.succs.length := by rw [h.ls]; exact ha
  have h2 : b < g.preds.length := by rw [h.lp]; exact hb
  rw [List.getElem?_eq_getElem h1, List.getElem?_eq_getElem h2]
  refine Sat.pure ⟨by simp [h.ls], by simp [h.lp], ?_, ?_, ?_⟩
  · intro x
    rw [succOf_snoc, ← h.succs x]
    dsimp only
    rw [getD_set _ _ _ _ _ h1]
    by_cases e : a = x
    · subst e; rw [if_pos rfl, if_pos rfl, List.getD_eq_getElem?_getD, List.getElem?_eq_getElem h1]; rfl
    · rw [if_neg e, if_neg e, List.append_nil]
  · intro x
    rw [predOf_snoc, ← h.preds x]
    dsimp only
    rw [getD_set _ _ _ _ _ h2]
    by_cases e : b = x
    · subst e; rw [if_pos rfl, if_pos rfl, List.getD_eq_getElem?_getD, List.getElem?_eq_getElem h2]; rfl
    · rw [if_neg e, if_neg e, List.append_nil]
  · intro e he
    rcases List.mem_append.mp he with h' | h'
    · exact h.lt e h'
    · rw [List.mem_singleton] at h'; subst h'; exact ⟨ha, hb⟩

/-! ### The spine -/

structure SpineInv (n a : Nat) (s : Spine) (es : List (Nat × Nat)) : Prop where
  rep : Rep s.g n es
  le : a ≤ n
  src : ∀ e ∈ es, e.1 < a
  tgt : ∀ e ∈ es, 0 < e.2 ∧ e.2 ≤ a
  ins : ∀ x ∈ s.ins, x < a
  zero : 0 < a → 0 ∈ s.ins
  outs : ∀ o ∈ s.outs, o < a ∧ ∀ e ∈ es, e.1 ≠ o
  nodup : s.outs.Nodup
  fork : ∀ x, 1 < (succOf es x).length → ∀ y ∈ succOf es x, y < a ∧ y ∉ s.ins ∧ (predOf es y).length = 1
  nd : ∀ x, (succOf es x).Nodup
  order : ∀ y, 0 < y → y ≤ a → y < n → ∃ x, x < y ∧ (x, y) ∈ es

/-- One edge from the block at hand to the next. -/
theorem SpineInv.step {n a : Nat} {s : Spine} {es : List (Nat × Nat)} (h : SpineInv n a s es) (ha : a + 1 < n) {g : Graph}
    (hg : Rep g n (es ++ [(a, a + 1)])) : SpineInv n (a + 1) ⟨g, s.outs, s.ins ++ [a]⟩ (es ++ [(a, a + 1)]) := by
  have hs0 : succOf es a = [] := succOf_nil (fun e he => by have := h.src e he; omega)
  refine ⟨hg, by omega, ?_, ?_, ?_, ?_, ?_, h.nodup, ?_, ?_, ?_⟩
  · intro e he
    rcases List.mem_append.mp he with h' | h'
    · have := h.src e h'; omega
    · rw [List.mem_singleton] at h'; subst h'; dsimp only; omega
  · intro e he
    rcases List.mem_append.mp he with h' | h'
    · have := h.tgt e h'; omega
    · rw [List.mem_singleton] at h'; subst h'; dsimp only; omega
  · intro x hx
    rcases List.mem_append.mp hx with h' | h'
    · have := h.ins x h'; omega
    · rw [List.mem_singleton] at h'; omega
  · intro _
    by_cases h0 : 0 < a
    · exact List.mem_append_left _ (h.zero h0)
    · exact List.mem_append_right _ (by simp; omega)
  · intro o ho
    have := h.outs o ho
    refine ⟨by omega, ?_⟩
    intro e he
    rcases List.mem_append.mp he with h' | h'
    · exact this.2 e h'
    · rw [List.mem_singleton] at h'; subst h'; dsimp only; omega
  · intro x hx y hy
    rw [succOf_snoc] at hx hy
    by_cases e : a = x
    · subst e
      rw [hs0, if_pos rfl] at hx
      simp at hx
    · rw [if_neg e, List.append_nil] at hx hy
      obtain ⟨h1, h2, h3⟩ := h.fork x hx y hy
      refine ⟨by omega, ?_, ?_⟩
      · intro hm
        rcases List.mem_append.mp hm with h' | h'
        · exact h2 h'
        · rw [List.mem_singleton] at h'; omega
      · rw [predOf_snoc, if_neg (by omega), List.append_nil]; exact h3
  · intro x
    rw [succOf_snoc]
    by_cases e : a = x
    · subst e; rw [hs0, if_pos rfl]; simp
    · rw [if_neg e, List.append_nil]; exact h.nd x
  · intro y h0 hle hlt
    by_cases e : y = a + 1
    · subst e; exact ⟨a, by omega, by simp⟩
    · obtain ⟨x, hx, he⟩ := h.order y h0 (by omega) hlt
      exact ⟨x, hx, List.mem_append_left _ he⟩

/-- A fork. -/
theorem SpineInv.split {n a : Nat} {s : Spine} {es : List (Nat × Nat)} (h : SpineInv n a s es) (ha : a + 3 < n) {g : Graph}
    (hg : Rep g n (es ++ [(a, a + 1)] ++ [(a, a + 2)] ++ [(a + 2, a + 3)])) :
    SpineInv n (a + 3) ⟨g, s.outs ++ [a + 1], s.ins ++ [a]⟩ (es ++ [(a, a + 1)] ++ [(a, a + 2)] ++ [(a + 2, a + 3)]) := by
  have hs0 : ∀ x, a ≤ x → succOf es x = [] := fun x hx => succOf_nil (fun e he => by have := h.src e he; omega)
  have hp0 : ∀ x, a < x → predOf es x = [] := fun x hx => predOf_nil (fun e he => by have := h.tgt e he; omega)
  have hmem : ∀ e, e ∈ es ++ [(a, a + 1)] ++ [(a, a + 2)] ++ [(a + 2, a + 3)] →
      e ∈ es ∨ e = (a, a + 1) ∨ e = (a, a + 2) ∨ e = (a + 2, a + 3) := by
    intro e he
    simp only [List.append_assoc, List.cons_append, List.nil_append, List.mem_append, List.mem_cons, List.not_mem_nil, or_false] at he
    exact he
  refine ⟨hg, by omega, ?_, ?_, ?_, ?_, ?_, ?_, ?_, ?_, ?_⟩
  · intro e he
    rcases hmem e he with h' | rfl | rfl | rfl
    · have := h.src e h'; omega
    all_goals (dsimp only; omega)
  · intro e he
    rcases hmem e he with h' | rfl | rfl | rfl
    · have := h.tgt e h'; omega
    all_goals (dsimp only; omega)
  · intro x hx
    rcases List.mem_append.mp hx with h' | h'
    · have := h.ins x h'; omega
    · rw [List.mem_singleton] at h'; omega
  · intro _
    by_cases h0 : 0 < a
    · exact List.mem_append_left _ (h.zero h0)
    · exact List.mem_append_right _ (by simp; omega)
  · intro o ho
    rcases List.mem_append.mp ho with ho | ho
    · have := h.outs o ho
      refine ⟨by omega, ?_⟩
      intro e he
      rcases hmem e he with h' | rfl | rfl | rfl
      · exact this.2 e h'
      all_goals (dsimp only; omega)
    · rw [List.mem_singleton] at ho
      subst ho
      refine ⟨by omega, ?_⟩
      intro e he
      rcases hmem e he with h' | rfl | rfl | rfl
      · have := h.src e h'; omega
      all_goals (dsimp only; omega)
  · dsimp only
    rw [List.nodup_append]
    refine ⟨h.nodup, by simp, ?_⟩
    intro x hx y hy
    rw [List.mem_singleton] at hy
    have := (h.outs x hx).1
    omega
  · intro x hx y hy
    rw [succOf_snoc, succOf_snoc, succOf_snoc] at hx hy
    by_cases e : a = x
    · subst e
      rw [hs0 a (Nat.le_refl _), if_pos rfl, if_pos rfl, if_neg (by omega)] at hy
      simp only [List.nil_append, List.append_nil, List.cons_append, List.mem_cons, List.not_mem_nil, or_false] at hy
      refine ⟨by omega, ?_, ?_⟩
      · intro hm
        rcases List.mem_append.mp hm with h' | h'
        · have := h.ins y h'; omega
        · rw [List.mem_singleton] at h'; omega
      · rw [predOf_snoc, predOf_snoc, predOf_snoc, hp0 y (by omega)]
        rcases hy with rfl | rfl
        · rw [if_pos rfl, if_neg (by omega), if_neg (by omega)]; rfl
        · rw [if_neg (by omega), if_pos rfl, if_neg (by omega)]; rfl
    · rw [if_neg e, if_neg e] at hx hy
      by_cases e2 : a + 2 = x
      · subst e2
        rw [hs0 _ (by omega), if_pos rfl] at hx
        simp at hx
      · rw [if_neg e2] at hx hy
        simp only [List.append_nil] at hx hy
        obtain ⟨h1, h2, h3⟩ := h.fork x hx y hy
        refine ⟨by omega, ?_, ?_⟩
        · intro hm
          rcases List.mem_append.mp hm with h' | h'
          · exact h2 h'
          · rw [List.mem_singleton] at h'; omega
        · rw [predOf_snoc, predOf_snoc, predOf_snoc, if_neg (by omega), if_neg (by omega), if_neg (by omega)]
          simpa using h3
  · intro x
    rw [succOf_snoc, succOf_snoc, succOf_snoc]
    by_cases e : a = x
    · subst e; rw [hs0 a (Nat.le_refl _), if_pos rfl, if_pos rfl, if_neg (by omega)]; simp
    · rw [if_neg e, if_neg e]
      by_cases e2 : a + 2 = x
      · subst e2; rw [hs0 _ (by omega), if_pos rfl]; simp
      · rw [if_neg e2]; simpa using h.nd x
  · intro y h0 hle hlt
    have hin : ∀ e, e ∈ es ∨ e = (a, a + 1) ∨ e = (a, a + 2) ∨ e = (a + 2, a + 3) →
        e ∈ es ++ [(a, a + 1)] ++ [(a, a + 2)] ++ [(a + 2, a + 3)] := by
      intro e he
      simp only [List.append_assoc, List.cons_append, List.nil_append, List.mem_append, List.mem_cons, List.not_mem_nil, or_false]
      exact he
    by_cases e1 : y = a + 1
    · subst e1; exact ⟨a, by omega, hin _ (by simp)⟩
    by_cases e2 : y = a + 2
    · subst e2; exact ⟨a, by omega, hin _ (by simp)⟩
    by_cases e3 : y = a + 3
    · subst e3; exact ⟨a + 2, by omega, hin _ (by simp)⟩
    obtain ⟨x, hx, he⟩ := h.order y h0 (by omega) hlt
    exact ⟨x, hx, hin _ (Or.inl he)⟩

/-- The last block of the spine. -/
theorem SpineInv.stop {n a : Nat} {s : Spine} {es : List (Nat × Nat)} (h : SpineInv n a s es) (ha : a + 1 = n) :
    SpineInv n (a + 1) ⟨s.g, s.outs, s.ins ++ [a]⟩ es := by
  refine ⟨h.rep, by omega, ?_, ?_, ?_, ?_, ?_, h.nodup, ?_, h.nd, ?_⟩
  · intro e he; have := h.src e he; omega
  · intro e he; have := h.tgt e he; omega
  · intro x hx
    rcases List.mem_append.mp hx with h' | h'
    · have := h.ins x h'; omega
    · rw [List.mem_singleton] at h'; omega
  · intro _
    by_cases h0 : 0 < a
    · exact List.mem_append_left _ (h.zero h0)
    · exact List.mem_append_right _ (by simp; omega)
  · intro o ho
    have := h.outs o ho
    exact ⟨by omega, this.2⟩
  · intro x hx y hy
    obtain ⟨h1, h2, h3⟩ := h.fork x hx y hy
    refine ⟨by omega, ?_, h3⟩
    intro hm
    rcases List.mem_append.mp hm with h' | h'
    · exact h2 h'
    · rw [List.mem_singleton] at h'; omega
  · intro y h0 hle hlt
    exact h.order y h0 (by omega) hlt

theorem spine_sat (n : Nat) : ∀ (fuel a : Nat) (s : Spine) (es : List (Nat × Nat)), n ≤ a + fuel → SpineInv n a s es →
    Sat (spine n fuel a s) (fun s' => ∃ es', SpineInv n n s' es') := by
  intro fuel
  induction fuel with
  | zero =>
    intro a s es hf h
    have : a = n := by have := h.le; omega
    subst this
    exact Sat.pure ⟨es, h⟩
  | succ k ih =>
    intro a s es hf h
    unfold spine
    refine Sat.ite (fun hlt => ?_) (fun hge => ?_)
    · refine (Sat.andFlip _).bind fun fork hfork => ?_
      refine Sat.ite (fun hy => ?_) (fun hn => ?_)
      · have hlt3 := of_decide_eq_true (hfork hy)
        have h3 : a + 3 < n := by omega
        refine (h.rep.addEdge (a := a) (b := a + 1) (by omega) (by omega)).bind fun g1 r1 => ?_
        refine (r1.addEdge (a := a) (b := a + 2) (by omega) (by omega)).bind fun g2 r2 => ?_
        refine (r2.addEdge (a := a + 2) (b := a + 3) (by omega) (by omega)).bind fun g3 r3 => ?_
        exact ih _ _ _ (by omega) (h.split h3 r3)
      · refine Sat.ite (fun h1 => ?_) (fun h1 => ?_)
        · refine (h.rep.addEdge (a := a) (b := a + 1) (by omega) (by omega)).bind fun g1 r1 => ?_
          exact ih _ _ _ (by omega) (h.step (by omega) r1)
        · exact ih _ _ _ (by omega) (h.stop (by omega))
    · have : a = n := by have := h.le; omega
      subst this
      exact Sat.pure ⟨es, h⟩

/-! ### Back edges and exits -/

structure GraphOk (g : Graph) (n : Nat) (es : List (Nat × Nat)) : Prop where
  rep : Rep g n es
  fork : ∀ x, 1 < (succOf es x).length → ∀ y ∈ succOf es x, y ≠ 0 ∧ (predOf es y).length = 1
  nd : ∀ x, (succOf es x).Nodup
  order : ∀ y, 0 < y → y < n → ∃ x, x < y ∧ (x, y) ∈ es

theorem connect_sat {n : Nat} {ins : List Nat} (hins : ∀ x ∈ ins, x < n) : ∀ (outs : List Nat) (g : Graph) (es : List (Nat × Nat)),
    GraphOk g n es → (∀ x, 1 < (succOf es x).length → ∀ y ∈ succOf es x, y ∉ ins) → outs.Nodup →
    (∀ o ∈ outs, o < n ∧ ∀ e ∈ es, e.1 ≠ o) → Sat (connect ins outs g) (fun g' => ∃ es', GraphOk g' n es') := by
  intro outs
  induction outs with
  | nil => intro g es h _ _ _; exact Sat.pure ⟨es, h⟩
  | cons p ps ih =>
    intro g es h hni hnd ho
    unfold connect
    refine (Sat.choose ins).bind fun t ht => ?_
    have hp := ho p List.mem_cons_self
    refine (h.rep.addEdge (a := p) (b := t) hp.1 (hins t ht)).bind fun g' r => ?_
    rw [List.nodup_cons] at hnd
    have hs0 : succOf es p = [] := succOf_nil hp.2
    have hsucc : ∀ x, 1 < (succOf (es ++ [(p, t)]) x).length → succOf (es ++ [(p, t)]) x = succOf es x := by
      intro x hx
      rw [succOf_snoc] at hx ⊢
      by_cases e : p = x
      · subst e; rw [hs0, if_pos rfl] at hx; simp at hx
      · rw [if_neg e, List.append_nil]
    refine ih g' (es ++ [(p, t)]) ⟨r, ?_, ?_, ?_⟩ ?_ hnd.2 ?_
    · intro x hx y hy
      have e := hsucc x hx
      rw [e] at hx hy
      obtain ⟨h1, h2⟩ := h.fork x hx y hy
      refine ⟨h1, ?_⟩
      rw [predOf_snoc, if_neg (fun ee : t = y => hni x hx y hy (ee ▸ ht)), List.append_nil]
      exact h2
    · intro x
      rw [succOf_snoc]
      by_cases e : p = x
      · subst e; rw [hs0, if_pos rfl]; simp
      · rw [if_neg e, List.append_nil]; exact h.nd x
    · intro y h0 hlt
      obtain ⟨x, hx, he⟩ := h.order y h0 hlt
      exact ⟨x, hx, List.mem_append_left _ he⟩
    · intro x hx y hy
      have e := hsucc x hx
      rw [e] at hx hy
      exact hni x hx y hy
    · intro o hm
      have := ho o (List.mem_cons_of_mem _ hm)
      refine ⟨this.1, ?_⟩
      intro e he
      rcases List.mem_append.mp he with h' | h'
      · exact this.2 e h'
      · rw [List.mem_singleton] at h'
        subst h'
        intro e'
        dsimp only at e'
        subst e'
        exact hnd.1 hm

theorem makeGraph_sat (n : Nat) : Sat (makeGraph n) (fun g => ∃ es, GraphOk g n es) := by
  unfold makeGraph
  refine (spine_sat n n 0 ⟨Graph.blocks n, [], []⟩ [] (by omega) ?_).bind fun s hs => ?_
  · refine ⟨Rep.start n, by omega, ?_, ?_, ?_, ?_, ?_, by simp, ?_, ?_, ?_⟩
    · intro e he; cases he
    · intro e he; cases he
    · intro e he; cases he
    · intro h; omega
    · intro e he; cases he
    · intro x hx; simp [succOf] at hx
    · intro x; simp [succOf]
    · intro y h0 hle; omega
  · obtain ⟨es, h⟩ := hs
    refine connect_sat (fun x hx => h.ins x hx) s.outs s.g es ⟨h.rep, ?_, h.nd, ?_⟩ ?_ h.nodup ?_
    · intro x hx y hy
      obtain ⟨h1, h2, h3⟩ := h.fork x hx y hy
      refine ⟨?_, h3⟩
      rintro rfl
      exact h2 (h.zero h1)
    · intro y h0 hlt
      exact h.order y h0 (by omega) hlt
    · intro x hx y hy
      exact (h.fork x hx y hy).2.1
    · intro o ho
      exact ⟨(h.outs o ho).1, (h.outs o ho).2⟩

/-! ### Reachability and dominance -/

namespace GraphOk
variable {g : Graph} {n : Nat} {es : List (Nat × Nat)}

/-- The successors, as a function. -/
abbrev _root_.Regalloc.FuzzGen.Graph.succ (g : Graph) (b : Nat) : List Nat := g.succs.getD b []
abbrev _root_.Regalloc.FuzzGen.Graph.pred (g : Graph) (b : Nat) : List Nat := g.preds.getD b []

theorem mem_succ (h : GraphOk g n es) {a b : Nat} : b ∈ g.succ a ↔ (a, b) ∈ es := by
  unfold Graph.succ; rw [h.rep.succs, mem_succOf]

theorem mem_pred (h : GraphOk g n es) {a b : Nat} : a ∈ g.pred b ↔ (a, b) ∈ es := by
  unfold Graph.pred; rw [h.rep.preds, mem_predOf]

/-- Every block is reached by a path through smaller blocks. -/
theorem path (h : GraphOk g n es) : ∀ k y, y ≤ k → y < n → ∃ l, Walk g.succ 0 y l ∧ ∀ x ∈ l, x ≤ y := by
  intro k
  induction k with
  | zero =>
    intro y hy hn
    have : y = 0 := by omega
    subst this
    exact ⟨[0], .start, by simp⟩
  | succ k ih =>
    intro y hy hn
    by_cases h0 : y = 0
    · subst h0; exact ⟨[0], .start, by simp⟩
    · obtain ⟨x, hx, he⟩ := h.order y (by omega) hn
      obtain ⟨l, hl, hle⟩ := ih x (by omega) (by omega)
      refine ⟨y :: l, hl.step (h.mem_succ.mpr he), ?_⟩
      intro z hz
      rcases List.mem_cons.mp hz with rfl | hz
      · omega
      · have := hle z hz; omega

theorem reach (h : GraphOk g n es) {y : Nat} (hy : y < n) : Reaches g.succ 0 y :=
  let ⟨l, hl, _⟩ := h.path y y (Nat.le_refl _) hy
  ⟨l, hl⟩

theorem dom_le (h : GraphOk g n es) {d y : Nat} (hy : y < n) (hd : Dom g.succ 0 d y) : d ≤ y :=
  let ⟨l, hl, hle⟩ := h.path y y (Nat.le_refl _) hy
  hle d (hd l hl)

end GraphOk

theorem Dom.trans {succs : Nat → List Nat} {e a b c : Nat} (h1 : Dom succs e a b) (h2 : Dom succs e b c) : Dom succs e a c := by
  intro l hl
  have hb := h2 l hl
  have key : ∀ {c l}, Walk succs e c l → b ∈ l → ∃ l', Walk succs e b l' ∧ ∀ x ∈ l', x ∈ l := by
    intro c l hw
    induction hw with
    | start =>
      intro hm
      rw [List.mem_singleton] at hm
      subst hm
      exact ⟨_, .start, fun x hx => hx⟩
    | step hw hs ih =>
      intro hm
      rcases List.mem_cons.mp hm with rfl | hm
      · exact ⟨_, hw.step hs, fun x hx => hx⟩
      · obtain ⟨l', h1, h2⟩ := ih hm
        exact ⟨l', h1, fun x hx => List.mem_cons_of_mem _ (h2 x hx)⟩
  obtain ⟨l', h3, h4⟩ := key hl hb
  exact h4 a (h1 l' h3)

/-- What is known about the computed dominator tree. -/
structure DomsOk (g : Graph) (n : Nat) (idom : List (Option Nat)) : Prop where
  len : idom.length = n
  sound : ∀ x y : Nat, idom[x]? = some (some y) → y < n ∧ Dom g.succ 0 y x
  short : ∀ b, b < n → Domtree.dominatesFuel idom (n + 2) (some n) (some b) ≠ none

theorem doms_sat {g : Graph} {n : Nat} {es : List (Nat × Nat)} (h : GraphOk g n es) (hn : 0 < n) : Sat (doms n g) (DomsOk g n) := by
  unfold doms
  have hin : ∀ a, ∀ b ∈ g.succ a, b < n := fun a b hb => (h.rep.lt _ (h.mem_succ.mp hb)).2
  obtain ⟨post, hpost⟩ := (C08_succeeds_iff n 0 g.succ).mpr ⟨hn, fun a _ b hb => hin a b hb⟩
  have hpm : PredsMatch n 0 g.succ g.pred := by
    refine ⟨?_, ?_⟩
    · intro x hx p hp
      exact (h.rep.lt _ (h.mem_pred.mp hp)).1
    · intro x p hx hp
      rw [h.mem_pred, h.mem_succ]
  obtain ⟨idom, hi, hl, h0, hun, him⟩ := C09_immediate_dominator n 0 g.succ g.pred post hpost hpm
  obtain ⟨idom', hi', hd⟩ := C09_dominates n 0 g.succ g.pred post hpost hpm
  rw [hi] at hi'
  cases hi'
  show Sat (match Postorder.calculate? n 0 g.succ with
    | some (.ok post) => match Domtree.calculate? n g.pred post 0 with | some idom => (Pure.pure idom : G _) | none => .fail .panic
    | _ => .fail .panic) _
  rw [hpost]
  dsimp only
  rw [hi]
  refine Sat.pure ⟨hl, ?_, ?_⟩
  · intro x y hxy
    have hx : x < n := by
      have := (List.getElem?_eq_some_iff.mp hxy).1
      omega
    have hx0 : x ≠ 0 := by
      rintro rfl
      rw [h0] at hxy
      cases hxy
    obtain ⟨p, hp, -, hdp, -⟩ := him x (h.reach hx) hx0
    rw [hp] at hxy
    cases hxy
    exact ⟨by have := h.dom_le hx hdp; omega, hdp⟩
  · intro b hb
    obtain ⟨r, hr, -⟩ := hd n b (h.reach hb)
    unfold Domtree.dominates? at hr
    rw [hl] at hr
    rw [hr]
    simp

theorem chooseDom_sat {g : Graph} {n : Nat} {idom : List (Option Nat)} (h : DomsOk g n idom) {orig : Nat} :
    ∀ fuel b, b < n → Dom g.succ 0 b orig → Domtree.dominatesFuel idom fuel (some n) (some b) ≠ none →
      Sat (chooseDom idom orig false fuel b) (fun d => ∀ x, d = some x → x < n ∧ x ≠ orig ∧ Dom g.succ 0 x orig) := by
  intro fuel
  induction fuel with
  | zero => intro b _ _ hf; exact absurd rfl hf
  | succ k ih =>
    intro b hb hd hf
    unfold chooseDom
    refine (Sat.andFlip _).bind fun stop hs => ?_
    have hret : Sat (Pure.pure (if b ≠ orig ∨ (false : Bool) = true then some b else none) : G (Option Nat))
        (fun d => ∀ x, d = some x → x < n ∧ x ≠ orig ∧ Dom g.succ 0 x orig) := by
      refine Sat.pure ?_
      intro x hx
      split at hx
      · next hc =>
        cases hx
        refine ⟨hb, ?_, hd⟩
        rcases hc with hc | hc
        · exact hc
        · cases hc
      · cases hx
    refine Sat.ite (fun _ => hret) (fun _ => ?_)
    unfold Domtree.dominatesFuel at hf
    rw [if_neg (by simp; omega)] at hf
    dsimp only at hf
    have hlt : b < idom.length := by rw [h.len]; exact hb
    cases hp : idom[b]? with
    | none => rw [List.getElem?_eq_getElem hlt] at hp; cases hp
    | some p =>
      rw [hp] at hf
      cases p with
      | none => exact hret
      | some p =>
        dsimp only at hf ⊢
        obtain ⟨h1, h2⟩ := h.sound b p hp
        exact ih p h1 (Dom.trans h2 hd) hf

theorem walk_mem {succs : Nat → List Nat} {e b : Nat} {l : List Nat} (h : Walk succs e b l) : b ∈ l := by
  cases h with
  | start => simp
  | step _ _ => simp

theorem Cx.dom_sat {g : Graph} {n : Nat} {cx : Cx} (h : DomsOk g n cx.idom) (hb : cx.block < n) :
    Sat cx.dom (fun d => ∀ x, d = some x → x < n ∧ x ≠ cx.block ∧ Dom g.succ 0 x cx.block) := by
  unfold Cx.dom
  rw [h.len]
  refine chooseDom_sat h _ _ hb ?_ (h.short _ hb)
  intro l hl
  exact walk_mem hl

end Regalloc.FuzzGen
