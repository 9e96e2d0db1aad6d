import Verif.Proofs.FixMulti
import Verif.Proofs.RangeMap

/-! `fixup_multi_fixed_vregs` does not panic. -/
namespace Regalloc.Build

/-! ### One group -/

theorem source_some {env : MachineEnv} {c : List Ion.Use} {k : Conflict} (h : Seen env c k) (hf : k.fine = false) :
    ∃ s, k.source = .ok s := by
  have key : ∀ (P : Ion.Use → Bool), (∃ u ∈ c, P u = true) → ∃ s, (c.find? P).map (·.slot) = some s := by
    rintro P ⟨u, hu, hp⟩
    cases hc : c.find? P with
    | none => exact absurd hp (List.find?_eq_none.mp hc u hu)
    | some w => exact ⟨w.slot, rfl⟩
  have hgoal : ∃ s, (if k.requiresReg then k.firstReg else k.firstStack) = some s := by
    cases hr : k.requiresReg with
    | true =>
      rw [if_pos rfl, h.firstReg]
      refine key _ ?_
      obtain ⟨u, hu, h1⟩ := h.reg.mp hr
      refine ⟨u, hu, ?_⟩
      unfold needsReg at h1
      unfold regish
      cases hc : u.op.constraint <;> simp_all
    | false =>
      rw [if_neg (by simp), h.firstStack]
      refine key _ ?_
      have hno : ∀ u ∈ c, needsReg env u = false := by
        intro u hu
        cases hn : needsReg env u with
        | false => rfl
        | true => rw [h.reg.mpr ⟨u, hu, hn⟩] at hr; cases hr
      have hlim : k.maxFixed < k.minLimit := by
        rcases h.tight with h1 | ⟨u, hu, h1⟩
        · rcases h.least with h2 | ⟨u, hu, p, h2, h3⟩
          · omega
          · have := hwEnc_lt p
            omega
        · have := hno u hu
          unfold needsReg at this
          rw [h1] at this
          cases this
      have h2 : 1 < (c.filter isFixed).length := by
        rw [← h.count]
        unfold Conflict.fine at hf
        rw [hr, decide_eq_true hlim] at hf
        simp at hf
        omega
      obtain ⟨u, hu⟩ := List.exists_mem_of_length_pos (Nat.lt_trans Nat.zero_lt_one h2)
      obtain ⟨hu, h3⟩ := List.mem_filter.mp hu
      refine ⟨u, hu, ?_⟩
      have h4 := hno u hu
      unfold needsReg at h4
      unfold isFixed at h3
      unfold stackish
      cases hc : u.op.constraint <;> simp_all
  obtain ⟨s, hs⟩ := hgoal
  refine ⟨s, ?_⟩
  unfold Conflict.source
  rw [hs]

theorem fixChunk_total {env : MachineEnv} {c : List Ion.Use} (h : 2 ≤ c.length → ∀ u ∈ c, u.op.constraint ≠ .Stack) :
    ∃ r, fixChunk env c = .ok r := by
  unfold fixChunk
  split
  · exact ⟨_, rfl⟩
  · rename_i hl
    obtain ⟨k, hk⟩ := see_ok (env := env) c (h (by omega)) Conflict.start
    rw [hk]
    change ∃ r, (if k.fine = true then pure (c, []) else _) = _
    split
    · exact ⟨_, rfl⟩
    · rename_i hf
      obtain ⟨s, hs⟩ := source_some (seen_all hk) (Bool.eq_false_iff.mpr hf)
      rw [hs]
      exact ⟨_, rfl⟩

/-- Point and operand of the use that a fixup serves. -/
def fkey (x : Apply.Fixup) : Nat × Nat := (x.pos, x.toSlot)
def ukey (u : Ion.Use) : Nat × Nat := (u.pos, u.slot)

theorem fixChunk_keys {env : MachineEnv} {c : List Ion.Use} {r : List Ion.Use × List Apply.Fixup} (h : fixChunk env c = .ok r) :
    (r.2.map fkey).Sublist (c.map ukey) := by
  unfold fixChunk at h
  split at h
  · cases h; simp
  rename_i hl
  · cases hk : c.foldlM (Conflict.see env) Conflict.start with
    | error e => rw [hk] at h; cases h
    | ok k =>
      rw [hk] at h
      change (if k.fine = true then pure (c, []) else _) = _ at h
      split at h
      · cases h; simp
      · cases hsrc : k.source with
        | error e => rw [hsrc] at h; cases h
        | ok src =>
          rw [hsrc] at h
          have h' := Except.ok.inj h
          clear h
          rw [← h', rewrite_eq]
          dsimp only
          rw [List.nil_append]
          generalize (Option.none.or (firstOf env k c)) = fo
          clear h' hk hsrc hl
          induction c with
          | nil => simp
          | cons u c ih =>
            rw [List.filterMap_cons, List.map_cons]
            cases hx : fixOf env k src fo u with
            | none => exact ih.cons _
            | some x =>
              rw [List.map_cons]
              have : fkey x = ukey u := by
                unfold fixOf at hx
                split at hx
                · cases hx
                · split at hx
                  · cases hx; rfl
                  · cases hx
              rw [this]
              exact ih.cons_cons _

/-! ### The uses of a range -/

theorem foldlM_total₂ {α β γ ε : Type} {g : α → Except ε (List β × List γ)} :
    ∀ (l : List α) (a : List β × List γ), (∀ c ∈ l, ∃ r, g c = .ok r) →
    ∃ b, l.foldlM (fun acc c => do let r ← g c; return (acc.1 ++ r.1, acc.2 ++ r.2)) a = .ok b := by
  intro l
  induction l with
  | nil => intro a _; exact ⟨a, rfl⟩
  | cons x l ih =>
    intro a h
    obtain ⟨r, hr⟩ := h x (List.mem_cons_self ..)
    obtain ⟨b, hb⟩ := ih (a.1 ++ r.1, a.2 ++ r.2) (fun c hc => h c (List.mem_cons_of_mem _ hc))
    refine ⟨b, ?_⟩
    rw [List.foldlM_cons, hr]
    exact hb

/-- A use on the stack is the only one at its point. -/
def StackAlone (us : List Ion.Use) : Prop :=
  ∀ u ∈ us, u.op.constraint = .Stack → ∀ u' ∈ us, u'.pos = u.pos → u' = u

theorem fixUses_total {env : MachineEnv} {us : List Ion.Use} (hs : StackAlone us) (hd : (us.map ukey).Nodup) :
    ∃ r, fixUses env us = .ok r := by
  refine foldlM_total₂ _ _ ?_
  intro c hc
  refine fixChunk_total ?_
  intro hl u hu hst
  obtain ⟨-, hsame⟩ := chunks_same us c hc
  have hsub : c.Sublist us := by
    have := List.sublist_flatten_of_mem hc
    rwa [chunks_flatten] at this
  have hall : ∀ u' ∈ c, u' = u := fun u' hu' => hs u (hsub.subset hu) hst u' (hsub.subset hu') (hsame u' hu' u hu)
  have hnd : (c.map ukey).Nodup := hd.sublist (hsub.map _)
  match c, hl, hall, hnd with
  | a :: b :: c, _, hall, hnd =>
    have h1 := hall a (by simp)
    have h2 := hall b (by simp)
    subst h1
    rw [h2] at hnd
    simp at hnd

theorem fixUses_keys {env : MachineEnv} {us us' : List Ion.Use} {fx : List Apply.Fixup} (h : fixUses env us = .ok (us', fx)) :
    (fx.map fkey).Sublist (us.map ukey) := by
  obtain ⟨rs, h1, -, h2⟩ := fixUses_spec h
  rw [h2]
  have hfl := chunks_flatten us
  have key : ∀ (cs : List (List Ion.Use)) (rs : List (List Ion.Use × List Apply.Fixup)),
      List.Forall₂ (fun c r => fixChunk env c = .ok r) cs rs → ((rs.flatMap (·.2)).map fkey).Sublist (cs.flatten.map ukey) := by
    intro cs rs hh
    induction hh with
    | nil => simp
    | cons h1 _ ih =>
      rw [List.flatMap_cons, List.map_append, List.flatten_cons, List.map_append]
      exact (fixChunk_keys h1).append ih
  have := key _ _ h1
  rwa [hfl] at this

/-! ### Reservations -/

theorem flatMap_sublist {α β : Type} (l : List α) (g h : α → List β) (hs : ∀ a ∈ l, (g a).Sublist (h a)) :
    (l.flatMap g).Sublist (l.flatMap h) := by
  induction l with
  | nil => simp
  | cons a l ih =>
    rw [List.flatMap_cons, List.flatMap_cons]
    exact (hs a (List.mem_cons_self ..)).append (ih fun b hb => hs b (List.mem_cons_of_mem _ hb))

/-- The fixups of a range. -/
def fixesOf (env : MachineEnv) (us : List Ion.Use) : List Apply.Fixup :=
  match fixUses env us with
  | .ok r => r.2
  | .error _ => []

theorem fixesOf_eq {env : MachineEnv} {us us' : List Ion.Use} {fx : List Apply.Fixup} (h : fixUses env us = .ok (us', fx)) :
    fixesOf env us = fx := by unfold fixesOf; rw [h]

/-- No fixup of the list needs a register reserved already, or twice. -/
def Addable (pregs : List (PReg × RKey)) (fx : List Apply.Fixup) : Prop :=
  fx.Pairwise (fun x y => x.preg = y.preg → x.pos ≠ y.pos) ∧
    ∀ x ∈ fx, ∀ e ∈ pregs, e.1 = x.preg → e.2.to ≤ x.pos ∨ x.pos < e.2.fr

theorem Addable.append {pregs : List (PReg × RKey)} {fx fy : List Apply.Fixup} (h : Addable pregs (fx ++ fy)) :
    Addable pregs fx ∧ Addable ((fx.map resv).reverse ++ pregs) fy := by
  obtain ⟨h1, h2⟩ := h
  obtain ⟨a1, a2, a3⟩ := List.pairwise_append.mp h1
  refine ⟨⟨a1, fun x hx => h2 x (List.mem_append_left _ hx)⟩, a2, ?_⟩
  intro y hy e he hp
  rcases List.mem_append.mp he with he | he
  · obtain ⟨x, hx, rfl⟩ := List.mem_map.mp (List.mem_reverse.mp he)
    have := a3 x hx y hy hp
    unfold resv
    dsimp only
    omega
  · exact h2 y (List.mem_append_right _ hy) e he hp

theorem addAll_total : ∀ (fx : List Apply.Fixup) (st : St), Addable st.pregs fx →
    ∃ st', fx.foldlM (fun st x => addPreg st (RKey.singleton x.pos) x.preg) st = .ok st' := by
  intro fx
  induction fx with
  | nil => intro st _; exact ⟨st, rfl⟩
  | cons x fx ih =>
    intro st h
    have h' : Addable st.pregs ([x] ++ fx) := h
    obtain ⟨h1, h2⟩ := h'.append
    have h3 : addPreg st (RKey.singleton x.pos) x.preg = .ok { st with pregs := (x.preg, RKey.singleton x.pos) :: st.pregs } := by
      refine if_neg ?_
      intro hany
      obtain ⟨e, he, h4⟩ := List.any_eq_true.mp hany
      simp only [Bool.and_eq_true, decide_eq_true_eq, beq_iff_eq] at h4
      have h5 := RKey.cmp_eq.mp h4.2
      have h6 := h1.2 x (by simp) e he h4.1
      unfold RKey.singleton at h5
      dsimp only at h5
      omega
    obtain ⟨st', h4⟩ := ih { st with pregs := (x.preg, RKey.singleton x.pos) :: st.pregs } h2
    refine ⟨st', ?_⟩
    rw [List.foldlM_cons, h3]
    exact h4

theorem fixRange_total {env : MachineEnv} {a : St × List LR × List Apply.Fixup} {r : LR} (hu : ∃ o, fixUses env r.uses = .ok o)
    (ha : Addable a.1.pregs (fixesOf env r.uses)) : ∃ c, fixRange env a r = .ok c := by
  obtain ⟨⟨us, fx⟩, h1⟩ := hu
  rw [fixesOf_eq h1] at ha
  obtain ⟨st', h2⟩ := addAll_total fx a.1 ha
  unfold fixRange
  rw [h1]
  refine ⟨(st', a.2.1 ++ [{ r with uses := us }], a.2.2 ++ fx), ?_⟩
  dsimp only [bind, Except.bind] at h2 ⊢
  rw [h2]
  rfl

theorem fixRanges_total {env : MachineEnv} : ∀ (rs : List LR) (a : St × List LR × List Apply.Fixup),
    (∀ r ∈ rs, ∃ o, fixUses env r.uses = .ok o) → Addable a.1.pregs (rs.flatMap (fun r => fixesOf env r.uses)) →
    ∃ b, rs.foldlM (fixRange env) a = .ok b := by
  intro rs
  induction rs with
  | nil => intro a _ _; exact ⟨a, rfl⟩
  | cons r rs ih =>
    intro a hu ha
    rw [List.flatMap_cons] at ha
    obtain ⟨h1, h2⟩ := ha.append
    obtain ⟨c, hc⟩ := fixRange_total (hu r (List.mem_cons_self ..)) h1
    obtain ⟨us, fx, e1, -, e2⟩ := fixRange_ok hc
    rw [fixesOf_eq e1] at h2
    have hp : c.1.pregs = (fx.map resv).reverse ++ a.1.pregs := by rw [e2.1]
    obtain ⟨b, hb⟩ := ih c (fun r hr => hu r (List.mem_cons_of_mem _ hr)) (by rw [hp]; exact h2)
    refine ⟨b, ?_⟩
    rw [List.foldlM_cons, hc]
    exact hb

/-- All fixups of the pass. -/
def fixesAll (env : MachineEnv) (n : Nat) (st : St) : List Apply.Fixup :=
  (List.range n).flatMap (fun v => (st.ranges v).flatMap (fun r => fixesOf env r.uses))

theorem fixupMulti_total {env : MachineEnv} {n : Nat} {st : St} (hu : ∀ v < n, ∀ r ∈ st.ranges v, ∃ o, fixUses env r.uses = .ok o)
    (ha : Addable st.pregs (fixesAll env n st)) : ∃ r, fixupMulti env n st = .ok r ∧ r.2 = fixesAll env n st := by
  induction n with
  | zero => exact ⟨_, rfl, rfl⟩
  | succ n ih =>
    have hsplit : fixesAll env (n + 1) st = fixesAll env n st ++ (st.ranges n).flatMap (fun r => fixesOf env r.uses) := by
      unfold fixesAll
      rw [List.range_succ, List.flatMap_append]
      simp
    rw [hsplit] at ha
    obtain ⟨h1, h2⟩ := ha.append
    obtain ⟨⟨st1, fx1⟩, h3, h4⟩ := ih (fun v hv => hu v (by omega)) h1
    obtain ⟨tab, P⟩ := fixupMulti_spec h3
    have hp : st1.pregs = ((fixesAll env n st).map resv).reverse ++ st.pregs := by rw [P.pregs, ← h4]
    have hr : st1.ranges n = st.ranges n := by rw [P.ranges, if_neg (by omega)]
    obtain ⟨b, hb⟩ := fixRanges_total (st1.ranges n) (st1, [], fx1) (by rw [hr]; exact hu n (by omega))
      (by rw [hr]; show Addable st1.pregs _; rw [hp]; exact h2)
    have hfx : b.2.2 = fx1 ++ (st.ranges n).flatMap (fun r => fixesOf env r.uses) := by
      rw [hr] at hb
      have key : ∀ (rs : List LR) (a b : St × List LR × List Apply.Fixup), rs.foldlM (fixRange env) a = .ok b →
          b.2.2 = a.2.2 ++ rs.flatMap (fun r => fixesOf env r.uses) := by
        intro rs
        induction rs with
        | nil => intro a b h; cases h; simp
        | cons r rs ih =>
          intro a b h
          rw [List.foldlM_cons] at h
          cases h0 : fixRange env a r with
          | error e => rw [h0] at h; cases h
          | ok c =>
            rw [h0] at h
            obtain ⟨us, fx, e1, e2, -⟩ := fixRange_ok h0
            rw [ih c b h, e2, List.flatMap_cons, fixesOf_eq e1]
            simp
      exact key _ _ _ hb
    refine ⟨(b.1.setRanges n b.2.1, b.2.2), ?_, ?_⟩
    · unfold fixupMulti at h3 ⊢
      rw [List.range_succ, List.foldlM_append, h3]
      change List.foldlM (fixVreg env) (st1, fx1) [n] = _
      rw [List.foldlM_cons]
      unfold fixVreg
      dsimp only
      rw [hb]
      rfl
    · rw [hsplit, ← h4]
      exact hfx

end Regalloc.Build
