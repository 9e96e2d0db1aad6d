import Verif.Proofs.FastInst
import Verif.Props.Moves

/-
Single-pass allocator: what the resolved parallel moves of `process_branch` do.
-/
namespace Regalloc
namespace Fast
open Exec

/-! ### The answers of the callbacks -/

theorem findFree_1 {l : Lru} {sc : Option PReg} {av : PRegSet} {p : PReg} (h : (findFree l sc av).1 = some (some p)) :
    sc = some p ∨ (sc = none ∧ l.last? av = some (some p) ∧ (findFree l sc av).2.2 = av.remove p) := by
  unfold findFree at h ⊢
  cases sc with
  | some r => simp at h; exact .inl (by rw [h])
  | none =>
    dsimp only at h ⊢
    split at h
    · cases h
    · cases h
    · next q hq => cases h; exact .inr ⟨rfl, hq, rfl⟩

theorem findFree_2 (l : Lru) (sc : Option PReg) (av : PRegSet) : (findFree l sc av).2.1 = none := by
  unfold findFree
  cases sc with
  | some r => rfl
  | none => dsimp only; split <;> rfl

theorem findFree_3 (l : Lru) (sc : Option PReg) (av : PRegSet) {p : PReg} (h : (findFree l sc av).2.2.contains p = true) :
    av.contains p = true := by
  unfold findFree at h
  cases sc with
  | some r => exact h
  | none =>
    dsimp only at h
    split at h
    · exact h
    · exact h
    · exact ((cont_remove _ _ _).mp h).2

/-! ### Slots handed out -/

theorem slotsAfter_ge (cx : Cx) (he : EnvOk cx) (c : RegClass) : ∀ k n, n ≤ slotsAfter cx c n k
  | 0, n => Nat.le_refl _
  | k + 1, n => by
    have h1 := slotsAfter_ge cx he c k (slotNext (cx.size c) n)
    have h2 := slotAt_ge (bl := cx.byLast) (n := n) (he.size_pos c)
    have h3 := slotAt_lt_next (bl := cx.byLast) (n := n) (he.size_pos c)
    unfold slotsAfter
    omega

theorem slotsAfter_le (cx : Cx) (he : EnvOk cx) (c : RegClass) :
    ∀ k n, n ≤ slotBound → slotsBad cx c n k = false → slotsAfter cx c n k ≤ slotBound
  | 0, n, h, _ => h
  | k + 1, n, h, hb => by
    unfold slotsBad at hb
    simp only [Bool.or_eq_false_iff, decide_eq_false_iff_not] at hb
    obtain ⟨⟨_, h2⟩, h3⟩ := hb
    have hM : SpillSlot.MAX = 2 ^ 24 - 1 := by decide
    have h4 := slotNext_le (bl := cx.byLast) (n := n) (he.size_pos c)
    have h5 := he.size_le c
    unfold slotsAfter
    refine slotsAfter_le cx he c k _ ?_ h3
    unfold slotBound
    omega

theorem slotCalls_le {e : Moves.ScratchEnv} {mv : MoveVecWithScratch (Option VReg)} : slotCalls e mv ≤ 2 := by
  unfold slotCalls
  split <;> split <;> first | omega | (split <;> omega)

/-! ### Slots not asked for do not matter -/

theorem expand_congr {T : Type} [Inhabited T] (e e' : Moves.ScratchEnv) (h : e'.isStack = e.isStack) (r : Allocation)
    (sv : Option Allocation) : ∀ (ms : List (Move T)) (a b : Bool), Moves.expand e' r sv ms a b = Moves.expand e r sv ms a b := by
  intro ms
  have hs : ∀ m : Move T, e'.isS2S m = e.isS2S m := by intro m; unfold Moves.ScratchEnv.isS2S; rw [h]
  induction ms with
  | nil => intro a b; rfl
  | cons m ms ih =>
    intro a b
    unfold Moves.expand
    simp only [hs, ih]

theorem compute_congr (e e' : Moves.ScratchEnv) (mv : MoveVecWithScratch (Option VReg)) (h1 : e'.isStack = e.isStack)
    (h2 : e'.findReg = e.findReg) (h3 : e'.borrowed = e.borrowed)
    (h4 : ∀ k, k < slotCalls e mv → e'.getSlot k = e.getSlot k) : Moves.compute? e' mv = Moves.compute? e mv := by
  have hs : (e'.isS2S : Move (Option VReg) → Bool) = e.isS2S := by
    funext m; unfold Moves.ScratchEnv.isS2S; rw [h1]
  unfold Moves.compute?
  unfold slotCalls asksForS2S at h4
  rw [h2, h3, hs]
  by_cases hn : Moves.needsScratch mv = true
  · simp only [hn, if_true, Bool.true_and] at h4 ⊢
    cases hf : e.findReg 0 with
    | some r =>
      simp only [hf, Option.isNone_some] at h4 ⊢
      by_cases ha : (Moves.withScratch r mv).any e.isS2S = true
      · simp only [ha, Bool.true_and] at h4 ⊢
        cases hg : e.findReg 1 with
        | some r' => simp [expand_congr e e' h1]
        | none =>
          rw [hg] at h4
          have := h4 0 (by simp)
          simp [expand_congr e e' h1, this]
      · simp [ha]
    | none =>
      simp only [hf, Option.isNone_none] at h4 ⊢
      have h0 := h4 0 (by simp; omega)
      rw [h0]
      by_cases ha : (Moves.withScratch (e.getSlot 0) mv).any e.isS2S = true
      · simp only [ha, Bool.true_and] at h4 ⊢
        cases hg : e.findReg 1 with
        | some r' => simp [expand_congr e e' h1]
        | none =>
          rw [hg] at h4
          have := h4 1 (by simp)
          simp [expand_congr e e' h1, this]
      · simp [ha]
  · have hn : Moves.needsScratch mv = false := by simpa using hn
    simp only [hn, Bool.false_eq_true, if_false, Bool.false_and] at h4 ⊢
    by_cases ha : (Moves.withScratch Allocation.none mv).any e.isS2S = true
    · simp only [ha, Bool.true_and] at h4 ⊢
      cases hg : e.findReg 0 with
      | some r' => simp [expand_congr e e' h1]
      | none =>
        rw [hg] at h4
        have := h4 0 (by simp)
        simp [expand_congr e e' h1, this]
    · simp [ha]

/-- Executing the resolver's moves as edits. -/
theorem execE_moves {T Val : Type} (ms : List (Move T)) (A : Allocation → Val) :
    execE (ms.map (fun m => (⟨m.src, m.dst⟩ : Edit))) A = Moves.exec A ms := by
  unfold execE Moves.exec
  induction ms generalizing A with
  | nil => rfl
  | cons m ms ih =>
    simp only [List.map_cons, List.foldl_cons]
    rw [ih]
    rfl

/-- Locations the resolver must not touch: registers holding live values, and slots
other than those handed out as scratch. -/
def Un (s : FS) (N : Nat) (l : Allocation) : Prop :=
  (∃ p w, l = Allocation.reg p ∧ s.alloc w = Allocation.reg p) ∨
  ∃ n, l = stk n ∧ n < slotBound ∧ (n < s.numSlots ∨ N ≤ n)

/-- The moves copy slots of registers. -/
def SlotMoves (s : FS) (ms : List (Move (Option VReg))) : Prop :=
  ∀ m ∈ ms, ∃ v w nv nw, s.slot v = some nv ∧ s.slot w = some nw ∧ m.src = stk nv ∧ m.dst = stk nw

section
variable {cx : Cx} {C : Nat → VReg} {P : Nat → Prop} {i : Nat}

theorem resolveClass_spec (he : EnvOk cx) {pm : PMoves} {st st' : FS × PRegSet} {c : RegClass} (I : Inv cx C P st.1)
    (S : ScrOk cx st.1)
    (hav : ∀ p, st.2.contains p = true → st.1.availE.contains p = true ∧ ∀ w, st.1.alloc w ≠ Allocation.reg p)
    (hm : SlotMoves st.1 (pm c)) (hu : Moves.UniqueWriters (pm c)) (h : resolveClass cx i pm st c = .ok st') :
    Inv cx C P st'.1 ∧ st'.1 = { st.1 with edits := st'.1.edits, numSlots := st'.1.numSlots } ∧
      st.1.numSlots ≤ st'.1.numSlots ∧ (∀ p, st'.2.contains p = true → st.2.contains p = true) ∧
      ∃ E : List Edit, st'.1.edits = E.map (fun e => (pt i .Before, e)) ++ st.1.edits ∧
        ∀ {Val : Type} (A : Allocation → Val),
          (∀ m ∈ pm c, execE E A m.dst = A m.src) ∧
          (∀ l, (∀ m ∈ pm c, m.dst ≠ l) → Un st.1 st'.1.numSlots l → execE E A l = A l) := by
  obtain ⟨s, av⟩ := st
  unfold resolveClass at h
  dsimp only at h I S hav hm ⊢
  split at h
  · cases h
  · next mv hmv =>
    split at h
    · cases h
    · next hbad =>
      split at h
      · cases h
      · next ms hms =>
        have h := (Except.ok.inj h).symm
        generalize han : answers (s.lrus c) (s.scratch c) av = an at h hms hbad
        generalize hee : resolverEnv cx c an s.numSlots = e at h hms hbad
        generalize hsc : slotCalls e mv = sc at h hbad
        have hsb : slotsBad cx c s.numSlots sc = false := by
          cases hb : slotsBad cx c s.numSlots sc with
          | false => rfl
          | true => exact absurd (.inr (.inr hb)) hbad
        have hge := slotsAfter_ge cx he c sc s.numSlots
        have hle := slotsAfter_le cx he c sc s.numSlots I.numLe hsb
        -- registers offered
        have hr1 : ∀ p, an.r1 = some (some p) → (∀ w, s.alloc w ≠ Allocation.reg p) ∧ cx.isStack (Allocation.reg p) = false := by
          intro p hp
          rw [← han] at hp
          rcases findFree_1 hp with hq | ⟨_, hq, _⟩
          · obtain ⟨_, _, q3, q4⟩ := S c p hq
            exact ⟨q4, q3⟩
          · obtain ⟨q1, q2⟩ := last_mem I.lru hq
            exact ⟨(hav p q2).2, he.isStack_reg q1⟩
        have hr2 : ∀ p, an.r2 = some (some p) → (cx.regs c).contains p = true ∧ an.av1.contains p = true := by
          intro p hp
          rw [← han] at hp ⊢
          unfold answers at hp ⊢
          dsimp only at hp ⊢
          rw [findFree_2] at hp
          rcases findFree_1 hp with hq | ⟨_, hq, _⟩
          · cases hq
          · exact last_mem I.lru hq
        have hav1 : ∀ p, an.av1.contains p = true → av.contains p = true := by
          intro p hp
          rw [← han] at hp
          exact findFree_3 _ _ _ hp
        have hav2 : ∀ p, an.av2.contains p = true → av.contains p = true := by
          intro p hp
          rw [← han] at hp
          exact findFree_3 _ _ _ (findFree_3 _ _ _ hp)
        have hr12 : ∀ p, an.r1 = some (some p) → an.r2 ≠ some (some p) := by
          intro p h1 h2
          obtain ⟨_, g2⟩ := hr2 p h2
          rw [← han] at h1
          rcases findFree_1 h1 with hq | ⟨_, hq, hrem⟩
          · exact (S c p hq).1 (hav p (hav1 p g2)).1
          · rw [← han] at g2
            unfold answers at g2
            dsimp only at g2
            rw [hrem] at g2
            exact ((cont_remove _ _ _).mp g2).1 rfl
        -- slots offered
        let g : Nat → Nat := fun k => if k < sc then
            (if k = 0 then slotAt cx.byLast (cx.size c) s.numSlots
              else slotAt cx.byLast (cx.size c) (slotNext (cx.size c) s.numSlots)) else slotBound + k
        let e' : Moves.ScratchEnv := { e with getSlot := fun k => stk (g k) }
        have hsc2 : sc ≤ 2 := hsc ▸ slotCalls_le
        have a1 := slotAt_ge (bl := cx.byLast) (n := s.numSlots) (he.size_pos c)
        have a2 := slotAt_lt_next (bl := cx.byLast) (n := s.numSlots) (he.size_pos c)
        have a3 := slotAt_ge (bl := cx.byLast) (n := slotNext (cx.size c) s.numSlots) (he.size_pos c)
        have a4 := slotAt_lt_next (bl := cx.byLast) (n := slotNext (cx.size c) s.numSlots) (he.size_pos c)
        have hg : ∀ k, k < 2 → s.numSlots ≤ g k ∧ g k < 2 ^ 29 ∧ (g k < slotsAfter cx c s.numSlots sc ∨ slotBound ≤ g k) := by
          intro k hk
          have hnum := I.numLe
          have hB : slotBound = 2 ^ 24 + 2 ^ 20 := rfl
          show s.numSlots ≤ (if k < sc then _ else slotBound + k) ∧ (if k < sc then _ else slotBound + k) < 2 ^ 29 ∧
            ((if k < sc then _ else slotBound + k) < _ ∨ slotBound ≤ (if k < sc then _ else slotBound + k))
          split
          · next hks =>
            have hafter : (if k = 0 then slotAt cx.byLast (cx.size c) s.numSlots
                else slotAt cx.byLast (cx.size c) (slotNext (cx.size c) s.numSlots)) < slotsAfter cx c s.numSlots sc := by
              cases sc with
              | zero => omega
              | succ sc =>
                cases sc with
                | zero =>
                  rw [if_pos (by omega)]
                  exact a2
                | succ sc =>
                  cases sc with
                  | zero =>
                    show _ < slotNext (cx.size c) (slotNext (cx.size c) s.numSlots)
                    split <;> omega
                  | succ sc => omega
            refine ⟨?_, by omega, .inl hafter⟩
            split <;> omega
          · exact ⟨by omega, by omega, .inr (by omega)⟩
        have hgne : g 0 ≠ g 1 := by
          show (if 0 < sc then _ else slotBound + 0) ≠ (if 1 < sc then _ else slotBound + 1)
          have h0 := hg 0 (by omega)
          by_cases c1 : 1 < sc
          · rw [if_pos c1, if_pos (by omega), if_pos rfl, if_neg (by omega)]
            omega
          · rw [if_neg c1]
            by_cases c0 : 0 < sc
            · rw [if_pos c0, if_pos rfl]
              have : sc = 1 := by omega
              subst this
              have hle : slotNext (cx.size c) s.numSlots ≤ slotBound := hle
              omega
            · rw [if_neg c0]; omega
        have hcomp : Moves.compute? e' mv = some ms := by
          rw [← hms]
          refine compute_congr e e' mv rfl rfl rfl ?_
          intro k hk
          rw [hsc] at hk
          show stk (if k < sc then _ else _) = _
          rw [if_pos hk, ← hee]
          unfold resolverEnv
          dsimp only
          split <;> rfl
        have hfr : ∀ k, e'.findReg k = ((if k = 0 then an.r1 else an.r2).getD none).map Allocation.reg := by
          intro k
          show e.findReg k = _
          rw [← hee]
          rfl
        have hst : e'.isStack = cx.isStack := by show e.isStack = _; rw [← hee]; rfl
        have hbo : e'.borrowed = cx.victim c := by show e.borrowed = _; rw [← hee]; rfl
        have hfr' : ∀ k r, e'.findReg k = some r → ∃ p, r = Allocation.reg p ∧
            ((k = 0 ∧ an.r1 = some (some p)) ∨ (k ≠ 0 ∧ an.r2 = some (some p))) := by
          intro k r hr
          rw [hfr] at hr
          by_cases hk : k = 0
          · rw [if_pos hk] at hr
            cases hx : an.r1 with
            | none => rw [hx] at hr; cases hr
            | some y =>
              rw [hx] at hr
              cases y with
              | none => cases hr
              | some p => exact ⟨p, (Option.some.inj hr).symm, .inl ⟨hk, rfl⟩⟩
          · rw [if_neg hk] at hr
            cases hx : an.r2 with
            | none => rw [hx] at hr; cases hr
            | some y =>
              rw [hx] at hr
              cases y with
              | none => cases hr
              | some p => exact ⟨p, (Option.some.inj hr).symm, .inr ⟨hk, rfl⟩⟩
        have hfree : ∀ k r, e'.findReg k = some r → ∃ p, r = Allocation.reg p ∧ (∀ w, s.alloc w ≠ Allocation.reg p) ∧
            cx.isStack (Allocation.reg p) = false := by
          intro k r hr
          obtain ⟨p, hp, hq⟩ := hfr' k r hr
          refine ⟨p, hp, ?_⟩
          rcases hq with ⟨_, hq⟩ | ⟨_, hq⟩
          · exact hr1 p hq
          · obtain ⟨q1, q2⟩ := hr2 p hq
            exact ⟨(hav p (hav1 p q2)).2, he.isStack_reg q1⟩
        have hok : e'.Ok (pm c) := by
          refine ⟨?_, ?_, ?_, ?_, ?_⟩
          · intro k _ r hr
            obtain ⟨p, rfl, _, q⟩ := hfree k r hr
            refine ⟨by rw [hst]; exact q, isNone_reg p, ?_⟩
            rintro ⟨m, hmm, hx⟩
            obtain ⟨v, w, nv, nw, hv, hw, e1, e2⟩ := hm m hmm
            rcases hx with hx | hx
            · rw [e1] at hx; exact reg_ne_stk (I.slot29 hv) hx.symm
            · rw [e2] at hx; exact reg_ne_stk (I.slot29 hw) hx.symm
          · rintro r ⟨h0, h1⟩
            obtain ⟨p, hp, hq⟩ := hfr' 0 r h0
            obtain ⟨p', hp', hq'⟩ := hfr' 1 r h1
            rw [hp] at hp'
            cases reg_inj hp'
            rcases hq with ⟨_, hq⟩ | ⟨hq, _⟩
            · rcases hq' with ⟨hq', _⟩ | ⟨_, hq'⟩
              · omega
              · exact hr12 p hq hq'
            · exact hq rfl
          · intro k hk
            obtain ⟨h1, h2, h3⟩ := hg k hk
            refine ⟨by rw [hst]; exact isStack_stk cx h2, isNone_stk h2, ?_⟩
            rintro ⟨m, hmm, hx⟩
            obtain ⟨v, w, nv, nw, hv, hw, e1, e2⟩ := hm m hmm
            rcases hx with hx | hx
            · rw [e1] at hx
              have := stk_inj (I.slot29 hv) h2 hx
              have := I.slotLt _ _ hv
              omega
            · rw [e2] at hx
              have := stk_inj (I.slot29 hw) h2 hx
              have := I.slotLt _ _ hw
              omega
          · intro hx
            exact hgne (stk_inj (hg 0 (by omega)).2.1 (hg 1 (by omega)).2.1 hx)
          · rw [hst, hbo]
            unfold Cx.victim
            cases hmx : (cx.regs c).maxPreg with
            | none =>
              rw [Option.getD_none, isStack_reg]
              cases hf : cx.fixedStack.contains PReg.invalid with
              | false => rfl
              | true => exact absurd ((fixedStack_iff cx _).mp hf) he.invalid
            | some p =>
              rw [Option.getD_some]
              have hp : p ∈ (cx.regs c).toList := List.mem_of_getLast? hmx
              exact he.isStack_reg ((mem_toList _ _).mp hp)
        have hreal : Moves.RealLocs (pm c) := by
          intro m hmm
          obtain ⟨v, w, nv, nw, hv, hw, e1, e2⟩ := hm m hmm
          rw [e1, e2]
          exact ⟨isNone_stk (I.slot29 hv), isNone_stk (I.slot29 hw)⟩
        obtain ⟨r, out, hr, hout, _, hC3⟩ := Moves.C03_scratch_resolver (pm c) e' hu hreal hok
        rw [hmv] at hr; cases hr
        rw [hcomp] at hout; cases hout
        rw [h]
        refine ⟨⟨I.alloc, I.inAvail, I.inReg, I.inLive, I.noReg, I.inC, I.inCls, ?_, I.slotInj, hle, I.live, I.lru⟩,
          rfl, hge, ?_, ms.map (fun m => (⟨m.src, m.dst⟩ : Edit)), ?_, ?_⟩
        · intro v n hv
          have := I.slotLt v n hv
          show n < slotsAfter cx c s.numSlots sc
          omega
        · intro p hp
          dsimp only at hp
          split at hp
          · exact hp
          · split at hp
            · exact hav1 p hp
            · exact hav2 p hp
        · rw [List.map_map]; rfl
        · intro Val A
          rw [execE_moves]
          obtain ⟨q1, q2⟩ := hC3 A
          refine ⟨q1, ?_⟩
          intro l hl hun
          refine q2 l hl ?_
          rintro ⟨k, hk, ho | ho⟩
          · obtain ⟨p, hp, hq, _⟩ := hfree k l ho
            rcases hun with ⟨p', w, hp', hw⟩ | ⟨n, hn, hb, _⟩
            · rw [hp] at hp'; cases reg_inj hp'; exact hq w hw
            · rw [hp] at hn
              unfold slotBound at hb
              exact reg_ne_stk (by omega) hn
          · obtain ⟨h1, h2, h3⟩ := hg k hk
            have ho : stk (g k) = l := ho
            rcases hun with ⟨p', w, hp', hw⟩ | ⟨n, hn, hb, hh⟩
            · rw [← ho] at hp'; exact reg_ne_stk h2 hp'.symm
            · rw [← ho] at hn
              have hb' := hb
              unfold slotBound at hb'
              have := stk_inj h2 (by omega) hn
              dsimp only at hh
              omega

end

end Fast
end Regalloc
