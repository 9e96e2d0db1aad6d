import Verif.Spec.InsertedMoves
import Verif.Props.Moves
import Verif.Props.RegTraversal
import Verif.Props.Encodings
import Verif.Proofs.RangeMap
import Verif.Proofs.SpillSlots

namespace Regalloc

namespace Moves

variable {T : Type}

/-- Rename the locations of a move. -/
def ren (ρ : Allocation → Allocation) (m : Move T) : Move T := ⟨ρ m.src, ρ m.dst, m.t⟩

/-- The raw moves of a result. -/
def raw : MoveVecWithScratch T → List (Move T)
  | .NoScratch l => l
  | .Scratch l => l

theorem expand_rename [Inhabited T] (e : ScratchEnv) (g : Nat → Allocation) (ρ : Allocation → Allocation) {x : Allocation} (sv : Option Allocation)
    (hst : ∀ a, e.isStack (ρ a) = e.isStack a) (hx : ρ x = x) (hx' : ∀ a, ρ a = x → a = x) (L : List (Move T)) :
    ∀ (d s : Bool), expand { e with getSlot := g } x (sv.map ρ) (L.map (ren ρ)) d s = (expand e x sv L d s).map (List.map (ren ρ)) := by
  induction L with
  | nil =>
    intro d s
    cases sv with
    | none => simp [expand]
    | some v => cases d <;> simp [expand, ren, hx]
  | cons m L ih =>
    intro d s
    have hs2 : ScratchEnv.isS2S { e with getSlot := g } (ren ρ m) = e.isS2S m := by
      simp [ScratchEnv.isS2S, ren, hst]
    have e1 : (ren ρ m).src = x ↔ m.src = x := ⟨fun h => hx' _ h, fun h => by simp [ren, h, hx]⟩
    have e2 : (ren ρ m).dst = x ↔ m.dst = x := ⟨fun h => hx' _ h, fun h => by simp [ren, h, hx]⟩
    rw [List.map_cons]
    unfold expand
    rw [hs2]
    by_cases h2 : e.isS2S m = true
    · rw [if_pos h2, if_pos h2]
      cases sv with
      | none =>
        simp only [Option.map_none]
        have := ih true s
        simp only [Option.map_none] at this
        rw [this]
        cases expand e x none L true s <;> simp [ren, hx]
      | some v =>
        simp only [Option.map_some]
        cases s with
        | true =>
          have := ih true false
          simp only [Option.map_some] at this
          simp only [if_true]
          rw [this]
          cases expand e x (some v) L true false <;> simp [ren, hx]
        | false =>
          have := ih true false
          simp only [Option.map_some] at this
          simp only [Bool.false_eq_true, if_false]
          rw [this]
          cases expand e x (some v) L true false <;> simp [ren, hx]
    · rw [if_neg h2, if_neg h2]
      simp only [e1, e2]
      by_cases h3 : m.src = x ∧ d = true
      · rw [if_pos h3, if_pos h3]
        cases sv with
        | none => simp
        | some v =>
          simp only [Option.map_some]
          by_cases h4 : m.dst = x
          · simp only [h4, if_true]
            have := ih false true
            simp only [Option.map_some] at this
            rw [this]
            cases expand e x (some v) L false true <;> simp [ren, hx]
          · simp only [h4, if_false]
            have := ih false s
            simp only [Option.map_some] at this
            rw [this]
            cases expand e x (some v) L false s <;> simp [ren, hx]
      · rw [if_neg h3, if_neg h3]
        by_cases h4 : m.dst = x
        · simp only [h4, if_true]
          rw [ih false true]
          cases expand e x sv L false true <;> simp
        · simp only [h4, if_false]
          rw [ih d s]
          cases expand e x sv L d s <;> simp

theorem withScratch_rename (ρ : Allocation → Allocation) (mv : MoveVecWithScratch T) (sc : Allocation)
    (hmv : ∀ m ∈ raw mv, ρ m.src = m.src ∧ ρ m.dst = m.dst) :
    withScratch (ρ sc) mv = (withScratch sc mv).map (ren ρ) := by
  cases mv with
  | NoScratch l =>
    simp only [withScratch]
    rw [List.map_congr_left (g := id), List.map_id]
    intro m hm
    have := hmv m hm
    simp [ren, this]
  | Scratch l =>
    simp only [withScratch, List.map_map]
    apply List.map_congr_left
    intro m hm
    have := hmv m hm
    simp only [fillScratch, ren, Function.comp]
    congr 1
    · split <;> simp [this]
    · split <;> simp [this]

theorem any_rename (e : ScratchEnv) (ρ : Allocation → Allocation) (hst : ∀ a, e.isStack (ρ a) = e.isStack a) (L : List (Move T)) :
    (L.map (ren ρ)).any e.isS2S = L.any e.isS2S := by
  rw [List.any_map]
  congr 1
  funext m
  simp [ScratchEnv.isS2S, ren, hst]

/-- Renaming the stack slots offered renames the result. -/
theorem compute_rename [Inhabited T] (e : ScratchEnv) (ρ : Allocation → Allocation) (mv : MoveVecWithScratch T)
    (hst : ∀ a, e.isStack (ρ a) = e.isStack a)
    (hfix : ∀ i r, e.findReg i = some r → ρ r = r ∧ ∀ a, ρ a = r → a = r)
    (hb : ρ (Allocation.reg e.borrowed) = Allocation.reg e.borrowed ∧
      ∀ a, ρ a = Allocation.reg e.borrowed → a = Allocation.reg e.borrowed)
    (hn : ρ Allocation.none = Allocation.none)
    (hmv : ∀ m ∈ raw mv, ρ m.src = m.src ∧ ρ m.dst = m.dst) :
    compute? { e with getSlot := fun i => ρ (e.getSlot i) } mv = (compute? e mv).map (List.map (ren ρ)) := by
  have key : ∀ (L : List (Move T)) (fc sc : Nat),
      (if !((L.map (ren ρ)).any (ScratchEnv.isS2S { e with getSlot := fun i => ρ (e.getSlot i) })) then some (L.map (ren ρ))
        else match e.findReg fc with
          | some r => expand { e with getSlot := fun i => ρ (e.getSlot i) } r none (L.map (ren ρ)) false true
          | none => expand { e with getSlot := fun i => ρ (e.getSlot i) } (Allocation.reg e.borrowed) (some (ρ (e.getSlot sc)))
              (L.map (ren ρ)) false true) =
      ((if !(L.any e.isS2S) then some L
        else match e.findReg fc with
          | some r => expand e r none L false true
          | none => expand e (Allocation.reg e.borrowed) (some (e.getSlot sc)) L false true)).map (List.map (ren ρ)) := by
    intro L fc sc
    have ha : (L.map (ren ρ)).any (ScratchEnv.isS2S { e with getSlot := fun i => ρ (e.getSlot i) }) = L.any e.isS2S :=
      any_rename { e with getSlot := fun i => ρ (e.getSlot i) } ρ hst L
    rw [ha]
    by_cases h : L.any e.isS2S = true
    · simp only [h, Bool.not_true, Bool.false_eq_true, if_false]
      cases hf : e.findReg fc with
      | some r => exact expand_rename e _ ρ none hst (hfix fc r hf).1 (hfix fc r hf).2 L false true
      | none => exact expand_rename e _ ρ (some (e.getSlot sc)) hst hb.1 hb.2 L false true
    · simp only [h, Bool.not_false, if_true, Option.map_some]
  unfold compute?
  by_cases hs : needsScratch mv = true
  · simp only [hs, if_true]
    cases hf : e.findReg 0 with
    | some r =>
      simp only
      have := withScratch_rename ρ mv r hmv
      rw [(hfix 0 r hf).1] at this
      have h1 := key (withScratch r mv) 1 0
      rw [← this] at h1
      exact h1
    | none =>
      simp only
      rw [withScratch_rename ρ mv (e.getSlot 0) hmv]
      exact key (withScratch (e.getSlot 0) mv) 1 1
  · simp only [hs, Bool.false_eq_true, if_false]
    have := withScratch_rename ρ mv Allocation.none hmv
    rw [hn] at this
    have h1 := key (withScratch Allocation.none mv) 0 0
    rw [← this] at h1
    exact h1

theorem expand_locs [Inhabited T] (e : ScratchEnv) (P : Allocation → Prop) {x : Allocation} {sv : Option Allocation} (hx : P x)
    (hsv : ∀ s, sv = some s → P s) (L : List (Move T)) :
    ∀ (d s : Bool) (out : List (Move T)), (∀ m ∈ L, P m.src ∧ P m.dst) → expand e x sv L d s = some out →
      ∀ m ∈ out, P m.src ∧ P m.dst := by
  induction L with
  | nil =>
    intro d s out _ h
    unfold expand at h
    split at h
    · split at h
      · simp only [Option.some.injEq] at h
        subst h
        intro m hm
        simp only [List.mem_singleton] at hm
        subst hm
        exact ⟨hsv _ rfl, hx⟩
      · simp only [Option.some.injEq] at h
        subst h; simp
    · simp only [Option.some.injEq] at h
      subst h; simp
  | cons m L ih =>
    intro d s out hL h
    have hm := hL m (by simp)
    have hL' : ∀ m ∈ L, P m.src ∧ P m.dst := fun a ha => hL a (List.mem_cons_of_mem _ ha)
    unfold expand at h
    by_cases h2 : e.isS2S m = true
    · rw [if_pos h2] at h
      simp only at h
      split at h
      · simp at h
      · rename_i r hr
        simp only [Option.some.injEq] at h
        subst h
        have := ih _ _ _ hL' hr
        intro a ha
        simp only [List.mem_append, List.mem_cons] at ha
        rcases ha with ha | rfl | rfl | ha
        · split at ha
          · rename_i v
            split at ha
            · simp only [List.mem_singleton] at ha
              subst ha
              exact ⟨hx, hsv _ rfl⟩
            · simp at ha
          · simp at ha
        · exact ⟨hm.1, hx⟩
        · exact ⟨hx, hm.2⟩
        · exact this a ha
    · rw [if_neg h2] at h
      simp only at h
      split at h
      · simp at h
      · rename_i pre d' hpre
        split at h
        · simp at h
        · rename_i r hr
          simp only [Option.some.injEq] at h
          subst h
          have := ih _ _ _ hL' hr
          intro a ha
          simp only [List.mem_append, List.mem_cons] at ha
          rcases ha with ha | rfl | ha
          · split at hpre
            · split at hpre
              · simp at hpre
              · simp only [Option.some.injEq, Prod.mk.injEq] at hpre
                obtain ⟨rfl, _⟩ := hpre
                simp only [List.mem_singleton] at ha
                subst ha
                exact ⟨hsv _ rfl, hx⟩
            · simp only [Option.some.injEq, Prod.mk.injEq] at hpre
              obtain ⟨rfl, _⟩ := hpre
              simp at ha
          · exact hm
          · exact this a ha

theorem withScratch_locs (P : Allocation → Prop) (mv : MoveVecWithScratch T) (sc : Allocation) (hsc : needsScratch mv = true → P sc)
    (hmv : ∀ m ∈ raw mv, (m.src.isNone = false ∨ needsScratch mv = false → P m.src) ∧ (m.dst.isNone = false ∨ needsScratch mv = false → P m.dst)) :
    ∀ m ∈ withScratch sc mv, P m.src ∧ P m.dst := by
  cases mv with
  | NoScratch l =>
    intro m hm
    exact ⟨(hmv m hm).1 (.inr rfl), (hmv m hm).2 (.inr rfl)⟩
  | Scratch l =>
    intro m hm
    simp only [withScratch, List.mem_map] at hm
    obtain ⟨a, ha, rfl⟩ := hm
    have := hmv a ha
    simp only [fillScratch]
    constructor
    · split
      · exact hsc rfl
      · rename_i h; exact this.1 (.inl (by simpa using h))
    · split
      · exact hsc rfl
      · rename_i h; exact this.2 (.inl (by simpa using h))

end Moves

namespace ResolveMoves

open Moves

theorem compute_locs (e : ScratchEnv) (P : Allocation → Prop) (mv : MoveVecWithScratch (Option VReg))
    (hf : ∀ i r, e.findReg i = some r → P r) (hb : P (Allocation.reg e.borrowed))
    (hs : ∀ i < slotsUsed e mv, P (e.getSlot i))
    (hmv : ∀ m ∈ raw mv, (m.src.isNone = false ∨ needsScratch mv = false → P m.src) ∧ (m.dst.isNone = false ∨ needsScratch mv = false → P m.dst))
    (out : List (Move (Option VReg))) (h : compute? e mv = some out) : ∀ m ∈ out, P m.src ∧ P m.dst := by
  have key : ∀ (L : List (Move (Option VReg))) (fc sc : Nat), (∀ m ∈ L, P m.src ∧ P m.dst) →
      (L.any e.isS2S = true → e.findReg fc = none → P (e.getSlot sc)) →
      ((if !(L.any e.isS2S) then some L
        else match e.findReg fc with
          | some r => expand e r none L false true
          | none => expand e (Allocation.reg e.borrowed) (some (e.getSlot sc)) L false true)) = some out →
      ∀ m ∈ out, P m.src ∧ P m.dst := by
    intro L fc sc hL hsl h
    by_cases ha : L.any e.isS2S = true
    · simp only [ha, Bool.not_true, Bool.false_eq_true, if_false] at h
      split at h
      · rename_i r hr
        exact expand_locs e P (hf _ _ hr) (by simp) L _ _ _ hL h
      · rename_i hr
        exact expand_locs e P hb (by
          intro s hs
          simp only [Option.some.injEq] at hs
          subst hs
          exact hsl ha hr) L _ _ _ hL h
    · simp only [ha, Bool.not_false, if_true, Option.some.injEq] at h
      subst h
      exact hL
  unfold compute? at h
  unfold slotsUsed at hs
  by_cases hns : needsScratch mv = true
  · simp only [hns, if_true] at h hs
    cases h0 : e.findReg 0 with
    | some r =>
      simp only [h0] at h hs
      refine key _ 1 0 (withScratch_locs P mv r (fun _ => hf _ _ h0) hmv) ?_ h
      intro ha hr
      apply hs
      simp [ha, hr]
    | none =>
      simp only [h0] at h hs
      refine key _ 1 1 (withScratch_locs P mv _ (fun _ => ?_) hmv) ?_ h
      · apply hs
        split
        · omega
        · split <;> omega
      · intro ha hr
        apply hs
        simp [ha, hr]
  · simp only [hns, Bool.false_eq_true, if_false] at h hs
    refine key _ 0 0 (withScratch_locs P mv _ (fun h => absurd h hns) hmv) ?_ h
    intro ha hr
    apply hs
    simp [ha, hr]

theorem slotsUsed_le (e : ScratchEnv) (mv : MoveVecWithScratch (Option VReg)) : slotsUsed e mv ≤ 2 := by
  unfold slotsUsed
  split
  rename_i moves fc sc heq
  have hsc : sc ≤ 1 := by
    split at heq
    · split at heq
      · simp only [Prod.mk.injEq] at heq; omega
      · simp only [Prod.mk.injEq] at heq; omega
    · simp only [Prod.mk.injEq] at heq; omega
  split
  · omega
  · split <;> omega

/-! ### Extra slots -/

/-- Words that the extra slots may take in total. -/
def extraWords (e : MoveEnv) (s : Slots) : Nat :=
  (s.extra .Int).length * (e.size .Int).toNat + (s.extra .Float).length * (e.size .Float).toNat +
    (s.extra .Vector).length * (e.size .Vector).toNat

/-- The extra slots lie beyond `num0` and below the count, and take different words. -/
structure SlotInv (e : MoveEnv) (num0 : Nat) (s : Slots) : Prop where
  len : ∀ c, (s.extra c).length ≤ 2
  ge : num0 ≤ s.num.toNat
  bound : s.num.toNat ≤ num0 + 2 * extraWords e s
  word : ∀ c a, a ∈ s.extra c → ∃ sl, a = Allocation.stack sl ∧ sl = SpillSlot.new sl.index ∧ sl.index ≤ SpillSlot.MAX ∧
    num0 ≤ Spill.firstWord e.byLast sl.index (e.size c).toNat ∧
    Spill.firstWord e.byLast sl.index (e.size c).toNat + (e.size c).toNat ≤ s.num.toNat ∧
    Spill.Occupies e.byLast sl.index (e.size c).toNat sl.index
  apart : ∀ c d (i j : Nat) sl tl, ¬ (c = d ∧ i = j) → (s.extra c)[i]? = some (Allocation.stack sl) →
    sl = SpillSlot.new sl.index → sl.index ≤ SpillSlot.MAX → (s.extra d)[j]? = some (Allocation.stack tl) →
    tl = SpillSlot.new tl.index → tl.index ≤ SpillSlot.MAX →
    ∀ w, ¬ (Spill.Occupies e.byLast sl.index (e.size c).toNat w ∧ Spill.Occupies e.byLast tl.index (e.size d).toNat w)

theorem stack_inj {s t : SpillSlot} (hs : s = SpillSlot.new s.index) (hs' : s.index ≤ SpillSlot.MAX) (ht : t = SpillSlot.new t.index)
    (ht' : t.index ≤ SpillSlot.MAX) (h : Allocation.stack s = Allocation.stack t) : s = t := by
  have h1 := (C05_alloc_stack s.index hs')
  have h2 := (C05_alloc_stack t.index ht')
  rw [← hs] at h1
  rw [← ht, ← h] at h2
  grind

theorem extraWords_le {e : MoveEnv} {s : Slots} (h : ∀ c, (s.extra c).length ≤ 2) (cls : RegClass) (hc : (s.extra cls).length ≤ 1) :
    extraWords e s + (e.size cls).toNat ≤ 2 * ((e.size .Int).toNat + (e.size .Float).toNat + (e.size .Vector).toNat) := by
  unfold extraWords
  have h1 := Nat.mul_le_mul_right (e.size .Int).toNat (h .Int)
  have h2 := Nat.mul_le_mul_right (e.size .Float).toNat (h .Float)
  have h3 := Nat.mul_le_mul_right (e.size .Vector).toNat (h .Vector)
  have h4 := Nat.mul_le_mul_right (e.size cls).toNat hc
  cases cls <;> omega

theorem extraWords_le' {e : MoveEnv} {s : Slots} (h : ∀ c, (s.extra c).length ≤ 2) :
    extraWords e s ≤ 2 * ((e.size .Int).toNat + (e.size .Float).toNat + (e.size .Vector).toNat) := by
  unfold extraWords
  have h1 := Nat.mul_le_mul_right (e.size .Int).toNat (h .Int)
  have h2 := Nat.mul_le_mul_right (e.size .Float).toNat (h .Float)
  have h3 := Nat.mul_le_mul_right (e.size .Vector).toNat (h .Vector)
  omega

/-- One more extra slot. -/
theorem extend_spec {e : MoveEnv} (hsz : ∀ c, Spill.Pow2 (e.size c).toNat) {num0 : Nat} (hroom : Room e num0) {s : Slots} (inv : SlotInv e num0 s) (cls : RegClass)
    (hc : (s.extra cls).length ≤ 1) :
    ∃ slot num, Spill.allocSlot e.byLast s.num (e.size cls) = some (slot, num) ∧ s.num.toNat ≤ num.toNat ∧
      SlotInv e num0 ⟨num, fun c => if c = cls then s.extra c ++ [Allocation.stack slot] else s.extra c⟩ := by
  have hw := extraWords_le (e := e) inv.len cls hc
  have hb := inv.bound
  unfold Room at hroom
  have hsome := Spill.allocSlot_isSome (byLast := e.byLast) (num := s.num) (hsz cls) (by omega)
  obtain ⟨⟨slot, num⟩, hal⟩ := Option.isSome_iff_exists.mp hsome
  refine ⟨slot, num, hal, ?_⟩
  obtain ⟨hp, a, ha1, ha2, ha3, ha4, ha5, ha6, ha7⟩ := Spill.allocSlot_spec hal
  have hpos := Spill.pow2_pos hp
  have hfw := Spill.firstWord_alloc hpos ha4
  have hocc : Spill.Occupies e.byLast slot.index (e.size cls).toNat slot.index := by
    unfold Spill.Occupies
    rw [hfw, ha4]
    split <;> omega
  have hge := inv.ge
  refine ⟨by omega, ?_, ?_, ?_, ?_, ?_⟩
  · intro c
    have := inv.len c
    simp only
    split
    · rename_i h; subst h; simp; omega
    · exact this
  · simp only; omega
  · have : extraWords e ⟨num, fun c => if c = cls then s.extra c ++ [Allocation.stack slot] else s.extra c⟩ = extraWords e s + (e.size cls).toNat := by
      unfold extraWords
      cases cls <;> simp [Nat.add_mul] <;> omega
    rw [this]
    simp only
    omega
  · intro c b hb
    simp only at hb ⊢
    split at hb
    · rename_i h
      subst h
      rcases List.mem_append.mp hb with hb | hb
      · obtain ⟨sl, g1, g2, g3, g4, g5, g6⟩ := inv.word c b hb
        exact ⟨sl, g1, g2, g3, g4, by omega, g6⟩
      · simp only [List.mem_singleton] at hb
        exact ⟨slot, hb, ha6, ha7, by omega, by omega, hocc⟩
    · obtain ⟨sl, g1, g2, g3, g4, g5, g6⟩ := inv.word c b hb
      exact ⟨sl, g1, g2, g3, g4, by omega, g6⟩
  · -- an old slot lies below the new one
    have old : ∀ c (i : Nat) sl, (s.extra c)[i]? = some (Allocation.stack sl) → sl = SpillSlot.new sl.index → sl.index ≤ SpillSlot.MAX →
        Spill.firstWord e.byLast sl.index (e.size c).toNat + (e.size c).toNat ≤ s.num.toNat := by
      intro c i sl h1 h2 h3
      obtain ⟨tl, g1, g2, g3, g4, g5, g6⟩ := inv.word c _ (List.mem_of_getElem? h1)
      have := stack_inj h2 h3 g2 g3 g1
      subst this
      exact g5
    have pick : ∀ c (i : Nat) sl, (if c = cls then s.extra c ++ [Allocation.stack slot] else s.extra c)[i]? = some (Allocation.stack sl) →
        sl = SpillSlot.new sl.index → sl.index ≤ SpillSlot.MAX →
        (s.extra c)[i]? = some (Allocation.stack sl) ∨ (c = cls ∧ i = (s.extra cls).length ∧ sl = slot) := by
      intro c i sl h1 h2 h3
      split at h1
      · rename_i h
        subst h
        rw [List.getElem?_append] at h1
        split at h1
        · exact .inl h1
        · rename_i hlt
          have : i - (s.extra c).length = 0 := by
            have := (List.getElem?_eq_some_iff.mp h1).1
            simp at this
            omega
          rw [this] at h1
          simp only [List.getElem?_cons_zero, Option.some.injEq] at h1
          exact .inr ⟨rfl, by omega, (stack_inj ha6 ha7 h2 h3 h1).symm⟩
      · exact .inl h1
    intro c d i j sl tl hne h1 h2 h3 h4 h5 h6 w
    simp only at h1 h4
    rcases pick c i sl h1 h2 h3 with k1 | ⟨rfl, rfl, rfl⟩
    · rcases pick d j tl h4 h5 h6 with k4 | ⟨rfl, rfl, rfl⟩
      · exact inv.apart c d i j sl tl hne k1 h2 h3 k4 h5 h6 w
      · have := old c i sl k1 h2 h3
        unfold Spill.Occupies
        omega
    · rcases pick d j tl h4 h5 h6 with k4 | ⟨rfl, rfl, rfl⟩
      · have := old d j tl k4 h5 h6
        unfold Spill.Occupies
        omega
      · exact absurd ⟨rfl, rfl⟩ hne

theorem ensureExtra_spec {e : MoveEnv} (hsz : ∀ c, Spill.Pow2 (e.size c).toNat) {num0 : Nat} (hroom : Room e num0) (cls : RegClass) (n : Nat) (hn : n ≤ 2) :
    ∀ {s : Slots}, SlotInv e num0 s → ∃ s', ensureExtra e cls n s = some s' ∧ SlotInv e num0 s' ∧
      n ≤ (s'.extra cls).length ∧ s.num.toNat ≤ s'.num.toNat := by
  induction n with
  | zero => intro s inv; exact ⟨s, rfl, inv, by omega, by omega⟩
  | succ n ih =>
    intro s inv
    obtain ⟨s1, h1, h2, h3, h4⟩ := ih (by omega) inv
    simp only [ensureExtra, h1]
    by_cases hge : n ≥ (s1.extra cls).length
    · rw [if_pos hge]
      obtain ⟨slot, num, k1, k2, k3⟩ := extend_spec hsz hroom h2 cls (by omega)
      rw [k1]
      refine ⟨_, rfl, k3, ?_, ?_⟩
      · simp; omega
      · simp only; omega
    · rw [if_neg hge]
      exact ⟨s1, rfl, h2, by omega, by omega⟩

/-! ### One class -/

theorem max_eq : SpillSlot.MAX = 2 ^ 24 - 1 := by decide

theorem placeholder_asStack (i : Nat) : (placeholder i).asStack = some (SpillSlot.new (SpillSlot.MAX - i)) :=
  (C05_alloc_stack _ (Nat.sub_le _ _)).2.1

theorem placeholder_inj {i j : Nat} (hi : i < 2) (hj : j < 2) (h : placeholder i = placeholder j) : i = j := by
  have := C05_alloc_injective.2.1 _ _ (Nat.sub_le _ _) (Nat.sub_le _ _) h
  have := max_eq
  omega

theorem rewrite_placeholder {extra : List Allocation} {used i : Nat} (hu : used ≤ 2) (hl : used ≤ extra.length) (hi : i < used) :
    rewrite extra used (placeholder i) = extra[i]'(by omega) := by
  unfold rewrite
  cases hf : (List.range used).find? (fun j => decide (placeholder j = placeholder i)) with
  | none =>
    rw [List.find?_eq_none] at hf
    have := hf i (by simpa using hi)
    simp at this
  | some j =>
    have h1 := List.find?_some hf
    have h2 := List.mem_of_find?_eq_some hf
    simp only [decide_eq_true_eq] at h1
    simp only [List.mem_range] at h2
    have := placeholder_inj (by omega) (by omega) h1
    subst this
    simp [show j < extra.length by omega]

theorem rewrite_other {extra : List Allocation} {used : Nat} {a : Allocation} (h : ∀ i < used, placeholder i ≠ a) : rewrite extra used a = a := by
  unfold rewrite
  cases hf : (List.range used).find? (fun j => decide (placeholder j = a)) with
  | none => rfl
  | some j =>
    have h1 := List.find?_some hf
    have h2 := List.mem_of_find?_eq_some hf
    simp only [decide_eq_true_eq] at h1
    simp only [List.mem_range] at h2
    exact absurd h1 (h j h2)

theorem reg_ne_placeholder (p : PReg) (i : Nat) : placeholder i ≠ Allocation.reg p :=
  fun h => C05_alloc_injective.2.2.1 p _ (Nat.sub_le _ _) h.symm

/-- The moves of a class. -/
def ofClass (ms : List InsertedMove) (c : RegClass) : List InsertedMove := ms.filter fun m => decide (m.vreg.class? = some c)

theorem mem_ofClass {ms : List InsertedMove} {c : RegClass} {m : InsertedMove} : m ∈ ofClass ms c ↔ m ∈ ms ∧ m.vreg.class? = some c := by
  simp [ofClass]

/-- As moves of the resolver. -/
def asMoves (ms : List InsertedMove) : List (Move (Option VReg)) := ms.map fun m => ⟨m.src, m.dst, some m.vreg⟩

theorem mentions_asMoves {ms : List InsertedMove} {a : Allocation} : Mentions (asMoves ms) a ↔ Touches ms a := by
  unfold Mentions Touches asMoves
  constructor
  · rintro ⟨m, hm, h⟩
    obtain ⟨b, hb, rfl⟩ := List.mem_map.mp hm
    exact ⟨b, hb, h⟩
  · rintro ⟨m, hm, h⟩
    exact ⟨_, List.mem_map.mpr ⟨m, hm, rfl⟩, h⟩

theorem mentions_iff {ms : List InsertedMove} {a : Allocation} : mentions ms a = true ↔ Touches ms a := by
  unfold mentions Touches
  simp [List.any_eq_true]

theorem touches_ofClass {ms : List InsertedMove} {c : RegClass} {a : Allocation} (h : Touches (ofClass ms c) a) : Touches ms a := by
  obtain ⟨m, hm, h⟩ := h
  exact ⟨m, (mem_ofClass.mp hm).1, h⟩

theorem isStack_reg (e : MoveEnv) (p : PReg) : e.isStack (Allocation.reg p) = e.isStackReg p := by
  unfold MoveEnv.isStack
  rw [(C05_alloc_reg p).2.1]

theorem isStack_slot (e : MoveEnv) {n : Nat} (h : n ≤ SpillSlot.MAX) : e.isStack (Allocation.stack (SpillSlot.new n)) = true := by
  unfold MoveEnv.isStack
  rw [(C05_alloc_stack n h).2.2.1, (C05_alloc_stack n h).2.2.2.1]

/-- Every answer of `find_free_reg`. -/
theorem mem_freeRegs {e : MoveEnv} (M : MachineOk e) {cls : RegClass} {pos : Nat} {cms : List InsertedMove} {a : Allocation}
    (h : a ∈ freeRegs e cls pos cms) :
    ∃ p, a = Allocation.reg p ∧ p.class? = some cls ∧ e.isStackReg p = false ∧ (e.machine.scratch cls = some p ∨
      (Allocatable e cls p ∧ (∀ r ∈ e.maps p, ¬ r.1.Covers pos) ∧ ¬ Touches cms a)) := by
  unfold freeRegs at h
  rcases List.mem_append.mp h with h | h
  · simp only [List.mem_map, Option.mem_toList] at h
    obtain ⟨p, hp, rfl⟩ := h
    have := M.scratch_ok cls p hp
    exact ⟨p, rfl, this.1, this.2.1, .inl hp⟩
  · simp only [List.mem_map, List.mem_filter, Bool.and_eq_true, Bool.not_eq_true', Option.isNone_iff_eq_none] at h
    obtain ⟨p, ⟨hp, hfree, hm⟩, rfl⟩ := h
    have hal : Allocatable e cls p := by
      have := (RegTraversalIter.C18_yields e.machine cls none 0 none p).mp hp
      simpa [Allocatable] using this.2
    have := M.alloc_ok cls p hal
    refine ⟨p, rfl, this.1, this.2, .inr ⟨hal, ?_, ?_⟩⟩
    · have hs := rangesSorted_iff.mp (M.maps_ok p)
      have := (RangeMap.find?_spec hs (k := ⟨pos, pos + 1⟩) (by simp)).2 hfree
      intro r hr hc
      apply this r hr
      unfold RKey.Covers at hc
      simp only
      omega
    · rw [← mentions_iff]
      simpa using hm

theorem nodup_freeRegs {e : MoveEnv} (M : MachineOk e) (cls : RegClass) (pos : Nat) (cms : List InsertedMove) :
    (freeRegs e cls pos cms).Nodup := by
  unfold freeRegs
  have hinj : ∀ p q, Allocation.reg p = Allocation.reg q → p = q := C05_alloc_injective.1
  refine List.nodup_append.mpr ⟨?_, ?_, ?_⟩
  · cases e.machine.scratch cls <;> simp
  · apply List.Pairwise.map _ (R := fun a b => a ≠ b)
    · intro a b hab h; exact hab (hinj _ _ h)
    · exact List.Pairwise.filter _ (RegTraversalIter.C18_once e.machine cls none 0 none (M.disjoint cls))
  · intro a ha b hb hab
    simp only [List.mem_map, Option.mem_toList] at ha
    obtain ⟨p, hp, rfl⟩ := ha
    simp only [List.mem_map, List.mem_filter] at hb
    obtain ⟨q, ⟨hq, _⟩, rfl⟩ := hb
    have := hinj _ _ hab
    subst this
    have hal : Allocatable e cls p := by
      have := (RegTraversalIter.C18_yields e.machine cls none 0 none p).mp hq
      simpa [Allocatable] using this.2
    exact (M.scratch_ok cls p hp).2.2 hal

theorem Real.not_none {a : Allocation} (h : Real a) : a.isNone = false := by
  rcases h with h | ⟨p, rfl⟩
  · unfold Allocation.isStack at h
    unfold Allocation.isNone
    rw [beq_iff_eq] at h
    rw [h]; rfl
  · exact (C05_alloc_reg p).2.2.2.2.2

theorem isStack_of_asStack {a : Allocation} {s : SpillSlot} (h : a.asStack = some s) : a.isStack = true := by
  unfold Allocation.asStack at h
  unfold Allocation.isStack
  split at h
  · rename_i h1; rw [h1]; rfl
  · cases h

/-- What one class achieves. -/
structure ClassDone (e : MoveEnv) (num0 num' pos : Nat) (cls : RegClass) (ms : List InsertedMove) (out : List (Move (Option VReg))) : Prop where
  moved : ∀ {V : Type} (σ : Store V), ∀ m ∈ ofClass ms cls, exec σ out m.dst = σ m.src
  kept : ∀ {V : Type} (σ : Store V) l, (∀ m ∈ ofClass ms cls, m.dst ≠ l) → ¬ Spare e num0 pos ms l → exec σ out l = σ l
  noS2S : ∀ m ∈ out, ¬ (e.isStack m.src = true ∧ e.isStack m.dst = true)
  real : ∀ m ∈ out, ∀ a, (a = m.src ∨ a = m.dst) → Real a ∧ ∀ s, a.asStack = some s → s.index < num'

theorem room_bound {e : MoveEnv} {num0 : Nat} (hroom : Room e num0) {s : Slots} (inv : SlotInv e num0 s) : s.num.toNat + 2 ≤ 2 ^ 24 := by
  have := extraWords_le' (e := e) inv.len
  have := inv.bound
  unfold Room at hroom
  omega

theorem extra_facts {e : MoveEnv} {num0 : Nat} {s : Slots} (inv : SlotInv e num0 s) {c : RegClass} {a : Allocation} (h : a ∈ s.extra c) :
    ∃ n, a = Allocation.stack (SpillSlot.new n) ∧ n ≤ SpillSlot.MAX ∧ n < s.num.toNat ∧ num0 ≤ n ∧ (SpillSlot.new n).index = n := by
  obtain ⟨sl, g1, g2, g3, g4, g5, g6⟩ := inv.word c a h
  unfold Spill.Occupies at g6
  refine ⟨sl.index, by rw [g1]; exact congrArg _ g2, g3, by omega, by omega, by rw [← g2]⟩

theorem extra_distinct {e : MoveEnv} {num0 : Nat} {s : Slots} (inv : SlotInv e num0 s) {c : RegClass} {i j : Nat} {a : Allocation}
    (hi : (s.extra c)[i]? = some a) (hj : (s.extra c)[j]? = some a) : i = j := by
  obtain ⟨sl, g1, g2, g3, g4, g5, g6⟩ := inv.word c a (List.mem_of_getElem? hi)
  subst g1
  rcases Nat.decEq i j with h | h
  · exact absurd ⟨g6, g6⟩ (inv.apart c c i j sl sl (by simp [h]) hi g2 g3 hj g2 g3 sl.index)
  · exact h

theorem resolveClass_spec {e : MoveEnv} (M : MachineOk e) {num0 : Nat} (hroom : Room e num0) {s : Slots} (inv : SlotInv e num0 s)
    {ms : List InsertedMove} (G : GroupOk e num0 ms) (cls : RegClass) (pp : PosWithPrio) :
    ∃ out s', resolveClass e cls pp (ofClass ms cls) s = some (out, s') ∧ SlotInv e num0 s' ∧ s.num.toNat ≤ s'.num.toNat ∧
      ClassDone e num0 s'.num.toNat pp.pos.bits.toNat cls ms out := by
  have hM := max_eq
  have hnum0 : num0 + 2 ≤ 2 ^ 24 := by unfold Room at hroom; omega
  have hu : UniqueWriters (asMoves (ofClass ms cls)) := by
    intro m hm m' hm' h
    simp only [asMoves, List.mem_map] at hm hm'
    obtain ⟨a, ha, rfl⟩ := hm
    obtain ⟨b, hb, rfl⟩ := hm'
    have := G.writers a (mem_ofClass.mp ha).1 b (mem_ofClass.mp hb).1 h
    simp only at h
    rw [this.1, this.2, h]
  have hr : RealLocs (asMoves (ofClass ms cls)) := by
    intro m hm
    constructor
    · exact (G.real _ (touches_ofClass (mentions_asMoves.mp ⟨m, hm, .inl rfl⟩))).not_none
    · exact (G.real _ (touches_ofClass (mentions_asMoves.mp ⟨m, hm, .inr rfl⟩))).not_none
  have hnone : ¬ Mentions (asMoves (ofClass ms cls)) Allocation.none := by
    intro h
    have := (G.real _ (touches_ofClass (mentions_asMoves.mp h))).not_none
    rw [none_isNone] at this
    simp at this
  obtain ⟨mv, hres, hR⟩ := resolve_spec (V := Unit) hu hr hnone
  generalize hse : scratchEnv e cls pp.pos.bits.toNat (ofClass ms cls) = se
  obtain ⟨s', hx1, hx2, hx3, hx4⟩ := ensureExtra_spec M.size_ok hroom cls (slotsUsed se mv) (slotsUsed_le se mv) inv
  have hnum' := room_bound hroom hx2
  have hused := slotsUsed_le se mv
  generalize hρ : rewrite (s'.extra cls) (slotsUsed se mv) = ρ
  -- what the renaming does
  have hρp : ∀ i, i < slotsUsed se mv → ∃ n, (s'.extra cls)[i]? = some (Allocation.stack (SpillSlot.new n)) ∧
      ρ (placeholder i) = Allocation.stack (SpillSlot.new n) ∧
      n ≤ SpillSlot.MAX ∧ n < s'.num.toNat ∧ num0 ≤ n ∧ (SpillSlot.new n).index = n := by
    intro i hi
    have h1 := rewrite_placeholder hused hx3 hi
    rw [hρ] at h1
    have hlt : i < (s'.extra cls).length := by omega
    obtain ⟨n, h2, h3⟩ := extra_facts hx2 (List.getElem_mem hlt)
    exact ⟨n, by rw [← h2]; exact List.getElem?_eq_getElem hlt, by rw [h1, h2], h3⟩
  have hρo : ∀ a, (∀ i < slotsUsed se mv, placeholder i ≠ a) → ρ a = a := by
    intro a ha
    rw [← hρ]
    exact rewrite_other ha
  have hρcase : ∀ a, ρ a = a ∨ ∃ i < slotsUsed se mv, a = placeholder i := by
    intro a
    by_cases h : ∃ i < slotsUsed se mv, placeholder i = a
    · obtain ⟨i, hi, h⟩ := h
      exact .inr ⟨i, hi, h.symm⟩
    · exact .inl (hρo a (fun i hi h' => h ⟨i, hi, h'⟩))
  have hregfix : ∀ p, ρ (Allocation.reg p) = Allocation.reg p ∧ ∀ a, ρ a = Allocation.reg p → a = Allocation.reg p := by
    intro p
    refine ⟨hρo _ (fun i _ => reg_ne_placeholder p i), ?_⟩
    intro a ha
    rcases hρcase a with h | ⟨i, hi, rfl⟩
    · rw [← h, ha]
    · obtain ⟨n, _, h1, h2, _⟩ := hρp i hi
      rw [h1] at ha
      exact absurd ha.symm (C05_alloc_injective.2.2.1 p n h2)
  -- what callbacks answer
  have hfind : ∀ i r, se.findReg i = some r → ∃ p, r = Allocation.reg p ∧ p.class? = some cls ∧ e.isStackReg p = false ∧ (e.machine.scratch cls = some p ∨
      (Allocatable e cls p ∧ (∀ r ∈ e.maps p, ¬ r.1.Covers pp.pos.bits.toNat) ∧ ¬ Touches (ofClass ms cls) r)) := by
    intro i r h
    rw [← hse] at h
    exact mem_freeRegs M (List.mem_of_getElem? h)
  have hslot : ∀ i, se.getSlot i = placeholder i := by intro i; rw [← hse]; rfl
  have hisStack : se.isStack = e.isStack := by rw [← hse]; rfl
  have hborrow : se.borrowed = e.victim cls := by rw [← hse]; rfl
  have hst : ∀ a, se.isStack (ρ a) = se.isStack a := by
    intro a
    rcases hρcase a with h | ⟨i, hi, rfl⟩
    · rw [h]
    · obtain ⟨n, _, h1, h2, _⟩ := hρp i hi
      rw [h1, hisStack, isStack_slot e h2]
      exact (isStack_slot e (Nat.sub_le _ _)).symm
  have htouch : ∀ a, Mentions (asMoves (ofClass ms cls)) a → ρ a = a := by
    intro a ha
    apply hρo
    intro i hi h
    have := G.slots a _ (touches_ofClass (mentions_asMoves.mp ha)) (by rw [← h]; exact placeholder_asStack i)
    rw [(C05_spillslot_roundtrip _ (Nat.sub_le _ _)).1] at this
    omega
  have hnoneplace : ∀ a : Allocation, a.isNone = true → ρ a = a := by
    intro a ha
    apply hρo
    intro i hi h
    rw [← h, show placeholder i = Allocation.stack (SpillSlot.new (SpillSlot.MAX - i)) from rfl,
      (C05_alloc_stack _ (Nat.sub_le _ _)).2.2.2.2.2] at ha
    simp at ha
  -- raw locations are none or mentioned
  have hraw : ∀ m ∈ raw mv, (m.src.isNone = true ∨ Mentions (asMoves (ofClass ms cls)) m.src) ∧
      (m.dst.isNone = true ∨ Mentions (asMoves (ofClass ms cls)) m.dst) := by
    intro m hm
    cases mv with
    | NoScratch l =>
      have := hR.locs m hm
      constructor
      · rcases this.1 with h | ⟨m', h1, h2⟩
        · left; rw [h]; rfl
        · right; exact ⟨m', h1, .inl h2⟩
      · rcases this.2 with h | ⟨m', h1, h2⟩
        · left; rw [h]; rfl
        · right; exact ⟨m', h1, .inr h2⟩
    | Scratch l =>
      have := hR.locs (fillScratch Allocation.none m) (List.mem_map.mpr ⟨m, hm, rfl⟩)
      simp only [fillScratch] at this
      constructor
      · by_cases hn : m.src.isNone = true
        · exact .inl hn
        · rw [if_neg hn] at this
          rcases this.1 with h | ⟨m', h1, h2⟩
          · left; rw [h]; rfl
          · right; exact ⟨m', h1, .inl h2⟩
      · by_cases hn : m.dst.isNone = true
        · exact .inl hn
        · rw [if_neg hn] at this
          rcases this.2 with h | ⟨m', h1, h2⟩
          · left; rw [h]; rfl
          · right; exact ⟨m', h1, .inr h2⟩
  have hrawfix : ∀ m ∈ raw mv, ρ m.src = m.src ∧ ρ m.dst = m.dst := by
    intro m hm
    have := hraw m hm
    exact ⟨this.1.elim (hnoneplace _) (htouch _), this.2.elim (hnoneplace _) (htouch _)⟩
  have hcomm := compute_rename se ρ mv hst
    (fun i r h => by obtain ⟨p, rfl, _⟩ := hfind i r h; exact hregfix p) (hregfix _) (hnoneplace _ none_isNone) hrawfix
  -- the renamed environment keeps its promises
  have hOk : ScratchEnv.Ok { se with getSlot := fun i => ρ (se.getSlot i) } (asMoves (ofClass ms cls)) := by
    refine ⟨?_, ?_, ?_, ?_, ?_⟩
    · intro i _ r h
      obtain ⟨p, rfl, h1, h2, h3⟩ := hfind i r h
      refine ⟨?_, (C05_alloc_reg p).2.2.2.2.2, ?_⟩
      · show se.isStack _ = false
        rw [hisStack, isStack_reg, h2]
      · rw [mentions_asMoves]
        rcases h3 with h3 | h3
        · exact fun h => G.scratch cls p h3 (touches_ofClass h)
        · exact h3.2.2
    · rintro r ⟨h0, h1⟩
      simp only [← hse, scratchEnv] at h0 h1
      have hnd := nodup_freeRegs M cls pp.pos.bits.toNat (ofClass ms cls)
      obtain ⟨k0, k0'⟩ := List.getElem?_eq_some_iff.mp h0
      obtain ⟨k1, k1'⟩ := List.getElem?_eq_some_iff.mp h1
      have := (List.getElem_inj (h₀ := k0) (h₁ := k1) hnd).mp (by rw [k0', k1'])
      omega
    · intro i _
      simp only [hslot]
      rcases hρcase (placeholder i) with h | ⟨j, hj, h⟩
      · rw [h]
        refine ⟨?_, (C05_alloc_stack _ (Nat.sub_le _ _)).2.2.2.2.2, ?_⟩
        · rw [hisStack]; exact isStack_slot e (Nat.sub_le _ _)
        · rw [mentions_asMoves]
          intro hm
          have := G.slots _ _ (touches_ofClass hm) (placeholder_asStack i)
          rw [(C05_spillslot_roundtrip _ (Nat.sub_le _ _)).1] at this
          omega
      · rw [h]
        obtain ⟨n, _, h1, h2, h3, h4, h5⟩ := hρp j hj
        rw [h1]
        refine ⟨?_, (C05_alloc_stack _ h2).2.2.2.2.2, ?_⟩
        · rw [hisStack]; exact isStack_slot e h2
        · rw [mentions_asMoves]
          intro hm
          have := G.slots _ _ (touches_ofClass hm) (C05_alloc_stack n h2).2.1
          omega
    · simp only [hslot]
      have h01 : placeholder 0 ≠ placeholder 1 := fun h => by have := placeholder_inj (by omega) (by omega) h; omega
      rcases Nat.lt_or_ge 1 (slotsUsed se mv) with h2 | h2
      · obtain ⟨n, a1, a2, _⟩ := hρp 0 (by omega)
        obtain ⟨n', b1, b2, _⟩ := hρp 1 h2
        rw [a2, b2]
        intro h
        rw [← h] at b1
        have := extra_distinct hx2 a1 b1
        omega
      · have hp1 : ρ (placeholder 1) = placeholder 1 := hρo _ (fun i hi h => by
          have := placeholder_inj (by omega) (by omega) h; omega)
        rcases Nat.lt_or_ge 0 (slotsUsed se mv) with h1 | h1
        · obtain ⟨n, a1, a2, a3, a4, a5, a6⟩ := hρp 0 h1
          rw [a2, hp1]
          intro h
          have := C05_alloc_injective.2.1 _ _ a3 (Nat.sub_le _ _) h
          omega
        · have hp0 : ρ (placeholder 0) = placeholder 0 := hρo _ (fun i hi h => by omega)
          rw [hp0, hp1]
          exact h01
    · show se.isStack _ = false
      rw [hisStack, isStack_reg]
      show e.isStackReg se.borrowed = false
      rw [hborrow]
      exact M.victim_ok cls
  obtain ⟨r, out', hr1, hr2, hr3, hr4⟩ := C03_scratch_resolver _ _ hu hr hOk
  rw [hres] at hr1
  cases hr1
  rw [hr2] at hcomm
  cases hcomp : compute? se mv with
  | none => rw [hcomp] at hcomm; simp at hcomm
  | some out =>
    rw [hcomp] at hcomm
    simp only [Option.map_some, Option.some.injEq] at hcomm
    refine ⟨out', s', ?_, hx2, hx4, ?_, ?_, ?_, ?_⟩
    · have hc := hres
      unfold asMoves at hc
      unfold resolveClass
      simp only [hse, hc, hcomp, hx1, hρ, hcomm]
      rfl
    · intro V σ m hm
      exact (hr4 σ).1 ⟨m.src, m.dst, some m.vreg⟩ (List.mem_map.mpr ⟨m, hm, rfl⟩)
    · intro V σ l hl hns
      refine (hr4 σ).2 l ?_ ?_
      · intro m hm
        simp only [asMoves, List.mem_map] at hm
        obtain ⟨a, ha, rfl⟩ := hm
        exact hl a ha
      · rintro ⟨i, hi, h | h⟩
        · obtain ⟨p, rfl, h1, h2, h3⟩ := hfind i l h
          rcases h3 with h3 | ⟨h3, h4, h5⟩
          · exact hns (.inl ⟨cls, p, h3, rfl⟩)
          · refine hns (.inr (.inl ⟨cls, p, h3, rfl, h4, ?_⟩))
            rintro ⟨m, hm, ht⟩
            have := (G.cls m hm).2 p ht
            exact h5 ⟨m, mem_ofClass.mpr ⟨hm, by rw [← this, h1]⟩, ht⟩
        · simp only [hslot] at h
          rcases hρcase (placeholder i) with h' | ⟨j, hj, h'⟩
          · rw [h'] at h
            refine hns (.inr (.inr ⟨_, by rw [← h]; exact placeholder_asStack i, ?_⟩))
            rw [(C05_spillslot_roundtrip _ (Nat.sub_le _ _)).1]
            omega
          · rw [h'] at h
            obtain ⟨n, _, h1, h2, h3, h4, h5⟩ := hρp j hj
            refine hns (.inr (.inr ⟨SpillSlot.new n, by rw [← h, h1]; exact (C05_alloc_stack n h2).2.1, ?_⟩))
            omega
    · intro m hm
      have := hr3 m hm
      rw [← hisStack]
      exact this
    · -- locations of the result
      have hP := compute_locs se (fun a => Real (ρ a) ∧ ∀ s, (ρ a).asStack = some s → s.index < s'.num.toNat) mv
        (by
          intro i r h
          obtain ⟨p, rfl, _⟩ := hfind i r h
          rw [(hregfix p).1]
          refine ⟨.inr ⟨p, rfl⟩, ?_⟩
          rw [(C05_alloc_reg p).2.2.1]; simp)
        (by
          rw [(hregfix _).1]
          refine ⟨.inr ⟨_, rfl⟩, ?_⟩
          rw [(C05_alloc_reg _).2.2.1]; simp)
        (by
          intro i hi
          rw [hslot]
          obtain ⟨n, _, h1, h2, h3, h4, h5⟩ := hρp i hi
          rw [h1]
          refine ⟨.inl (isStack_of_asStack (C05_alloc_stack n h2).2.1), ?_⟩
          intro sl hsl
          rw [(C05_alloc_stack n h2).2.1] at hsl
          simp only [Option.some.injEq] at hsl
          subst hsl
          omega)
        (by
          intro m hm
          have hge := hx2.ge
          have aux : ∀ a, Mentions (asMoves (ofClass ms cls)) a → Real (ρ a) ∧ ∀ s, (ρ a).asStack = some s → s.index < s'.num.toNat := by
            intro a ha
            rw [htouch a ha]
            have ht := touches_ofClass (mentions_asMoves.mp ha)
            refine ⟨G.real a ht, fun s hs => ?_⟩
            have := G.slots a s ht hs
            omega
          have hns : ∀ a, (a = m.src ∨ a = m.dst) → a.isNone = true → needsScratch mv = false → False := by
            intro a ha hn hns
            cases mv with
            | Scratch l => simp [needsScratch] at hns
            | NoScratch l =>
              -- no scratch: the moves are given ones
              have hmem : m ∈ asMoves (ofClass ms cls) := by
                rcases hR.exact_ rfl with ⟨h, _⟩ | ⟨_, h⟩
                · exact h.subset hm
                · exact ((h m).mp hm).1
              have := hr m hmem
              rcases ha with rfl | rfl
              · rw [this.1] at hn; simp at hn
              · rw [this.2] at hn; simp at hn
          have hm' := hraw m hm
          constructor
          · rintro (h | h)
            · rcases hm'.1 with h' | h'
              · rw [h] at h'; simp at h'
              · exact aux _ h'
            · rcases hm'.1 with h' | h'
              · exact (hns _ (.inl rfl) h' h).elim
              · exact aux _ h'
          · rintro (h | h)
            · rcases hm'.2 with h' | h'
              · rw [h] at h'; simp at h'
              · exact aux _ h'
            · rcases hm'.2 with h' | h'
              · exact (hns _ (.inr rfl) h' h).elim
              · exact aux _ h') out hcomp
      intro m hm a ha
      rw [hcomm, List.mem_map] at hm
      obtain ⟨m0, hm0, rfl⟩ := hm
      rcases ha with rfl | rfl
      · exact (hP m0 hm0).1
      · exact (hP m0 hm0).2

/-! ### One position and priority -/

theorem not_spare {e : MoveEnv} {num0 pos : Nat} {ms : List InsertedMove} (G : GroupOk e num0 ms) {a : Allocation} (h : Touches ms a) :
    ¬ Spare e num0 pos ms a := by
  rintro (⟨c, p, h1, rfl⟩ | ⟨c, p, _, rfl, _, h2⟩ | ⟨s, h1, h2⟩)
  · exact G.scratch c p h1 h
  · exact h2 h
  · have := G.slots a s h h1
    omega

theorem resolveGroup_spec {e : MoveEnv} (M : MachineOk e) {num0 : Nat} (hroom : Room e num0) {ms : List InsertedMove}
    (G : GroupOk e num0 ms) (pp : PosWithPrio) (cs : List RegClass) :
    cs.Nodup → ∀ {s : Slots}, SlotInv e num0 s → ∃ out s', resolveGroup e pp ms cs s = some (out, s') ∧ SlotInv e num0 s' ∧
      s.num.toNat ≤ s'.num.toNat ∧
      (∀ {V : Type} (σ : Store V), ∀ m ∈ ms, (∃ c ∈ cs, m.vreg.class? = some c) → exec σ out m.dst = σ m.src) ∧
      (∀ {V : Type} (σ : Store V) l, (∀ m ∈ ms, (∃ c ∈ cs, m.vreg.class? = some c) → m.dst ≠ l) →
        ¬ Spare e num0 pp.pos.bits.toNat ms l → exec σ out l = σ l) ∧
      (∀ m ∈ out, ¬ (e.isStack m.src = true ∧ e.isStack m.dst = true)) ∧
      (∀ m ∈ out, ∀ a, (a = m.src ∨ a = m.dst) → Real a ∧ ∀ s, a.asStack = some s → s.index < s'.num.toNat) := by
  induction cs with
  | nil =>
    intro _ s inv
    exact ⟨[], s, rfl, inv, Nat.le_refl _, by simp, fun _ _ _ _ => rfl, by simp, by simp⟩
  | cons c cs ih =>
    intro hnd s inv
    obtain ⟨hc, hnd⟩ := List.nodup_cons.mp hnd
    obtain ⟨o1, s1, a1, a2, a3, D⟩ := resolveClass_spec M hroom inv G c pp
    obtain ⟨o2, s2, b1, b2, b3, b4, b5, b6, b7⟩ := ih hnd a2
    refine ⟨o1 ++ o2, s2, ?_, b2, by omega, ?_, ?_, ?_, ?_⟩
    · unfold ofClass at a1
      simp only [resolveGroup, a1, b1]
    · intro V σ m hm hcl
      rw [exec_append]
      by_cases hmc : m.vreg.class? = some c
      · have keep := b5 (exec σ o1) m.dst (by
          rintro m' hm' ⟨d, hd, hd'⟩ heq
          have hne : m.vreg.class? ≠ m'.vreg.class? := by
            rw [hmc, hd']; intro h; simp only [Option.some.injEq] at h; subst h; exact hc hd
          exact (G.apart m hm m' hm' hne).2 heq.symm) (not_spare G ⟨m, hm, .inr rfl⟩)
        rw [keep]
        exact D.moved σ m (mem_ofClass.mpr ⟨hm, hmc⟩)
      · have hcl' : ∃ d ∈ cs, m.vreg.class? = some d := by
          obtain ⟨d, hd, hd'⟩ := hcl
          rcases List.mem_cons.mp hd with rfl | hd
          · exact absurd hd' hmc
          · exact ⟨d, hd, hd'⟩
        rw [b4 (exec σ o1) m hm hcl']
        refine D.kept σ m.src ?_ (not_spare G ⟨m, hm, .inl rfl⟩)
        intro m' hm' heq
        obtain ⟨hm', hcm⟩ := mem_ofClass.mp hm'
        exact (G.apart m hm m' hm' (by rw [hcm]; exact hmc)).1 heq.symm
    · intro V σ l hl hns
      rw [exec_append, b5 (exec σ o1) l (fun m hm ⟨d, hd, hd'⟩ => hl m hm ⟨d, List.mem_cons_of_mem _ hd, hd'⟩) hns]
      refine D.kept σ l ?_ hns
      intro m hm
      obtain ⟨hm, hcm⟩ := mem_ofClass.mp hm
      exact hl m hm ⟨c, by simp, hcm⟩
    · intro m hm
      rcases List.mem_append.mp hm with hm | hm
      · exact D.noS2S m hm
      · exact b6 m hm
    · intro m hm a ha
      rcases List.mem_append.mp hm with hm | hm
      · have := D.real m hm a ha
        exact ⟨this.1, fun s hs => by have := this.2 s hs; omega⟩
      · exact b7 m hm a ha

theorem inMemory_isStack {e : MoveEnv} {a : Allocation} (h : InMemory e a) : e.isStack a = true := by
  rcases h with h | ⟨p, rfl, h⟩
  · unfold MoveEnv.isStack
    have : a.asReg = none := by
      unfold Allocation.isStack at h
      unfold Allocation.asReg
      rw [if_neg]
      intro h'
      rw [h'] at h
      simp at h
    rw [this]
    exact h
  · rw [isStack_reg]; exact h

theorem group_performs {e : MoveEnv} (M : MachineOk e) {num0 : Nat} (hroom : Room e num0) {ms : List InsertedMove}
    (G : GroupOk e num0 ms) (pp : PosWithPrio) {s : Slots} (inv : SlotInv e num0 s) :
    ∃ out s', resolveGroup e pp ms classes s = some (out, s') ∧ SlotInv e num0 s' ∧ s.num.toNat ≤ s'.num.toNat ∧
      Performs e num0 s'.num.toNat pp.pos.bits.toNat ms out := by
  obtain ⟨out, s', a1, a2, a3, a4, a5, a6, a7⟩ := resolveGroup_spec M hroom G pp classes (by decide) inv
  have hall : ∀ c : RegClass, c ∈ classes := by intro c; cases c <;> decide
  have hcl : ∀ m ∈ ms, ∃ c ∈ classes, m.vreg.class? = some c := by
    intro m hm
    obtain ⟨c, hc⟩ := Option.ne_none_iff_exists'.mp (G.cls m hm).1
    exact ⟨c, hall c, hc⟩
  exact ⟨out, s', a1, a2, a3, ⟨fun σ m hm => a4 σ m hm (hcl m hm), fun σ l hl hns => a5 σ l (fun m hm _ => hl m hm) hns,
    fun m hm h => a6 m hm ⟨inMemory_isStack h.1, inMemory_isStack h.2⟩, a7⟩⟩

theorem Performs.mono {e : MoveEnv} {num n n' pos : Nat} {ms : List InsertedMove} {out : List (Move (Option VReg))}
    (h : Performs e num n pos ms out) (hn : n ≤ n') : Performs e num n' pos ms out :=
  ⟨h.moved, h.kept, h.noStackToStack, fun m hm a ha => ⟨(h.real m hm a ha).1, fun s hs => by
    have := (h.real m hm a ha).2 s hs; omega⟩⟩

theorem Performs.congr {e : MoveEnv} {num n pos : Nat} {ms ms' : List InsertedMove} {out : List (Move (Option VReg))}
    (h : Performs e num n pos ms out) (hm : ∀ m, m ∈ ms ↔ m ∈ ms') : Performs e num n pos ms' out := by
  have ht : ∀ a, Touches ms a ↔ Touches ms' a := by
    intro a; unfold Touches; simp [hm]
  refine ⟨fun σ m hx => h.moved σ m ((hm m).mpr hx), fun σ l hl hns => h.kept σ l (fun m hx => hl m ((hm m).mp hx)) ?_,
    h.noStackToStack, h.real⟩
  rintro (h1 | ⟨c, p, a, b, d, f⟩ | h1)
  · exact hns (.inl h1)
  · exact hns (.inr (.inl ⟨c, p, a, b, d, fun g => f ((ht l).mpr g)⟩))
  · exact hns (.inr (.inr h1))

theorem GroupOk.congr {e : MoveEnv} {num : Nat} {ms ms' : List InsertedMove}
    (h : GroupOk e num ms) (hm : ∀ m, m ∈ ms ↔ m ∈ ms') : GroupOk e num ms' := by
  have ht : ∀ a, Touches ms a ↔ Touches ms' a := by
    intro a; unfold Touches; simp [hm]
  refine ⟨?_, ?_, ?_, ?_, ?_, ?_⟩
  · intro m hx m' hx'; exact h.writers m ((hm m).mpr hx) m' ((hm m').mpr hx')
  · intro a ha; exact h.real a ((ht a).mpr ha)
  · intro m hx; exact h.cls m ((hm m).mpr hx)
  · intro c p hp ha; exact h.scratch c p hp ((ht _).mpr ha)
  · intro a s ha; exact h.slots a s ((ht a).mpr ha)
  · intro m hx m' hx'; exact h.apart m ((hm m).mpr hx) m' ((hm m').mpr hx')

/-! ### Keys -/

theorem PosWithPrio.key_toNat (p : PosWithPrio) : p.key.toNat = p.pos.bits.toNat * 2 ^ 32 + p.prio.toNat := by
  unfold PosWithPrio.key
  rw [u64Key_toNat]

theorem key_inj {p q : PosWithPrio} (h : p.key = q.key) : p = q := by
  have h := congrArg UInt64.toNat h
  rw [PosWithPrio.key_toNat, PosWithPrio.key_toNat] at h
  have h1 := p.prio.toNat_lt
  have h2 := q.prio.toNat_lt
  have h3 : p.pos.bits.toNat = q.pos.bits.toNat := by omega
  have h4 : p.prio.toNat = q.prio.toNat := by omega
  obtain ⟨pp, ⟨pb⟩⟩ := p
  obtain ⟨qp, ⟨qb⟩⟩ := q
  simp only at h3 h4
  rw [UInt32.toNat_inj] at h3 h4
  subst h3 h4
  rfl

theorem before_iff {p q : PosWithPrio} : p.Before q ↔ p.key < q.key := by
  rw [UInt64.lt_iff_toNat_lt, PosWithPrio.key_toNat, PosWithPrio.key_toNat]
  have h1 := p.prio.toNat_lt
  have h2 := q.prio.toNat_lt
  unfold PosWithPrio.Before
  have h3 : p.pos = q.pos ↔ p.pos.bits.toNat = q.pos.bits.toNat := by
    constructor
    · intro h; rw [h]
    · intro h
      rw [UInt32.toNat_inj] at h
      obtain ⟨pp, ⟨pb⟩⟩ := p
      obtain ⟨qp, ⟨qb⟩⟩ := q
      simp only at h ⊢
      rw [h]
  rw [h3]
  omega

/-! ### All groups -/

theorem takeWhile_filter {ms : List InsertedMove} {pp : PosWithPrio} (hs : ms.Pairwise (fun a b => a.pp.key ≤ b.pp.key))
    (hge : ∀ m ∈ ms, pp.key ≤ m.pp.key) :
    ms.takeWhile (fun x => decide (x.pp = pp)) = ms.filter (fun x => decide (x.pp = pp)) ∧
    ms.dropWhile (fun x => decide (x.pp = pp)) = ms.filter (fun x => !decide (x.pp = pp)) := by
  induction ms with
  | nil => simp
  | cons m ms ih =>
    obtain ⟨h1, h2⟩ := List.pairwise_cons.mp hs
    have ih := ih h2 (fun x hx => hge x (List.mem_cons_of_mem _ hx))
    by_cases h : m.pp = pp
    · simp [h, ih]
    · have hlt : pp.key < m.pp.key := by
        have h3 := hge m (by simp)
        have h4 : pp.key ≠ m.pp.key := fun h' => h (key_inj h').symm
        rw [UInt64.lt_iff_toNat_lt]
        rw [UInt64.le_iff_toNat_le] at h3
        rw [ne_eq, ← UInt64.toNat_inj] at h4
        omega
      have hall : ∀ x ∈ ms, x.pp ≠ pp := by
        rintro x hx rfl
        have h5 := h1 x hx
        rw [UInt64.le_iff_toNat_le] at h5
        rw [UInt64.lt_iff_toNat_lt] at hlt
        omega
      constructor
      · rw [List.takeWhile_cons_of_neg (by simpa using h), List.filter_cons_of_neg (by simpa using h)]
        symm
        rw [List.filter_eq_nil_iff]
        intro x hx
        simpa using hall x hx
      · rw [List.dropWhile_cons_of_neg (by simpa using h), List.filter_cons_of_pos (by simpa using h)]
        congr 1
        symm
        rw [List.filter_eq_self]
        intro x hx
        simpa using hall x hx

theorem resolveAll_spec {e : MoveEnv} (M : MachineOk e) {num0 : Nat} (hroom : Room e num0) (n : Nat) :
    ∀ (ms : List InsertedMove), ms.length ≤ n → ms.Pairwise (fun a b => a.pp.key ≤ b.pp.key) →
      (∀ pp, GroupOk e num0 (ms.filter fun m => decide (m.pp = pp))) → ∀ {s : Slots}, SlotInv e num0 s →
      ∃ gs s', resolveAll e n ms s = some (flat gs, s') ∧ SlotInv e num0 s' ∧ s.num.toNat ≤ s'.num.toNat ∧
        gs.Pairwise (fun a b => a.1.Before b.1) ∧ (∀ pp, (∃ m ∈ ms, m.pp = pp) ↔ ∃ g ∈ gs, g.1 = pp) ∧
        (∀ g ∈ gs, Performs e num0 s'.num.toNat g.1.pos.bits.toNat (ms.filter fun m => decide (m.pp = g.1)) g.2) := by
  induction n with
  | zero =>
    intro ms hl _ _ s inv
    have : ms = [] := List.length_eq_zero_iff.mp (by omega)
    subst this
    exact ⟨[], s, rfl, inv, Nat.le_refl _, by simp, by simp, by simp⟩
  | succ n ih =>
    intro ms hl hs hG s inv
    cases ms with
    | nil => exact ⟨[], s, rfl, inv, Nat.le_refl _, by simp, by simp, by simp⟩
    | cons m ms =>
      obtain ⟨h1, h2⟩ := List.pairwise_cons.mp hs
      obtain ⟨t1, t2⟩ := takeWhile_filter (pp := m.pp) h2 h1
      have hgrp : (m :: ms.takeWhile fun x => decide (x.pp = m.pp)) = (m :: ms).filter fun x => decide (x.pp = m.pp) := by
        rw [t1]; simp
      have hG1 := hG m.pp
      obtain ⟨o1, s1, a1, a2, a3, a4⟩ := group_performs M hroom hG1 m.pp inv
      have hlen : (ms.filter fun x => !decide (x.pp = m.pp)).length ≤ n := by
        have := List.length_filter_le (fun x : InsertedMove => !decide (x.pp = m.pp)) ms
        simp at hl
        omega
      -- the rest keeps exactly the other groups
      have hrest : ∀ pp, pp ≠ m.pp → ∀ x, x ∈ (ms.filter fun x => !decide (x.pp = m.pp)).filter (fun x => decide (x.pp = pp)) ↔
          x ∈ (m :: ms).filter (fun x => decide (x.pp = pp)) := by
        intro pp hpp x
        simp only [List.mem_filter, List.mem_cons, Bool.not_eq_true', decide_eq_false_iff_not, decide_eq_true_eq]
        grind
      have hrest0 : (ms.filter fun x => !decide (x.pp = m.pp)).filter (fun x => decide (x.pp = m.pp)) = [] := by
        rw [List.filter_filter, List.filter_eq_nil_iff]
        simp
      obtain ⟨gs, s2, b1, b2, b3, b4, b5, b6⟩ := ih (ms.filter fun x => !decide (x.pp = m.pp)) hlen
        (List.Pairwise.filter _ h2) (by
          intro pp
          by_cases hpp : pp = m.pp
          · subst hpp
            rw [hrest0]
            exact ⟨by simp, by simp [Touches], by simp, by simp [Touches], by simp [Touches], by simp⟩
          · exact (hG pp).congr (fun x => (hrest pp hpp x).symm)) a2
      have hne : ∀ g ∈ gs, g.1 ≠ m.pp ∧ m.pp.Before g.1 := by
        intro g hg
        obtain ⟨x, hx, hx'⟩ := (b5 g.1).mpr ⟨g, hg, rfl⟩
        simp only [List.mem_filter, Bool.not_eq_true', decide_eq_false_iff_not] at hx
        rw [← hx']
        refine ⟨hx.2, before_iff.mpr ?_⟩
        have h3 := h1 x hx.1
        have h4 : m.pp.key ≠ x.pp.key := fun h' => hx.2 (key_inj h').symm
        rw [UInt64.lt_iff_toNat_lt]
        rw [UInt64.le_iff_toNat_le] at h3
        rw [ne_eq, ← UInt64.toNat_inj] at h4
        omega
      refine ⟨(m.pp, o1) :: gs, s2, ?_, b2, by omega, ?_, ?_, ?_⟩
      · rw [← hgrp] at a1
        simp only [resolveAll, a1, t2, b1, flat, List.flatMap_cons]
      · exact List.pairwise_cons.mpr ⟨fun g hg => (hne g hg).2, b4⟩
      · intro pp
        constructor
        · rintro ⟨x, hx, rfl⟩
          by_cases hpp : x.pp = m.pp
          · exact ⟨(m.pp, o1), by simp, hpp.symm⟩
          · obtain ⟨g, hg, hg'⟩ := (b5 x.pp).mp ⟨x, by
              rcases List.mem_cons.mp hx with rfl | hx
              · exact absurd rfl hpp
              · simp [hx, hpp], rfl⟩
            exact ⟨g, List.mem_cons_of_mem _ hg, hg'⟩
        · rintro ⟨g, hg, rfl⟩
          rcases List.mem_cons.mp hg with rfl | hg
          · exact ⟨m, by simp, rfl⟩
          · obtain ⟨x, hx, hx'⟩ := (b5 g.1).mpr ⟨g, hg, rfl⟩
            exact ⟨x, List.mem_cons_of_mem _ (List.mem_filter.mp hx).1, hx'⟩
      · intro g hg
        rcases List.mem_cons.mp hg with rfl | hg
        · exact a4.mono (by simpa using b3)
        · exact (b6 g hg).congr (hrest g.1 (hne g hg).1)

/-! ### Elimination and sorting -/

theorem eliminate_drive (e : MoveEnv) (ms : List RMove) : ∀ (s : RedundantMoves) (last : Nat),
    (eliminate e s last ms).map RMove.toP = (RedundantMoves.drive e.rm s last (ms.map RMove.toP)).filter (fun m => decide (m.src ≠ m.dst)) := by
  induction ms with
  | nil => intros; rfl
  | cons m ms ih =>
    intro s last
    simp only [eliminate, List.map_cons, RedundantMoves.drive, RMove.toP]
    split
    · exact ih _ _
    · split
      · rename_i h
        rw [ih, List.filter_cons_of_neg (by simpa using h)]
      · rename_i h
        rw [List.map_cons, ih, List.filter_cons_of_pos (by simpa using h)]
        rfl

theorem eliminate_sublist (e : MoveEnv) (ms : List RMove) : ∀ (s : RedundantMoves) (last : Nat), (eliminate e s last ms).Sublist ms := by
  induction ms with
  | nil => intros; exact List.Sublist.refl _
  | cons m ms ih =>
    intro s last
    simp only [eliminate]
    split
    · exact (ih _ _).cons m
    · split
      · exact (ih _ _).cons m
      · exact (ih _ _).cons_cons m

theorem movesAt_filter {V : Type} (ms : List RedundantMoves.PMove) (q : Nat) (σ : Store V) :
    RedundantMoves.movesAt (ms.filter (fun m => decide (m.src ≠ m.dst))) q σ = RedundantMoves.movesAt ms q σ := by
  unfold RedundantMoves.movesAt
  induction ms generalizing σ with
  | nil => rfl
  | cons m ms ih =>
    by_cases h : m.src = m.dst
    · rw [List.filter_cons_of_neg (by simpa using h), ih]
      by_cases hq : m.pos = q
      · rw [List.filter_cons_of_pos (by simpa using hq), List.foldl_cons]
        congr 1
        funext l
        unfold RedundantMoves.copy
        split
        · rename_i hl; rw [hl, h]
        · rfl
      · rw [List.filter_cons_of_neg (by simpa using hq)]
    · rw [List.filter_cons_of_pos (by simpa using h)]
      by_cases hq : m.pos = q
      · rw [List.filter_cons_of_pos (by simpa using hq), List.filter_cons_of_pos (by simpa using hq)]
        simp only [List.foldl_cons]
        exact ih _
      · rw [List.filter_cons_of_neg (by simpa using hq), List.filter_cons_of_neg (by simpa using hq)]
        exact ih _

theorem runPoints_filter {V : Type} (eff : Nat → Store V → Store V) (ms : List RedundantMoves.PMove) (n : Nat) :
    ∀ (q : Nat) (σ : Store V), RedundantMoves.runPoints eff (ms.filter (fun m => decide (m.src ≠ m.dst))) q n σ = RedundantMoves.runPoints eff ms q n σ := by
  induction n with
  | zero => intros; rfl
  | succ n ih =>
    intro q σ
    simp only [RedundantMoves.runPoints]
    rw [movesAt_filter, ih]

theorem isort_sorted {α : Type} {le : α → α → Bool} {l : List α} (h : l.Pairwise (fun a b => le a b = true)) : isort le l = l := by
  induction l with
  | nil => rfl
  | cons a l ih =>
    obtain ⟨h1, h2⟩ := List.pairwise_cons.mp h
    unfold isort
    rw [ih h2]
    cases l with
    | nil => rfl
    | cons b l =>
      unfold insertBy
      rw [if_pos (h1 b (by simp))]

theorem flat_sorted {gs : List GroupOut} (h : gs.Pairwise (fun a b => a.1.Before b.1)) : (flat gs).Pairwise (fun a b => a.pp.key ≤ b.pp.key) := by
  unfold flat
  induction gs with
  | nil => simp
  | cons g gs ih =>
    obtain ⟨h1, h2⟩ := List.pairwise_cons.mp h
    rw [List.flatMap_cons, List.pairwise_append]
    refine ⟨?_, ih h2, ?_⟩
    · rw [List.pairwise_map]
      exact List.pairwise_of_forall (fun _ _ => by simp)
    · intro a ha b hb
      simp only [List.mem_map] at ha
      obtain ⟨x, _, rfl⟩ := ha
      simp only [List.mem_flatMap, List.mem_map] at hb
      obtain ⟨g', hg', y, _, rfl⟩ := hb
      have := before_iff.mp (h1 g' hg')
      exact UInt64.le_of_lt this

end ResolveMoves
end Regalloc
