/-
C01-C03: parallel-move resolution (`/repo/src/moves.rs`).
-/
import Verif.Proofs.MovesScratch

namespace Regalloc.Moves

/-- **C01.** For every set of moves with one writer per destination, and every
scratch location that takes no part in them, resolution succeeds and the
resulting sequence, run one move at a time from any store, gives each
destination the value its source had *before* any move ran, and leaves every
other location alone except possibly the scratch location (and not even that
when no scratch is requested). -/
theorem C01_resolve_is_parallel_move {T : Type} [Inhabited T] [DecidableEq T]
    (ms : List (Move T)) (sc : Allocation)
    (hu : UniqueWriters ms) (hr : RealLocs ms) (hsc : ¬ Mentions ms sc) :
    ∃ r, resolve? ms = some r ∧ ∀ {V : Type u} (σ : Store V),
      (∀ m ∈ ms, exec σ (withScratch sc r) m.dst = σ m.src) ∧
      (∀ l, (∀ m ∈ ms, m.dst ≠ l) → (l ≠ sc ∨ needsScratch r = false) →
        exec σ (withScratch sc r) l = σ l) := by
  obtain ⟨r, h1, _⟩ := resolve_spec (V := PUnit.{u+1}) hu hr hsc
  refine ⟨r, h1, ?_⟩
  intro V σ
  obtain ⟨r', h1', h2'⟩ := resolve_spec (V := V) hu hr hsc
  rw [h1] at h1'
  cases h1'
  exact ⟨h2'.moved σ, h2'.kept σ⟩

/-- **C01**, the variant without a scratch location: when the resolver says it
needs none, the sequence as returned (`without_scratch`) is already correct, on
every location. -/
theorem C01_without_scratch {T : Type} [Inhabited T] [DecidableEq T]
    (ms : List (Move T)) (hu : UniqueWriters ms) (hr : RealLocs ms)
    (r : MoveVecWithScratch T) (out : List (Move T))
    (hres : resolve? ms = some r) (hout : withoutScratch r = some out) :
    ∀ {V : Type u} (σ : Store V),
      (∀ m ∈ ms, exec σ out m.dst = σ m.src) ∧
      (∀ l, (∀ m ∈ ms, m.dst ≠ l) → exec σ out l = σ l) := by
  intro V σ
  have hsc : ¬ Mentions ms Allocation.none := by
    rintro ⟨m, hm, h⟩
    have := hr m hm
    rcases h with h | h
    · rw [h, none_isNone] at this; simp at this
    · rw [h, none_isNone] at this; simp at this
  obtain ⟨r', h1', h2'⟩ := resolve_spec (V := V) hu hr hsc
  rw [hres] at h1'
  cases h1'
  cases r with
  | Scratch => simp [withoutScratch] at hout
  | NoScratch l =>
    simp only [withoutScratch, Option.some.injEq] at hout
    subst hout
    exact ⟨h2'.moved σ, fun l hl => h2'.kept σ l hl (.inr rfl)⟩

/-- **C02.** A scratch location is requested exactly when the moves contain a
cycle of distinct locations. -/
theorem C02_scratch_iff_cycle {T : Type} [Inhabited T] [DecidableEq T]
    (ms : List (Move T)) (hu : UniqueWriters ms) (hr : RealLocs ms)
    (r : MoveVecWithScratch T) (hres : resolve? ms = some r) :
    needsScratch r = true ↔ HasCycle ms := by
  have hsc : ¬ Mentions ms Allocation.none := by
    rintro ⟨m, hm, h⟩
    have := hr m hm
    rcases h with h | h
    · rw [h, none_isNone] at this; simp at this
    · rw [h, none_isNone] at this; simp at this
  obtain ⟨r', h1', h2'⟩ := resolve_spec (V := Unit) hu hr hsc
  rw [hres] at h1'
  cases h1'
  exact h2'.cyc

/-- **C02.** Every emitted move reads a source of the given moves or the scratch
location, writes a destination of the given moves or the scratch location, and
no placeholder survives the substitution of a real scratch location. -/
theorem C02_only_given_locations {T : Type} [Inhabited T] [DecidableEq T]
    (ms : List (Move T)) (sc : Allocation)
    (hu : UniqueWriters ms) (hr : RealLocs ms) (hsc : ¬ Mentions ms sc) (hreal : sc.isNone = false)
    (r : MoveVecWithScratch T) (hres : resolve? ms = some r) :
    ∀ m ∈ withScratch sc r,
      (m.src = sc ∨ ∃ m' ∈ ms, m'.src = m.src) ∧ (m.dst = sc ∨ ∃ m' ∈ ms, m'.dst = m.dst) ∧
      m.src.isNone = false ∧ m.dst.isNone = false := by
  obtain ⟨r', h1', h2'⟩ := resolve_spec (V := Unit) hu hr hsc
  rw [hres] at h1'
  cases h1'
  intro m hm
  exact ⟨(h2'.locs m hm).1, (h2'.locs m hm).2, h2'.real m hm hreal⟩

/-- **C02.** With no cycle and at least two moves, the result is a reordering of
the given moves without duplicates and without self-moves: nothing else is
added, nothing is lost, and each move keeps its payload. -/
theorem C02_acyclic_is_reordering {T : Type} [Inhabited T] [DecidableEq T]
    (ms : List (Move T)) (hu : UniqueWriters ms) (hr : RealLocs ms) (hacyc : ¬ HasCycle ms)
    (hlen : 2 ≤ ms.length) :
    ∃ out, resolve? ms = some (.NoScratch out) ∧ out.Nodup ∧
      ∀ m, m ∈ out ↔ m ∈ ms ∧ m.src ≠ m.dst := by
  have hsc : ¬ Mentions ms Allocation.none := by
    rintro ⟨m, hm, h⟩
    have := hr m hm
    rcases h with h | h
    · rw [h, none_isNone] at this; simp at this
    · rw [h, none_isNone] at this; simp at this
  obtain ⟨r, h1, h2⟩ := resolve_spec (V := Unit) hu hr hsc
  cases r with
  | Scratch l => exact absurd (h2.cyc.mp rfl) hacyc
  | NoScratch l =>
    refine ⟨l, h1, ?_⟩
    rcases h2.exact_ rfl with ⟨_, h⟩ | h
    · omega
    · exact h

/-- **C02**, the short case: zero or one move is returned as it is (a single
self-move is *not* dropped). -/
theorem C02_short_verbatim {T : Type} [Inhabited T] [DecidableEq T]
    (ms : List (Move T)) (hlen : ms.length ≤ 1) : resolve? ms = some (.NoScratch ms) := by
  simp [resolve?, hlen]

theorem mentions_withScratch {T : Type} {V : Type u} {ms : List (Move T)}
    {sc : Allocation} {r : MoveVecWithScratch T} (h : Resolved V ms sc r) {l : Allocation}
    (hl : l ≠ sc) (hm : ¬ Mentions ms l) : ¬ Mentions (withScratch sc r) l := by
  rintro ⟨m, hmem, hor⟩
  have := h.locs m hmem
  rcases hor with e | e
  · rcases this.1 with h' | ⟨m', hm', h'⟩
    · exact hl (by rw [← e, h'])
    · exact hm ⟨m', hm', .inl (by rw [h', e])⟩
  · rcases this.2 with h' | ⟨m', hm', h'⟩
    · exact hl (by rw [← e, h'])
    · exact hm ⟨m', hm', .inr (by rw [h', e])⟩

/-- The second stage of `compute`, given what the first stage chose. -/
theorem stage2 {T : Type} {V : Type u} [Inhabited T] (e : ScratchEnv) (ms : List (Move T)) (he : e.Ok ms)
    {sc : Allocation} {r : MoveVecWithScratch T} (hR : Resolved V ms sc r) (fc sl : Nat) (hfc : fc < 2) (hsl : sl < 2)
    (hsc1 : ∀ x, e.findReg fc = some x → x ≠ sc) (hsc2 : e.getSlot sl ≠ sc) :
    ∃ out, (if !((withScratch sc r).any e.isS2S) then some (withScratch sc r)
        else
          match e.findReg fc with
          | some x => expand e x none (withScratch sc r) false true
          | none => expand e (Allocation.reg e.borrowed) (some (e.getSlot sl)) (withScratch sc r)
              false true) = some out ∧
      (∀ m ∈ out, e.isS2S m = false) ∧
      (∀ (σ : Store V) l, ¬ e.Offered l → exec σ out l = exec σ (withScratch sc r) l) := by
  by_cases hany : (withScratch sc r).any e.isS2S = true
  · simp only [hany, Bool.not_true, Bool.false_eq_true, if_false]
    cases hf : e.findReg fc with
    | some x =>
      have hx := he.reg_free fc hfc x hf
      obtain ⟨out, h1, h2, h3⟩ := expand_free (V := V) e x (withScratch sc r) false true
        (mentions_withScratch hR (hsc1 x hf) hx.2.2)
      refine ⟨out, h1, h3 hx.1, ?_⟩
      intro σ l hl
      exact h2 σ σ (fun _ _ => rfl) l (fun h => hl ⟨fc, hfc, .inl (by rw [h]; exact hf)⟩)
    | none =>
      have hs := he.slot_free sl hsl
      obtain ⟨out, h1, h2, h3⟩ := expand_borrowed (V := V) e he.borrowed_reg hs.1 (withScratch sc r) false true
        (mentions_withScratch hR hsc2 hs.2.2) (by simp)
      refine ⟨out, h1, h3, ?_⟩
      intro σ l hl
      refine h2 σ σ ⟨fun _ _ _ => rfl, by simp, fun _ => rfl, by simp⟩ l ?_
      intro h
      exact hl ⟨sl, hsl, .inr h.symm⟩
  · have hany' : (withScratch sc r).any e.isS2S = false := by simpa using hany
    simp only [hany', Bool.not_false, if_true]
    refine ⟨_, rfl, ?_, fun _ _ _ => rfl⟩
    intro m hm
    rw [List.any_eq_false] at hany'
    simpa using hany' m hm

/-- **C03.** For every set of moves with one writer per destination, and every
client environment that keeps its promises, resolving and then lowering with the
scratch resolver always succeeds; the result contains no stack-to-stack move;
run in sequence it is still the parallel move; and apart from the destinations
only locations that the client offered may change. In particular the borrowed
register is intact at the end unless it is itself a destination or was offered. -/
theorem C03_scratch_resolver {T : Type} [Inhabited T] [DecidableEq T]
    (ms : List (Move T)) (e : ScratchEnv)
    (hu : UniqueWriters ms) (hr : RealLocs ms) (he : e.Ok ms) :
    ∃ r out, resolve? ms = some r ∧ compute? e r = some out ∧
      (∀ m ∈ out, ¬ (e.isStack m.src = true ∧ e.isStack m.dst = true)) ∧
      ∀ {V : Type u} (σ : Store V),
        (∀ m ∈ ms, exec σ out m.dst = σ m.src) ∧
        (∀ l, (∀ m ∈ ms, m.dst ≠ l) → ¬ e.Offered l → exec σ out l = σ l) := by
  have hoff : ∀ m ∈ ms, ¬ e.Offered m.dst := by
    rintro m hm ⟨i, hi, h | h⟩
    · exact (he.reg_free i hi _ h).2.2 ⟨m, hm, .inr rfl⟩
    · exact (he.slot_free i hi).2.2 ⟨m, hm, .inr h.symm⟩
  have hnone : ¬ Mentions ms Allocation.none := by
    rintro ⟨m, hm, h⟩
    have := hr m hm
    rcases h with h | h
    · rw [h, none_isNone] at this; simp at this
    · rw [h, none_isNone] at this; simp at this
  have core : ∀ (V : Type u), ∃ r out, resolve? ms = some r ∧ compute? e r = some out ∧
      (∀ m ∈ out, e.isS2S m = false) ∧
      ∀ (σ : Store V), (∀ m ∈ ms, exec σ out m.dst = σ m.src) ∧
        (∀ l, (∀ m ∈ ms, m.dst ≠ l) → ¬ e.Offered l → exec σ out l = σ l) := by
    intro V
    obtain ⟨r, h1, hRn⟩ := resolve_spec (V := V) hu hr hnone
    by_cases hns : needsScratch r = true
    · cases hf : e.findReg 0 with
      | some x =>
        have hx := he.reg_free 0 (by omega) x hf
        obtain ⟨r', h1', hR⟩ := resolve_spec (V := V) hu hr hx.2.2
        rw [h1] at h1'; cases h1'
        obtain ⟨out, a1, a2, a3⟩ := stage2 e ms he hR 1 0 (by omega) (by omega)
          (fun y hy hyx => by
            subst hyx; exact he.reg_distinct _ ⟨hf, hy⟩)
          (fun h => by
            have := (he.slot_free 0 (by omega)).1
            rw [h, hx.1] at this; simp at this)
        refine ⟨r, out, h1, ?_, a2, ?_⟩
        · simp only [compute?, hns, if_true, hf]; exact a1
        · intro σ
          refine ⟨fun m hm => ?_, fun l hl ho => ?_⟩
          · rw [a3 σ _ (hoff m hm)]; exact hR.moved σ m hm
          · rw [a3 σ _ ho]
            exact hR.kept σ l hl (.inl (fun h => ho ⟨0, by omega, .inl (by rw [h]; exact hf)⟩))
      | none =>
        have hs := he.slot_free 0 (by omega)
        obtain ⟨r', h1', hR⟩ := resolve_spec (V := V) hu hr hs.2.2
        rw [h1] at h1'; cases h1'
        obtain ⟨out, a1, a2, a3⟩ := stage2 e ms he hR 1 1 (by omega) (by omega)
          (fun y hy hyx => by
            have := (he.reg_free 1 (by omega) y hy).1
            rw [hyx, hs.1] at this; simp at this)
          (fun h => he.slot_distinct h.symm)
        refine ⟨r, out, h1, ?_, a2, ?_⟩
        · simp only [compute?, hns, if_true, hf]; exact a1
        · intro σ
          refine ⟨fun m hm => ?_, fun l hl ho => ?_⟩
          · rw [a3 σ _ (hoff m hm)]; exact hR.moved σ m hm
          · rw [a3 σ _ ho]
            exact hR.kept σ l hl (.inl (fun h => ho ⟨0, by omega, .inr h.symm⟩))
    · have hns' : needsScratch r = false := by simpa using hns
      obtain ⟨out, a1, a2, a3⟩ := stage2 e ms he hRn 0 0 (by omega) (by omega)
        (fun y hy hyx => by
          have := (he.reg_free 0 (by omega) y hy).2.1
          rw [hyx, none_isNone] at this; simp at this)
        (fun h => by
          have := (he.slot_free 0 (by omega)).2.1
          rw [h, none_isNone] at this; simp at this)
      refine ⟨r, out, h1, ?_, a2, ?_⟩
      · simp only [compute?, hns', Bool.false_eq_true, if_false]; exact a1
      · intro σ
        refine ⟨fun m hm => ?_, fun l hl ho => ?_⟩
        · rw [a3 σ _ (hoff m hm)]; exact hRn.moved σ m hm
        · rw [a3 σ _ ho]
          exact hRn.kept σ l hl (.inr hns')
  obtain ⟨r, out, h1, h2, h3, _⟩ := core PUnit
  refine ⟨r, out, h1, h2, ?_, ?_⟩
  · intro m hm
    have := h3 m hm
    simpa [ScratchEnv.isS2S] using this
  · intro V σ
    obtain ⟨r', out', h1', h2', _, h4'⟩ := core V
    rw [h1] at h1'; cases h1'
    rw [h2] at h2'; cases h2'
    exact h4' σ

/-! ### Concrete cases -/

section Examples

/-- locations for the examples: `R i` is integer register `i`. -/
private def R (i : Nat) : Allocation := Allocation.reg (PReg.new i .Int)
private def S (i : Nat) : Allocation := Allocation.stack (SpillSlot.new i)

/-- a swap between two stack slots plus a copy out of one of them. -/
private def swap : List (Move Nat) := [⟨S 1, S 2, 10⟩, ⟨S 2, S 1, 20⟩, ⟨S 1, R 3, 30⟩]

/-- C01/C02 hypotheses hold for it, with `R 9` as the scratch location ... -/
example : UniqueWriters swap ∧ RealLocs swap ∧ ¬ Mentions swap (R 9) := by
  refine ⟨?_, ?_, ?_⟩
  · unfold UniqueWriters; decide
  · unfold RealLocs; decide
  · unfold Mentions; decide

/-- ... it does need the scratch location ... -/
example : (resolve? swap).map needsScratch = some true := by decide +kernel

/-- ... and it is cyclic. -/
example : HasCycle swap := by
  refine ⟨S 1, .tail (.single (b := S 2) ?_) ?_⟩
  · exact ⟨⟨S 2, S 1, 20⟩, by decide, rfl, rfl, by decide⟩
  · exact ⟨⟨S 1, S 2, 10⟩, by decide, rfl, rfl, by decide⟩

/-- an acyclic chain in the wrong order. -/
example : resolve? ([⟨R 1, R 2, 1⟩, ⟨R 2, R 3, 2⟩] : List (Move Nat)) =
    some (.NoScratch [⟨R 2, R 3, 2⟩, ⟨R 1, R 2, 1⟩]) := by decide +kernel

/-- A client with no free register, borrowing `R 3`, which takes part in the
moves: the hypotheses of C03 hold. -/
private def env : ScratchEnv where
  findReg _ := none
  getSlot i := Allocation.stack (SpillSlot.new (100 + i))
  isStack a := a.isStack
  borrowed := PReg.new 3 .Int

example : env.Ok swap := by
  refine ⟨by simp [env], by simp [env], ?_, by decide, by decide⟩
  unfold Mentions
  decide

/-- Lowering that swap: the cycle goes through slot 100, the borrowed register
carries each stack-to-stack copy and is restored at the end. -/
example : ((resolve? swap).bind (compute? env)).map (·.map (fun m => (m.src, m.dst))) =
    some [(S 1, R 3), (R 3, S 101), (S 1, R 3), (R 3, S 100), (S 2, R 3), (R 3, S 1), (S 100, R 3),
      (R 3, S 2), (S 101, R 3)] := by
  decide +kernel

end Examples

end Regalloc.Moves
