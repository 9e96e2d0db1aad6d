import Verif.Proofs.FastLocalRun
import Verif.Proofs.FastDebugEndRun
import Verif.Props.FastallocExample

/-
C49: the locations the single-pass allocator reports for debugging. The location reported for a
register that is live at the start of some block, or is only read in registers, holds its value
wherever the value is still to be read; the points reported are where the value starts and where the last access to it
ends; a label whose extent lies between is reported; the report is sorted by label. Locations of block parameters may be wrong at a branch, and slots of
registers that are read on the stack may be wrong before that; entries reach beyond the
extent asked for, or are missing; entries of one label may overlap.
-/
namespace Regalloc
namespace Fast
open Exec FastDebug
open Debug (Label Loc)

theorem debug_parts {cx : Cx} {out : Output} {labels : List Label} {locs : List Loc} (h : run cx = .ok out)
    (hd : debugLocations cx labels = .ok locs) :
    ∃ t d, runEnvD cx = .ok (t, d) ∧ out = outputOf cx t ∧ locs = buildDebug d labels := by
  unfold debugLocations at hd
  split at hd
  · cases hd
  · next t d hD =>
    refine ⟨t, d, hD, ?_, (Except.ok.inj hd).symm⟩
    have ht : runEnv cx = .ok t := by rw [← runEnvD_fst, hD]; rfl
    unfold run at h
    rw [ht] at h
    exact (Except.ok.inj h).symm

theorem mem_buildDebug {d : Dbg} {labels : List Label} {l s t : Nat} {a : Allocation} (h : (l, s, t, a) ∈ buildDebug d labels) :
    ∃ L ∈ labels, L.label = l ∧ d L.vreg.vreg = (some s, some t, a) ∧ s / 2 ≤ L.fr ∧ L.to ≤ t / 2 + 1 := by
  unfold buildDebug at h
  rw [mem_isort] at h
  obtain ⟨L, hL, h⟩ := List.mem_filterMap.mp h
  unfold labelLoc at h
  split at h
  · next e =>
    split at h
    · next hc =>
      cases h
      exact ⟨L, hL, rfl, e, hc⟩
    · cases h
  · cases h

/-- C49. Every reported entry comes from a label, and contains its extent. If the labelled register
is live at the start of some block, or no instruction reads it other than in a register, then
before every instruction where its value may still be read, in whatever block, the reported
location holds the value: on every path, whatever instructions compute and whatever registers
hold initially.

Partial: nothing is said about registers that are live within one block only and may be read on
the stack (`C49_local_violation`), nor about points where the value is not read any more, or once
the moves before a branch are made (`C49_edge_violation`). For `FuncOk` see C28. -/
theorem C49_locations_hold_partial {cx : Cx} {C : Nat → VReg} (he : EnvOk cx) (hf : FuncOk cx.f C) {out : Output}
    (h : run cx = .ok out) {labels : List Label} (hl : ∀ L ∈ labels, L.vreg = C L.vreg.vreg) {locs : List Loc}
    (hd : debugLocations cx labels = .ok locs) {l s t : Nat} {a : Allocation} (hm : (l, s, t, a) ∈ locs) :
    ∃ L ∈ labels, L.label = l ∧ s / 2 ≤ L.fr ∧ L.to ≤ t / 2 + 1 ∧
      (LiveAtStart cx.f L.vreg.vreg ∨ ReadInRegs cx.f L.vreg.vreg → ∀ b j, b < cx.f.numBlocks → j ∈ cx.f.blockInsts b →
        ReadLater cx.f b j L.vreg.vreg → HoldsBefore cx.f out L.vreg a b j) := by
  obtain ⟨t', d, hD, rfl, rfl⟩ := debug_parts h hd
  obtain ⟨L, hL, e, hdl, h1, h2⟩ := mem_buildDebug hm
  refine ⟨L, hL, e, h1, h2, ?_⟩
  intro hor b j hb hj hrl
  obtain ⟨eb, ea, G, D⟩ := runEnvD_spec he hf hD
  by_cases hst : LiveAtStart cx.f L.vreg.vreg
  · have hS := ((points_run hf hD) L.vreg.vreg).1 s (by rw [hdl])
    have hac : Across cx L.vreg.vreg := by
      obtain ⟨c, hc, hrc⟩ := hst
      obtain ⟨kc, hlc⟩ := readLater_live hf hc (Nat.le_refl _) hrc
      refine LIn_reader hf he (ks := kc) hc ?_
      rw [LIn_eq]
      exact hlc
    obtain ⟨n, e1, e2⟩ := D _ hac (starts_def hS)
    rw [hdl] at e2
    have e2 : a = stk n := e2
    rw [e2, hl L hL]
    exact slot_holds he hf G hb hj hst hrl e1
  · have := local_holds he hf hD G hb hj hst (hor.resolve_left hst) hrl
    rw [hdl, ← hl L hL] at this
    exact this

/-- C49. An entry starts where the labelled register gets its value and ends behind the last access
to it, in the order of the code. -/
theorem C49_points {cx : Cx} {C : Nat → VReg} (he : EnvOk cx) (hf : FuncOk cx.f C) {labels : List Label} {locs : List Loc}
    (hd : debugLocations cx labels = .ok locs) {l s t : Nat} {a : Allocation} (hm : (l, s, t, a) ∈ locs) :
    ∃ L ∈ labels, L.label = l ∧ ValueStarts cx.f L.vreg.vreg s ∧ AccessEnds cx.f L.vreg.vreg t ∧
      ∀ t', AccessEnds cx.f L.vreg.vreg t' → t' ≤ t := by
  unfold debugLocations at hd
  split at hd
  · cases hd
  · next u d hD =>
    cases hd
    obtain ⟨L, hL, e, hdl, _⟩ := mem_buildDebug hm
    have hp := (points_run hf hD) L.vreg.vreg
    have hs := hp.1 s (by rw [hdl])
    refine ⟨L, hL, e, hs, hp.2 t (by rw [hdl]), ?_⟩
    intro t' ht'
    obtain ⟨_, u, h1, h2⟩ := recorded he hf hD hs ht'
    rw [hdl] at h1
    cases h1
    exact h2

/-- C49. A label is reported if its extent lies between the point where its register gets its value
and some access. -/
theorem C49_reported {cx : Cx} {C : Nat → VReg} (he : EnvOk cx) (hf : FuncOk cx.f C) {labels : List Label} {locs : List Loc}
    (hd : debugLocations cx labels = .ok locs) {L : Label} (hL : L ∈ labels) {s p : Nat} (hs : ValueStarts cx.f L.vreg.vreg s)
    (hp : AccessEnds cx.f L.vreg.vreg p) (h1 : s / 2 ≤ L.fr) (h2 : L.to ≤ p / 2 + 1) :
    ∃ t a, (L.label, s, t, a) ∈ locs ∧ p ≤ t := by
  unfold debugLocations at hd
  split at hd
  · cases hd
  · next u d hD =>
    cases hd
    obtain ⟨e1, t, e2, h3⟩ := recorded he hf hD hs hp
    refine ⟨t, (d L.vreg.vreg).2.2, ?_, h3⟩
    unfold buildDebug
    rw [mem_isort, List.mem_filterMap]
    refine ⟨L, hL, ?_⟩
    have e : d L.vreg.vreg = (some s, some t, (d L.vreg.vreg).2.2) := Prod.ext e1 (Prod.ext e2 rfl)
    unfold labelLoc
    rw [e]
    have h4 : L.to ≤ t / 2 + 1 := by have := Nat.div_le_div_right (c := 2) h3; omega
    dsimp only
    rw [if_pos ⟨h1, h4⟩]

/-- C49. The entries are sorted by label, and there is at most one for each label given. -/
theorem C49_sorted {cx : Cx} {labels : List Label} {locs : List Loc} (hd : debugLocations cx labels = .ok locs) :
    locs.Pairwise (fun x y => x.1 ≤ y.1) ∧ ∀ l, (locs.map Prod.fst).count l ≤ (labels.map Label.label).count l := by
  unfold debugLocations at hd
  split at hd
  · cases hd
  · next t d hD =>
    cases hd
    constructor
    · have := pairwise_isort (le := fun a b : Loc => decide (a.1 ≤ b.1)) (fun a b c h1 h2 => by
        simp only [decide_eq_true_eq] at *; omega) (fun a b => by simp only [decide_eq_true_eq]; omega)
        (labels.filterMap (labelLoc d))
      exact this.imp (fun h => of_decide_eq_true h)
    · intro l
      unfold buildDebug
      rw [((perm_isort _ _).map Prod.fst).count_eq]
      induction labels with
      | nil => simp
      | cons L ls ih =>
        rw [List.filterMap_cons, List.map_cons, List.count_cons]
        cases hL : labelLoc d L with
        | none => dsimp only; omega
        | some x =>
          have e : x.1 = L.label := by
            unfold labelLoc at hL
            split at hL
            · split at hL
              · cases hL; rfl
              · cases hL
            · cases hL
          dsimp only
          rw [List.map_cons, List.count_cons, e]
          omega

/-- C49. Locations are reported just if there is an allocation. -/
theorem C49_total (cx : Cx) (labels : List Label) : (∃ locs, debugLocations cx labels = .ok locs) ↔ ∃ out, run cx = .ok out := by
  unfold debugLocations run
  rw [← runEnvD_fst]
  cases runEnvD cx with
  | error e =>
    constructor
    · rintro ⟨_, h⟩; cases h
    · rintro ⟨_, h⟩; cases h
  | ok r => exact ⟨fun _ => ⟨_, rfl⟩, fun _ => ⟨_, rfl⟩⟩

/-! ### Non-vacuity, and where the claims fail -/

/-- What is reported, if anything. -/
def reportedF (cx : Cx) (labels : List Label) : Option (List Loc) :=
  match debugLocations cx labels with | .ok locs => some locs | .error _ => none

/-- Each register of the example has its number as label, at instruction 6. -/
def Ex.labels : List Label := (List.range 7).map (fun n => ⟨Ex.v n, 6, 7, n⟩)

example : reportedF Ex.cx Ex.labels = some [(1, 1, 12, stk 3), (3, 6, 15, stk 1), (4, 6, 12, stk 2), (5, 7, 15, stk 0),
    (6, 11, 12, .reg (Ex.p 2))] := by decide +kernel
example : ∀ L ∈ Ex.labels, L.vreg = Ex.v L.vreg.vreg := by decide +kernel

/-- Register 1 is defined by instruction 0 and last read by instruction 5. -/
example : ValueStarts Ex.f 1 1 ∧ AccessEnds Ex.f 1 12 :=
  ⟨⟨0, by decide, .inr ⟨0, by decide, by decide, rfl⟩⟩, 2, by decide, 5, by decide, .inr (.inl ⟨by decide, rfl⟩)⟩

/-- Register 3 is a parameter of block 1 and read by its first instruction. -/
example : LiveAtStart Ex.f 3 :=
  ⟨1, by decide, _, .inl rfl, [], _, rfl, by simp⟩

/-- Register 1 is read by instruction 5 of the loop body, in each round, though it is not read in
block 1. -/
example : ReadLater Ex.f 1 4 1 :=
  ⟨_, .inr ⟨0, 2, _, rfl, .stop 2, rfl⟩, [.read 3, .read 5], _, rfl, by decide⟩

private def sem : Sem Nat := fun _ => ⟨fun i l k => 1000 + 100 * i + l.sum + k, fun i e l k => 10000 + 100 * i + e.sum * 3 + l.sum + k⟩

/-- After `ks` and then `items`, or instructions `is` before allocation, location `a` does not hold
the value of `v`. -/
private def wrongAt (f : Func) (out : Output) (v : VReg) (a : Allocation) (b : Nat) (ks : List Nat) (items : List InstOrEdit) (is : List Nat) : Bool :=
  match Debug.allocReach f out sem (fun _ _ => 77) ks f.entry (fun _ => 8) [], Debug.origReach f sem ks f.entry (fun _ => 7) [] with
  | some (c, A, trA), some (c', V, trV) => decide (c = b) && decide (c' = b) &&
    decide ((allocItems f out sem (fun _ _ => 77) items A trA).1 a ≠ (origInsts f sem is V trV).1 v)
  | _, _ => false

private theorem wrongAt_spec {f : Func} {out : Output} {v : VReg} {a : Allocation} {b : Nat} {ks : List Nat} {items : List InstOrEdit} {is : List Nat}
    (h : wrongAt f out v a b ks items is = true) : ∃ A trA V trV,
    Debug.allocReach f out sem (fun _ _ => 77) ks f.entry (fun _ => 8) [] = some (b, A, trA) ∧
    Debug.origReach f sem ks f.entry (fun _ => 7) [] = some (b, V, trV) ∧
    (allocItems f out sem (fun _ _ => 77) items A trA).1 a ≠ (origInsts f sem is V trV).1 v := by
  unfold wrongAt at h
  split at h
  · next c A trA c' V trV h1 h2 =>
    simp only [Bool.and_eq_true, decide_eq_true_eq] at h
    obtain ⟨⟨rfl, rfl⟩, h3⟩ := h
    exact ⟨A, trA, V, trV, h1, h2, h3⟩
  · cases h

namespace Bug

/-- A value read in one register and then in another. -/
def twoReads : Cx := single 4 fun
  | 0 => [⟨v 1, .Reg, .Def, .Late⟩]
  | 1 => [⟨v 1, .FixedReg (p 0), .Use, .Early⟩]
  | 2 => [⟨v 1, .FixedReg (p 1), .Use, .Early⟩]
  | _ => []

/-- A value defined in one register, read on the stack and then in another register. -/
def staleSlot : Cx := single 5 fun
  | 0 => [⟨v 1, .FixedReg (p 0), .Def, .Late⟩]
  | 2 => [⟨v 1, .Stack, .Use, .Early⟩]
  | 3 => [⟨v 1, .FixedReg (p 1), .Use, .Early⟩]
  | _ => []

/-- Two values, one after the other. -/
def twoValues : Cx := single 4 fun
  | 0 => [⟨v 1, .FixedReg (p 0), .Def, .Late⟩]
  | 1 => [⟨v 2, .FixedReg (p 1), .Def, .Late⟩]
  | 2 => [⟨v 1, .FixedReg (p 0), .Use, .Early⟩, ⟨v 2, .FixedReg (p 1), .Use, .Early⟩]
  | _ => []

end Bug

/-- The hypotheses are met by registers that are live within one block. Register 2 of the larger
example is passed to a parameter. -/
example : reportedF Ex.cx [⟨Ex.v 2, 2, 3, 2⟩] = some [(2, 3, 4, stk 4)] ∧ ReadInRegs Ex.f 2 ∧ ReadLater Ex.f 0 2 2 := by
  refine ⟨by decide +kernel, ?_, _, .inr ⟨0, 1, _, rfl, .stop 1, rfl⟩, [.read 1], _, rfl, by decide⟩
  have : ∀ b ∈ List.range 4, ∀ i ∈ Ex.f.blockInsts b, ∀ o ∈ Ex.f.operands i, ¬ (o.kind = .Use ∧ o.vreg.vreg = 2) := by decide +kernel
  exact fun b hb i hi o ho h1 h2 => absurd ⟨h1, h2⟩ (this b (List.mem_range.mpr hb) i hi o ho)

/-- Here it is reported in a register. -/
theorem Bug.twoReads_ok : EnvOk Bug.twoReads ∧ FuncOk Bug.twoReads.f Bug.v := by
  refine ⟨{ class_ok := ?_, real := (fun _ _ _ h => by cases h), scratch := (fun _ _ h => by cases h), invalid := (fun h => by cases h),
            size_pos := fun _ => Nat.zero_lt_one, size_le := fun _ => (by decide : 1 ≤ 2 ^ 20) }, ?_⟩
  · have key : ∀ c : RegClass, ∀ q ∈ (Bug.twoReads.regs c).toList, q.class? = some c := by
      intro c; cases c <;> decide +kernel
    intro c q hq
    exact key c q ((mem_toList _ _).mpr ((regs_iff Bug.twoReads c q).mpr hq))
  · refine { first := rfl, next := ?_, nonempty := by decide, count := ?_, entry := by decide, succs := by decide, preds := ?_,
             succs_nodup := by decide, entry_params := rfl, no_critical := ?_, branch_last := by decide, succs_branch := by decide,
             branch_join := ?_, branch_uses := by decide, vregs := by decide, operands := ?_, params := by decide +kernel,
             args := ?_, single := by decide +kernel, defined := ?_, use_after_def := ?_, arg_after_def := ?_,
             use_after_param := ?_, arg_after_param := ?_ }
    · intro b hb; exact absurd hb (by have : Bug.twoReads.f.numBlocks = 1 := rfl; omega)
    · intro b hb
      have h2 : Bug.twoReads.f.numBlocks = 1 := rfl
      have : b = 0 := by omega
      subst this; rfl
    · intro b s hs
      constructor
      · intro h; cases h
      · intro h; cases h.2
    · intro b b' s _ _ h; cases h
    · intro b b' s _ _ h; cases h
    · have : ∀ i, i < Bug.twoReads.f.numInsts → (Bug.twoReads.f.operands i).all (opOkB Bug.twoReads.f Bug.v i) = true ∧
          (reusesOf Bug.twoReads.f i).Nodup := by decide +kernel
      exact fun i hi => operandsOk_of (this i hi).1 (this i hi).2
    · intro b hb k s hs; cases hs
    · exact fun ks => noUndefined_of (T := fun b => []) (by decide +kernel) ks 0 _ (by decide) (by intro x hx; simp at hx)
    · have : ∀ i, i < Bug.twoReads.f.numInsts → ∀ i', i' < Bug.twoReads.f.numInsts → ∀ v ∈ opWrites (Bug.twoReads.f.operands i),
        ∀ w ∈ opReads (Bug.twoReads.f.operands i'), v.vreg = w.vreg → i < i' := by decide +kernel
      exact fun i i' hi hi' => this i hi i' hi'
    · intro i b k s _ _ h; cases h
    · intro b i _ _ v h; cases h
    · intro b b' k s _ _ h; cases h

example : reportedF Bug.twoReads [⟨Bug.v 1, 1, 2, 1⟩] = some [(1, 1, 5, .reg (Bug.p 1))] ∧ ReadInRegs Bug.twoReads.f 1 ∧
    ReadLater Bug.twoReads.f 0 2 1 := by
  refine ⟨by decide +kernel, ?_, _, .inl rfl, [], _, rfl, by simp⟩
  have : ∀ i ∈ List.range 4, ∀ o ∈ Bug.twoReads.f.operands i, o.kind = .Use → o.constraint = .FixedReg (Bug.p 0) ∨
      o.constraint = .FixedReg (Bug.p 1) := by decide +kernel
  intro b _ i hi o ho h1 _
  refine (this i (List.mem_range.mpr ?_) o ho h1).elim (fun h => .inr ⟨_, h⟩) (fun h => .inr ⟨_, h⟩)
  have := mem_blockInsts.mp hi
  exact this.2

/-- The allocator succeeds and the outcome satisfies the check. -/
private def outcome (cx : Cx) (labels : List Label) (check : Output → List Loc → Bool) : Bool :=
  match run cx, debugLocations cx labels with | .ok out, .ok locs => check out locs | _, _ => false

private theorem outcome_spec {cx : Cx} {labels : List Label} {check : Output → List Loc → Bool} (h : outcome cx labels check = true) :
    ∃ out locs, run cx = .ok out ∧ debugLocations cx labels = .ok locs ∧ check out locs = true := by
  unfold outcome at h
  split at h
  · next out locs h1 h2 => exact ⟨out, locs, h1, h2, h⟩
  · cases h

/-- C49 fails: an entry is the whole live range of the register, not just the part asked for. Here
the label covers instruction 2 only, and the entry starts before. So labels that follow each
other on different registers have entries that overlap, though the ranges of a label are said
to be disjoint. -/
theorem C49_extent_violation : ∃ cx out labels locs, Accepted cx.f ∧ run cx = .ok out ∧ debugLocations cx labels = .ok locs ∧
    labels.Pairwise (fun x y => x.to ≤ y.fr) ∧ (∀ x ∈ labels, x.fr < x.to) ∧
    (∃ l s t a, (l, s, t, a) ∈ locs ∧ ∀ L ∈ labels, L.label = l → s < ptBefore L.fr ∨ ptBefore L.to < t) ∧
    ∃ l s t a s' t' a' p, (l, s, t, a) ∈ locs ∧ (l, s', t', a') ∈ locs ∧ a ≠ a' ∧ s ≤ p ∧ p < t ∧ s' ≤ p ∧ p < t' := by
  obtain ⟨out, locs, h1, h2, h3⟩ := outcome_spec (cx := Bug.twoValues) (labels := [⟨Bug.v 1, 1, 2, 0⟩, ⟨Bug.v 2, 2, 3, 0⟩])
    (check := fun out locs => decide ((0, 1, 5, Allocation.reg (Bug.p 0)) ∈ locs ∧ (0, 3, 5, Allocation.reg (Bug.p 1)) ∈ locs)) (by decide +kernel)
  have h3 := of_decide_eq_true h3
  exact ⟨Bug.twoValues, out, _, locs, accepted_of (by decide +kernel), h1, h2, by decide, by decide, ⟨0, 1, 5, _, h3.1, by decide⟩,
    0, 1, 5, _, 3, 5, _, 3, h3.1, h3.2, by decide +kernel, by decide, by decide, by decide, by decide⟩

/-- C49 fails: a label that extends beyond the live range of its register is not reported at
all, even where the value is live. -/
theorem C49_coverage_violation : ∃ cx out L, Accepted cx.f ∧ run cx = .ok out ∧ debugLocations cx [L] = .ok [] ∧
    ∃ b j, b < cx.f.numBlocks ∧ j ∈ cx.f.blockInsts b ∧ L.fr ≤ j ∧ j < L.to ∧ ReadLater cx.f b j L.vreg.vreg := by
  obtain ⟨out, locs, h1, h2, h3⟩ := outcome_spec (cx := Bug.twoReads) (labels := [⟨Bug.v 1, 1, 4, 1⟩])
    (check := fun out locs => decide (locs = [])) (by decide +kernel)
  have h3 := of_decide_eq_true h3
  subst h3
  exact ⟨Bug.twoReads, out, _, accepted_of (by decide +kernel), h1, h2, 0, 1, by decide, by decide +kernel, by decide, by decide,
    _, .inl rfl, [], _, rfl, by simp⟩

/-- C49 fails: the location reported may not hold the value, though it is still to be read. The
slot of a register that is read on the stack is reported from the definition on. But there the
slot is stored to from the register that later code reads, before that one has got the value
(`/repo/src/fastalloc/mod.rs:866-869` and `1117-1119`: the two moves are emitted in this order, and
edits are emitted backwards). The slot gets the value just before it is read. In between, it holds
what was in the register before. -/
theorem C49_local_violation : ∃ cx out L locs, Accepted cx.f ∧ run cx = .ok out ∧ debugLocations cx [L] = .ok locs ∧
    ∃ s t a b j, (L.label, s, t, a) ∈ locs ∧ b < cx.f.numBlocks ∧ j ∈ cx.f.blockInsts b ∧ L.fr ≤ j ∧ j < L.to ∧
      s ≤ ptBefore j ∧ ptBefore j < t ∧ ReadLater cx.f b j L.vreg.vreg ∧ ¬ HoldsBefore cx.f out L.vreg a b j := by
  obtain ⟨out, locs, h1, h2, h3⟩ := outcome_spec (cx := Bug.staleSlot) (labels := [⟨Bug.v 1, 1, 3, 1⟩])
    (check := fun out locs => decide ((1, 1, 7, stk 0) ∈ locs) &&
      wrongAt Bug.staleSlot.f out (Bug.v 1) (stk 0) 0 [] (Debug.upTo out 0 3) [0, 1]) (by decide +kernel)
  rw [Bool.and_eq_true, decide_eq_true_eq] at h3
  refine ⟨Bug.staleSlot, out, ⟨Bug.v 1, 1, 3, 1⟩, locs, accepted_of (by decide +kernel), h1, h2, 1, 7, _, 0, 2, h3.1, by decide,
    by decide +kernel, by decide, by decide, by decide, by decide, ⟨_, .inl rfl, [], _, rfl, by simp⟩, ?_⟩
  intro hh
  obtain ⟨A, trA, V, trV, e1, e2, e3⟩ := wrongAt_spec h3.2
  exact e3 (hh Nat sem (fun _ _ => 77) [] (fun _ => 7) V (fun _ => 8) A trA trV e1 e2)

/-- C49 fails: arguments are moved to the slots of block parameters before the branch that passes
them. At the point before the branch at the end of the loop body, the entry of parameter 3 still
holds, but its slot has the value of the next round. -/
theorem C49_edge_violation : ∃ cx C out L locs, EnvOk cx ∧ FuncOk cx.f C ∧ run cx = .ok out ∧ L.vreg = C L.vreg.vreg ∧
    debugLocations cx [L] = .ok locs ∧
    ∃ s t a b j, (L.label, s, t, a) ∈ locs ∧ b < cx.f.numBlocks ∧ j ∈ cx.f.blockInsts b ∧ s ≤ ptBefore j ∧ ptBefore j < t ∧
      ReadLater cx.f b j L.vreg.vreg ∧ ¬ Debug.Locates cx.f out L.vreg a b (ptBefore j) := by
  obtain ⟨out, locs, h1, h2, h3⟩ := outcome_spec (cx := Ex.cx) (labels := [⟨Ex.v 3, 6, 7, 3⟩])
    (check := fun out locs => decide ((3, 6, 15, stk 1) ∈ locs) &&
      wrongAt Ex.f out (Ex.v 3) (stk 1) 2 [0, 0] (Debug.upTo out 5 12) [5]) (by decide +kernel)
  rw [Bool.and_eq_true, decide_eq_true_eq] at h3
  refine ⟨Ex.cx, Ex.v, out, ⟨Ex.v 3, 6, 7, 3⟩, locs, Ex.envOk, Ex.funcOk, h1, by decide +kernel, h2, 6, 15, _, 2, 6, h3.1, by decide,
    by decide +kernel, by decide, by decide, ?_, ?_⟩
  · exact ⟨_, .inr ⟨0, 1, _, rfl, .stop 1, rfl⟩, [.read 4], _, rfl, by decide⟩
  · intro hh
    obtain ⟨A, trA, V, trV, e1, e2, e3⟩ := wrongAt_spec h3.2
    exact e3 (hh Nat sem (fun _ _ => 77) [0, 0] (fun _ => 7) V (fun _ => 8) A trA trV e1 e2)

end Fast
end Regalloc
