import Verif.Proofs.ProcessTerm
import Verif.Proofs.ProcessStuck

/-
C40: the allocation loop (`queue_bundles`, `process_bundles` and
`try_allocating_regs_for_spilled_bundles`), for all programs, machines and costs.
-/
namespace Regalloc.Ion

/-- C40: if the loop succeeds, every point and every use of every live range is covered by a
part of that range; every part is in a register that serves all its uses, or in a slot that
does; parts in one register do not overlap each other or reservations of the register; and
parts of one register overlap only where one of them serves a single use. -/
theorem C40_placed (P : Params) (q q' : PSt) (fuel : Nat) (hP : Setting P q.st) (hq : Ready q)
    (h : allocate P fuel q = .ok q') : Placed P q q' := by
  have := allocate_spec hP hq fuel
  rw [h] at this
  exact this

/-- C40: as long as there is a register to ask for, the loop does not panic: it ends with an
allocation, or reports that it ran out of registers. -/
theorem C40_no_panic (P : Params) (q : PSt) (fuel : Nat) (hP : Setting P q.st) (hq : Ready q) (hs : Supply P q.st) :
    allocate P fuel q ≠ .error .panic := by
  intro h
  have := allocate_spec hP hq fuel
  rw [h] at this
  exact this hs rfl

/-- C40: the loop ends. Bundles evict and split each other only so often. -/
theorem C40_terminates (P : Params) (q : PSt) (hP : Setting P q.st) (hT : LocalTotal P) (hq : Ready q) :
    ∃ fuel, allocate P fuel q ≠ .error .fuel ∧ ∀ more, allocate P (fuel + more) q = allocate P fuel q :=
  allocate_ends hP hT hq

/-- C40: the loop reports too many live registers only if an instruction asks for more
registers at one point than there are: each that an operand may have is reserved there, or
goes to another operand of the instruction. -/
theorem C40_too_many (P : Params) (q : PSt) (fuel : Nat) (hP : Setting P q.st) (hq : Ready q) (hl : LimitsOk q.st)
    (h : allocate P fuel q = .error .tooManyLiveRegs) : Crowded P q := by
  rcases allocate_error hP hq hl fuel _ h with h | h | ⟨-, h⟩ | ⟨h, -⟩ | ⟨h, -⟩
  · cases h
  · cases h
  · exact h
  · cases h
  · cases h

/-- C40: the loop panics because a bundle cannot be allocated (`/repo/src/ion/process.rs:1270-1275`)
only if an operand asks for a register by name that is reserved where it is needed, or that
another operand of the instruction asks for, too. -/
theorem C40_unallocatable (P : Params) (q : PSt) (fuel : Nat) (hP : Setting P q.st) (hq : Ready q) (hl : LimitsOk q.st)
    (h : allocate P fuel q = .error .unallocatable) : Clash P q := by
  rcases allocate_error hP hq hl fuel _ h with h | h | ⟨h, -⟩ | ⟨-, h⟩ | ⟨h, -⟩
  · cases h
  · cases h
  · cases h
  · exact h
  · cases h

/-- C40: the check before that error fails on the first point of the program
(`/repo/src/ion/process.rs:1217`) only if there are too many live registers there. -/
theorem C40_underflow (P : Params) (q : PSt) (fuel : Nat) (hP : Setting P q.st) (hq : Ready q) (hl : LimitsOk q.st)
    (h : allocate P fuel q = .error .underflow) : Crowded P q ∧ AtStart q := by
  rcases allocate_error hP hq hl fuel _ h with h | h | ⟨h, -⟩ | ⟨h, -⟩ | ⟨-, h⟩
  · cases h
  · cases h
  · cases h
  · cases h
  · exact h

/-- C40: so if registers are in supply and no instruction asks for too much, the loop ends
with an allocation. -/
theorem C40_total (P : Params) (q : PSt) (hP : Setting P q.st) (hT : LocalTotal P) (hq : Ready q) (hs : Supply P q.st) (hl : LimitsOk q.st)
    (h1 : ¬ Crowded P q) (h2 : ¬ Clash P q) :
    ∃ fuel q', Placed P q q' ∧ ∀ more, allocate P (fuel + more) q = .ok q' := by
  obtain ⟨fuel, h3, h4⟩ := C40_terminates P q hP hT hq
  cases hr : allocate P fuel q with
  | ok q' => exact ⟨fuel, q', C40_placed P q q' fuel hP hq hr, fun more => (h4 more).trans hr⟩
  | error e =>
    exfalso
    cases e with
    | panic => exact C40_no_panic P q fuel hP hq hs hr
    | fuel => exact h3 hr
    | tooManyLiveRegs => exact h1 (C40_too_many P q fuel hP hq hl hr)
    | unallocatable => exact h2 (C40_unallocatable P q fuel hP hq hl hr)
    | underflow => exact h1 (C40_underflow P q fuel hP hq hl hr).1

/-! ### Examples -/

/-- One register, two instructions that define a value and two that use them in the other
order: the values do not fit. -/
def exLoopParams (n : Nat) : Params where
  env := ⟨fun _ => PRegSet.ofList ((List.range n).map (fun i => PReg.new i .Int)), fun _ => PRegSet.ofList [], fun _ => none, []⟩
  insnBlock := fun _ => 0
  depth := fun _ => 0
  blockEntry := fun _ => 0
  numInsts := 4
  total := fun st b => ((st.bundles b).ranges.map (fun e => 1000 * (st.ranges e.index).uses.length)).sum

def exLoopUse (v : Nat) (c : OperandConstraint) (k : OperandKind) (pos slot : Nat) : Use :=
  ⟨⟨VReg.new v .Int, c, k, if pos % 2 = 0 then .Early else .Late⟩, pos, slot⟩

def exLoop (c : OperandConstraint) : St where
  ranges := fun i =>
    if i = 0 then ⟨⟨1, 7⟩, some 0, some 0, true, [exLoopUse 0 .Reg .Def 1 0, exLoopUse 0 c .Use 6 0]⟩
    else if i = 1 then ⟨⟨3, 5⟩, some 1, some 1, true, [exLoopUse 1 .Reg .Def 3 0, exLoopUse 1 .Reg .Use 4 0]⟩
    else .fresh ⟨0, 0⟩
  nRanges := 2
  bundles := fun b =>
    if b = 0 then { Bundle.fresh with ranges := [⟨⟨1, 7⟩, 0⟩] }
    else if b = 1 then { Bundle.fresh with ranges := [⟨⟨3, 5⟩, 1⟩], spillset := 1 }
    else .fresh
  nBundles := 2
  spillsets := fun t => ⟨none, none, .Int, none, false, 0, if t = 0 then ⟨1, 7⟩ else ⟨3, 5⟩⟩
  nSpillsets := 2
  vregs := fun v => if v = 0 then [⟨⟨1, 7⟩, 0⟩] else if v = 1 then [⟨⟨3, 5⟩, 1⟩] else []
  queue := []
  spilled := []

def exStart (c : OperandConstraint) : PSt := ⟨exLoop c, fun _ => []⟩

theorem exLoopLive {c : OperandConstraint} {b : Nat} {e : Entry} (h : Live (exStart c).st b e) :
    (b = 0 ∧ e = ⟨⟨1, 7⟩, 0⟩) ∨ (b = 1 ∧ e = ⟨⟨3, 5⟩, 1⟩) := by
  obtain ⟨h1, h2⟩ := h
  have h1 : b < 2 := h1
  rcases (by omega : b = 0 ∨ b = 1) with rfl | rfl
  · left; simpa [exStart, exLoop] using h2
  · right; simpa [exStart, exLoop] using h2

theorem exLoopOwns {c : OperandConstraint} {w i : Nat} (hi : i < 2) : Owns (exStart c).st w i ↔ w = i := by
  unfold Owns
  simp only [exStart, exLoop]
  by_cases h0 : w = 0
  · subst h0; simp [eq_comm]
  · by_cases h1 : w = 1
    · subst h1; simp [eq_comm]
    · simp [h0, h1]; omega

/-- The state meets the conditions of the theorems. -/
theorem exLoopReady (c : OperandConstraint) : Ready (exStart c) where
  neat := by
    intro b e h
    rcases exLoopLive h with ⟨rfl, rfl⟩ | ⟨rfl, rfl⟩
    · refine ⟨⟨rfl, (by simp [exStart, exLoop]), by decide, rfl, ⟨0, fun w => exLoopOwns (by decide)⟩, ?_, ?_, ?_, ?_, ?_⟩, ⟨0, rfl, (exLoopOwns (by decide)).mpr rfl⟩, ?_, ?_⟩
      all_goals simp [exStart, exLoop, exLoopUse, Covers, Flagged]
      · exact ⟨by simp, by simp, by simp⟩
    · refine ⟨⟨rfl, (by simp [exStart, exLoop]), by decide, rfl, ⟨1, fun w => exLoopOwns (by decide)⟩, ?_, ?_, ?_, ?_, ?_⟩, ⟨1, rfl, (exLoopOwns (by decide)).mpr rfl⟩, ?_, ?_⟩
      all_goals simp [exStart, exLoop, exLoopUse, Covers, Flagged]
      · exact ⟨by simp, by simp, by simp⟩
  once := by
    intro b e b' e' h h'
    rcases exLoopLive h with ⟨rfl, rfl⟩ | ⟨rfl, rfl⟩ <;> rcases exLoopLive h' with ⟨rfl, rfl⟩ | ⟨rfl, rfl⟩ <;>
      simp [exStart, exLoop, exLoopUse]
  tidy := by
    intro b hb
    have hb : b < 2 := hb
    rcases (by omega : b = 0 ∨ b = 1) with rfl | rfl <;> simp [exStart, exLoop, Tidy]
  vregs := by
    constructor
    · intro v
      by_cases h0 : v = 0
      · subst h0; simp [exStart, exLoop, Tidy]
      · by_cases h1 : v = 1
        · subst h1; simp [exStart, exLoop, Tidy]
        · simp [exStart, exLoop, Tidy, h0, h1]
    · intro v e he
      by_cases h0 : v = 0
      · subst h0; simp [exStart, exLoop] at he; subst he; simp [exStart, exLoop]
      · by_cases h1 : v = 1
        · subst h1; simp [exStart, exLoop] at he; subst he; simp [exStart, exLoop]
        · simp [exStart, exLoop, h0, h1] at he
  housed := by
    intro v e he
    by_cases h0 : v = 0
    · subst h0; simp [exStart, exLoop] at he; subst he; exact ⟨0, by simp [exStart, exLoop], by simp [exStart, exLoop]⟩
    · by_cases h1 : v = 1
      · subst h1; simp [exStart, exLoop] at he; subst he; exact ⟨1, by simp [exStart, exLoop], by simp [exStart, exLoop]⟩
      · simp [exStart, exLoop, h0, h1] at he
  sets := by
    intro b b' hb hb' _ _ h
    have hb : b < 2 := hb
    have hb' : b' < 2 := hb'
    rcases (by omega : b = 0 ∨ b = 1) with rfl | rfl <;> rcases (by omega : b' = 0 ∨ b' = 1) with rfl | rfl <;>
      simp [exStart, exLoop, Bundle.fresh] at h ⊢
  known := by
    intro b hb
    have hb : b < 2 := hb
    rcases (by omega : b = 0 ∨ b = 1) with rfl | rfl <;> simp [exStart, exLoop, Bundle.fresh]
  span := by
    intro b hb
    have hb : b < 2 := hb
    rcases (by omega : b = 0 ∨ b = 1) with rfl | rfl <;> simp [SpanOk, exStart, exLoop, Bundle.fresh]
  fresh := by
    intro b hb
    have hb : b < 2 := hb
    rcases (by omega : b = 0 ∨ b = 1) with rfl | rfl <;> rfl
  unspilled := fun t => ⟨rfl, rfl⟩
  lists := ⟨rfl, rfl⟩
  maps := fun p => ⟨⟨by simp [exStart], by simp [exStart]⟩, by simp [exStart]⟩

theorem exLoopSetting (n : Nat) (c : OperandConstraint) : Setting (exLoopParams n) (exStart c).st where
  blocks := by
    intro i j k _ _ h1 h2
    simp only [exLoopParams] at h1 h2
    omega
  inside := by
    intro b e h
    rcases exLoopLive h with ⟨rfl, rfl⟩ | ⟨rfl, rfl⟩ <;> simp [exLoopParams]
  allocatable := by intro cls p _; simp [exLoopParams]

example (n : Nat) : LocalTotal (exLoopParams n) := by
  intro st st' b h1 h2
  simp only [exLoopParams, h1]
  congr 1
  apply List.map_congr_left
  intro e he
  rw [h2 e he]

example : Supply (exLoopParams 1) (exStart .Reg).st where
  reg := fun _ _ _ _ _ _ => ⟨PReg.new 0 .Int, .inl (by simp only [exLoopParams]; decide +kernel)⟩
  limit := by
    intro b e h u hu n hn
    rcases exLoopLive h with ⟨rfl, rfl⟩ | ⟨rfl, rfl⟩ <;> simp [exStart, exLoop] at hu <;> rcases hu with rfl | rfl <;> simp [exLoopUse] at hn

def exLoopView (r : Except PErr PSt) : Option (List (List RKey × Option PReg) × List Bool) :=
  match r with
  | .ok q => some ((List.range q.st.nBundles).map (fun b => ((q.st.bundles b).ranges.map (·.range), (q.st.bundles b).alloc)),
      (List.range q.st.nSpillsets).map (fun t => (q.st.spillsets t).required))
  | .error _ => none

/-- With one register, the first value is kept in a slot while the other has the register. -/
example : exLoopView (allocate (exLoopParams 1) 5 (exStart .Reg)) =
    some ([([⟨1, 2⟩], some (PReg.new 0 .Int)), ([⟨3, 5⟩], some (PReg.new 0 .Int)), ([⟨6, 7⟩], some (PReg.new 0 .Int)),
      ([⟨2, 4⟩, ⟨4, 6⟩], none)], [true, false]) := by decide +kernel

/-- With two registers, nothing is split. -/
example : exLoopView (allocate (exLoopParams 2) 5 (exStart .Reg)) =
    some ([([⟨1, 7⟩], some (PReg.new 0 .Int)), ([⟨3, 5⟩], some (PReg.new 1 .Int))], [false, false]) := by decide +kernel

theorem exLoopLimits (c : OperandConstraint) (hc : ∀ n, c = .Limit n → n ≤ 64) : LimitsOk (exStart c).st := by
  intro u ⟨b, e, h, hu⟩ n hn
  rcases exLoopLive h with ⟨rfl, rfl⟩ | ⟨rfl, rfl⟩ <;> simp [exStart, exLoop] at hu <;> rcases hu with rfl | rfl <;> simp [exLoopUse] at hn
  exact hc n hn

/-- The same program, with a reservation of the first register. -/
def exBusy (c : OperandConstraint) (k : RKey) : PSt := ⟨exLoop c, fun p => if p = PReg.new 0 .Int then [(k, none)] else []⟩

theorem exBusyReady (c : OperandConstraint) (k : RKey) (hk : k.fr < k.to) : Ready (exBusy c k) :=
  { exLoopReady c with
    maps := by
      intro p
      simp only [exBusy]
      split
      · refine ⟨⟨by intro e he; rw [List.mem_singleton] at he; subst he; exact RKey.nonempty_iff.mpr hk, by simp⟩, by simp⟩
      · simp [RangesSorted] }

def exLoopFails (r : Except PErr PSt) : Option PErr :=
  match r with
  | .ok _ => none
  | .error e => some e

/-- With the register reserved where the second value is defined, there are too few. -/
example : exLoopFails (allocate (exLoopParams 1) 5 (exBusy .Reg ⟨3, 4⟩)) = some .tooManyLiveRegs := by decide +kernel

/-- With another register, that is no problem. -/
example : exLoopFails (allocate (exLoopParams 2) 5 (exBusy .Reg ⟨3, 4⟩)) = none := by decide +kernel

/-- The same for an operand that asks for the register by name. -/
example : exLoopFails (allocate (exLoopParams 2) 5 (exBusy (.FixedReg (PReg.new 0 .Int)) ⟨6, 7⟩)) = some .unallocatable := by
  decide +kernel

example : Crowded (exLoopParams 1) (exBusy .Reg ⟨3, 4⟩) :=
  C40_too_many _ _ 5 (exLoopSetting 1 .Reg) (exBusyReady .Reg ⟨3, 4⟩ (by decide)) (exLoopLimits .Reg (by simp))
    (by
      have : exLoopFails (allocate (exLoopParams 1) 5 (exBusy .Reg ⟨3, 4⟩)) = some .tooManyLiveRegs := by decide +kernel
      unfold exLoopFails at this
      split at this
      · cases this
      · rename_i e he; cases this; exact he)

/-- The conditions of `C40_total` are met by the first program, on a machine with a register. -/
example : ¬ Crowded (exLoopParams 1) (exStart .Reg) ∧ ¬ Clash (exLoopParams 1) (exStart .Reg) := by
  have hrec : ∀ {u : Use}, Recorded (exStart .Reg).st u → u.slot = 0 ∧ u.op.constraint = .Reg := by
    intro u ⟨b, e, h, hu⟩
    rcases exLoopLive h with ⟨rfl, rfl⟩ | ⟨rfl, rfl⟩ <;> simp [exStart, exLoop] at hu <;> rcases hu with rfl | rfl <;> simp [exLoopUse]
  constructor
  · rintro ⟨c, e, u, h1, h2, -, taken, h3, -⟩
    have hu := hrec ⟨c, e, h1, h2⟩
    have := h3 (PReg.new 0 .Int) ⟨.inl (by simp only [exLoopParams]; decide +kernel), by rw [hu.2]; simp⟩
    cases ht : taken (PReg.new 0 .Int) with
    | none => rw [ht] at this; obtain ⟨k, x, hk, -⟩ := this; cases hk
    | some u' =>
      rw [ht] at this
      exact this.2.2.1 ((hrec this.1).1.trans hu.1.symm)
  · rintro ⟨u, p, o, h1, h2, -⟩
    rw [(hrec h1).2] at h2
    cases h2

/-- C40, limit of the claim: with no register in the class, the loop panics (a debug assertion
fails, `/repo/src/ion/process.rs:1199-1202`) where one would expect the error for too many live
registers. -/
theorem C40_no_register_panics : ∃ P q fuel, Setting P q.st ∧ Ready q ∧ allocate P fuel q = .error .panic := by
  refine ⟨exLoopParams 0, exStart .Reg, 5, exLoopSetting 0 .Reg, exLoopReady .Reg, ?_⟩
  have : (match allocate (exLoopParams 0) 5 (exStart .Reg) with
    | .error .panic => true
    | _ => false) = true := by decide +kernel
  split at this
  · assumption
  · cases this

end Regalloc.Ion
