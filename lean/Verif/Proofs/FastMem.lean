import Verif.Proofs.FastBasic

/-
The single-pass allocator inserts no move from memory to memory.
-/
namespace Regalloc
namespace Fast

/-- No edit moves from memory to memory; scratch registers are real. -/
structure MemOk (cx : Cx) (s : FS) : Prop where
  edits : ∀ q ∈ s.edits, ¬ (cx.isStack q.2.src = true ∧ cx.isStack q.2.dst = true)
  scratch : ∀ c r, s.scratch c = some r → cx.isStack (Allocation.reg r) = false
  lru : LruOk cx s.lrus

section
variable {cx : Cx} {s s' : FS}

theorem MemOk.same (h : MemOk cx s) (h1 : s'.edits = s.edits) (h2 : s'.scratch = s.scratch) (h3 : s'.lrus = s.lrus) : MemOk cx s' :=
  ⟨by rw [h1]; exact h.edits, by rw [h2]; exact h.scratch, by rw [h3]; exact h.lru⟩

theorem MemOk.push (h : MemOk cx s) {i : Nat} {pos : InstPosition} {src dst : Allocation}
    (hn : ¬ (cx.isStack src = true ∧ cx.isStack dst = true)) : MemOk cx (s.push i pos src dst) := by
  refine ⟨?_, h.scratch, h.lru⟩
  intro q hq
  rcases List.mem_cons.mp hq with rfl | hq
  · exact hn
  · exact h.edits q hq

theorem foldlM_keep {α β : Type} {P : α → Prop} {g : α → β → R α} (hg : ∀ a x a', P a → g a x = .ok a' → P a') (l : List β) :
    ∀ {a a' : α}, P a → l.foldlM g a = .ok a' → P a' := by
  induction l with
  | nil => intro a a' h e; cases e; exact h
  | cons x l ih =>
    intro a a' h e
    rw [List.foldlM_cons] at e
    dsimp only [bind, Except.bind] at e
    split at e
    · cases e
    · rename_i a1 h1
      exact ih (hg a x a1 h h1) e

theorem getSpillslot_mem (h : MemOk cx s) {v : VReg} {n : Nat} (e : getSpillslot cx s v = .ok (n, s')) : MemOk cx s' := by
  unfold getSpillslot at e
  split at e
  · cases e; exact h
  · split at e
    · cases e
    · cases e; exact h.same rfl rfl rfl

theorem toSlot_mem (h : MemOk cx s) {v : VReg} {n : Nat} (e : toSlot cx s v = .ok (n, s')) : MemOk cx s' := by
  unfold toSlot at e
  split at e
  · cases e
  · rename_i h1
    cases e; exact (getSpillslot_mem h h1).same rfl rfl rfl

theorem evictPlain_mem (h : MemOk cx s) {i : Nat} {p : PReg} {pos : InstPosition} (e : evictPlain cx s i p pos = .ok s') : MemOk cx s' := by
  unfold evictPlain at e
  split at e
  · cases e
  · split at e
    · cases e
    · rename_i h1
      split at e
      · cases e
      · rename_i h2
        cases e
        exact (toSlot_mem h h1).push (fun h => h2 h.2)

theorem allocScratch_mem (he : EnvOk cx) (h : MemOk cx s) {i : Nat} {c : RegClass} {pos : InstPosition}
    (e : allocScratch cx s i c pos = .ok s') : MemOk cx s' := by
  unfold allocScratch at e
  split at e
  · cases e
  · cases e
  · rename_i p hp
    split at e
    · cases e
    · rename_i s1 h1
      have hm : MemOk cx s1 := by
        split at h1
        · exact evictPlain_mem h h1
        · cases h1; exact h
      cases e
      refine ⟨hm.edits, ?_, hm.lru⟩
      intro c' r hr
      dsimp only at hr
      unfold set1 at hr
      split at hr
      · cases hr
        exact he.isStack_reg (last_mem h.lru hp).1
      · exact hm.scratch c' r hr

theorem ensureScratch_mem (he : EnvOk cx) (h : MemOk cx s) {i : Nat} {c : RegClass} {pos : InstPosition}
    (e : ensureScratch cx s i c pos = .ok s') : MemOk cx s' := by
  unfold ensureScratch at e
  split at e
  · cases e; exact h
  · split at e
    · cases e
    · rename_i h1
      cases e; exact (allocScratch_mem he h h1).same rfl rfl rfl

theorem addMove_mem (he : EnvOk cx) (h : MemOk cx s) {i : Nat} {src dst : Allocation} {c : RegClass} {pos : InstPosition}
    (e : addMove cx s i src dst c pos = .ok s') : MemOk cx s' := by
  unfold addMove at e
  split at e
  · split at e
    · cases e
    · rename_i s1 h1
      have hm := ensureScratch_mem he h h1
      split at e
      · cases e
      · rename_i r hr
        have hreal := hm.scratch c r hr
        cases e
        exact (hm.push (by rw [hreal]; simp)).push (by rw [hreal]; simp)
  · rename_i hn
    cases e
    exact h.push (by rw [Bool.and_eq_true] at hn; exact hn)

theorem evict_mem (he : EnvOk cx) (h : MemOk cx s) {i : Nat} {p : PReg} {pos : InstPosition} (e : evict cx s i p pos = .ok s') : MemOk cx s' := by
  unfold evict at e
  split at e
  · cases e
  · split at e
    · cases e
    · rename_i h1
      exact addMove_mem he (toSlot_mem h h1) e

theorem reset_mem (he : EnvOk cx) (h : MemOk cx s) : MemOk cx (reset cx s) :=
  ⟨h.edits, fun _ _ hr => he.scratch_stack hr, h.lru⟩

theorem reserve_mem (h : MemOk cx s) {o : Op} {k : Nat} {p : PReg} (e : reserve s o k p = .ok s') : MemOk cx s' := by
  unfold reserve at e
  dsimp only at e
  split at e
  all_goals
    repeat' split at e
    all_goals first | (cases e; exact h.same rfl rfl rfl) | cases e

theorem freealloc_mem (h : MemOk cx s) {v : VReg} (e : freealloc s v = .ok s') : MemOk cx s' := by
  unfold freealloc at e
  dsimp only at e
  split at e
  · cases e
  · split at e
    · cases e
    · cases e; exact h.same rfl rfl rfl

theorem poke_mem (h : MemOk cx s) {c : RegClass} {p : PReg} (hp : (cx.regs c).contains p = true) (e : poke s c p = .ok s') : MemOk cx s' := by
  unfold poke at e
  split at e
  · cases e
  · rename_i l hl
    cases e
    exact ⟨h.edits, h.scratch, lruOk_poke h.lru hp hl⟩

theorem unavail_mem (h : MemOk cx s) (pos : OperandPos) (p : PReg) : MemOk cx (s.unavail pos p) := by
  cases pos <;> exact h.same rfl rfl rfl

theorem occupy_mem (h : MemOk cx s) (o : Op) (p : PReg) : MemOk cx (occupy s o p) := by
  unfold occupy
  dsimp only
  split
  · exact unavail_mem (unavail_mem h _ _) _ _
  · exact unavail_mem (unavail_mem h _ _) _ _
  · split
    · exact unavail_mem (unavail_mem h _ _) _ _
    · exact unavail_mem h _ _
  · exact unavail_mem h _ _

theorem allocReg_mem (he : EnvOk cx) (h : MemOk cx s) {i : Nat} {o : Op} {a : Allocation} (e : allocReg cx s i o = .ok (a, s')) : MemOk cx s' := by
  unfold allocReg at e
  split at e
  · cases e
  · rename_i p hp
    have hreg : (cx.regs (vcls o.vreg)).contains p = true := by
      unfold select at hp
      dsimp only at hp
      split at hp
      · cases hp
      · split at hp
        · cases hp
        · cases hp
        · rename_i q hq
          cases hp
          exact (last_mem h.lru hq).1
    unfold takeReg at e
    split at e
    · cases e
    · rename_i s1 h1
      have hm : MemOk cx s1 := by
        split at h1
        · exact evict_mem he h h1
        · cases h1; exact h
      split at e
      · cases e
      · rename_i s2 h2
        cases e
        exact occupy_mem (poke_mem hm hreg h2) _ _

theorem slotAlloc_mem (h : MemOk cx s) {v : VReg} {a : Allocation} (e : slotAlloc cx s v = .ok (a, s')) : MemOk cx s' := by
  unfold slotAlloc at e
  split at e
  · cases e
  · rename_i h1
    cases e; exact getSpillslot_mem h h1

theorem chooseAlloc_mem (he : EnvOk cx) (h : MemOk cx s) {i : Nat} {o : Op} {a : Allocation} (e : chooseAlloc cx s i o = .ok (a, s')) : MemOk cx s' := by
  unfold chooseAlloc at e
  split at e
  · split at e
    · exact slotAlloc_mem h e
    · split at e
      · rename_i h1
        cases e; exact allocReg_mem he h h1
      · exact slotAlloc_mem h e
      · cases e
  · split at e
    · cases e
    · rename_i h1
      cases e; exact (allocReg_mem he h h1).same rfl rfl rfl
  · cases e; exact h
  · cases e
  · exact slotAlloc_mem h e
  · cases e

theorem allocOperand_mem (he : EnvOk cx) (h : MemOk cx s) {i idx : Nat} {o : Op} {a : Allocation} (e : allocOperand cx s i o idx = .ok (a, s')) : MemOk cx s' := by
  unfold allocOperand at e
  split at e
  · cases e
  · rename_i h1
    cases e; exact (chooseAlloc_mem he h h1).same rfl rfl rfl

theorem setIn_mem (h : MemOk cx s) (a : Allocation) (x : Option VReg) : MemOk cx (s.setIn a x) := by
  unfold FS.setIn
  split
  · exact h.same rfl rfl rfl
  · exact h

theorem becomeLive_mem (h : MemOk cx s) {v : VReg} {a : Allocation} (e : becomeLive s v a = .ok s') : MemOk cx s' := by
  unfold becomeLive at e
  split at e
  · cases e
  · cases e
    apply setIn_mem
    exact h.same rfl rfl rfl

theorem relocate_mem (he : EnvOk cx) (h : MemOk cx s) {i : Nat} {o : Op} {a c : Allocation} (e : relocate cx s i o a c = .ok s') : MemOk cx s' := by
  unfold relocate at e
  split at e
  · cases e
  · rename_i s1 h1
    cases e
    apply setIn_mem
    split at h1
    · exact addMove_mem he h h1
    · cases h1; exact h

theorem keepAlloc_mem (he : EnvOk cx) (h : MemOk cx s) {i idx : Nat} {o : Op} (e : keepAlloc cx s i o idx = .ok s') : MemOk cx s' := by
  unfold keepAlloc at e
  dsimp only at e
  have hm : MemOk cx (if o.constraint = .Reg then { s.setAllocs i idx (s.alloc o.vreg.vreg) with
      numAny := bump (s.setAllocs i idx (s.alloc o.vreg.vreg)).numAny (epos o) (vcls o.vreg) (-1) } else s.setAllocs i idx (s.alloc o.vreg.vreg)) := by
    split <;> exact h.same rfl rfl rfl
  split at e
  · cases e; exact hm
  · split at e
    · cases e
    · rename_i s1 h1
      have hm1 : MemOk cx s1 := by
        split at h1
        · rename_i ha
          exact poke_mem hm (he.allocatable_cls ha) h1
        · cases h1; exact hm
      split at e <;> cases e
      · exact unavail_mem (unavail_mem hm1 _ _) _ _
      · exact unavail_mem (unavail_mem hm1 _ _) _ _
      · exact unavail_mem hm1 _ _

theorem processOperand_mem (he : EnvOk cx) (h : MemOk cx s) {i idx : Nat} {o : Op} (e : processOperand cx s i o idx = .ok s') : MemOk cx s' := by
  unfold processOperand at e
  split at e
  · cases e; exact h.same rfl rfl rfl
  · split at e
    · cases e
    · exact keepAlloc_mem he h e
    · dsimp only at e
      split at e
      · cases e
      · rename_i h1
        have hm := allocOperand_mem he h h1
        split at e
        · exact becomeLive_mem hm e
        · exact relocate_mem he hm e

theorem argToSlot_mem (he : EnvOk cx) (h : MemOk cx s) {i n : Nat} {v : VReg} (e : argToSlot cx s i v n = .ok s') : MemOk cx s' := by
  unfold argToSlot at e
  dsimp only at e
  split at e
  · split at e
    · cases e
    · cases e; exact h.same rfl rfl rfl
  · split at e
    · cases e
    · rename_i s1 h1
      have hm : MemOk cx s1 := by
        split at h1
        · exact addMove_mem he h h1
        · cases h1; exact h
      cases e
      exact hm.same rfl rfl rfl

theorem branchArg_mem (he : EnvOk cx) {i : Nat} (st : FS × PMoves) (vp : VReg × Option VReg) (st' : FS × PMoves) (h : MemOk cx st.1)
    (e : branchArg cx i st vp = .ok st') : MemOk cx st'.1 := by
  unfold branchArg at e
  dsimp only at e
  split at e
  · cases e; exact h
  · split at e
    · cases e
    · split at e
      · cases e
      · rename_i h1
        split at e
        · cases e
        · rename_i h2
          split at e
          · cases e
          · rename_i h3
            cases e
            exact argToSlot_mem he (getSpillslot_mem (getSpillslot_mem h h1) h2) h3

theorem expand_mem {T : Type} [Inhabited T] {e : Moves.ScratchEnv} {sr : Allocation} (hsr : e.isStack sr = false) {sv : Option Allocation}
    (ms : List (Move T)) : ∀ {a b : Bool} {out : List (Move T)}, Moves.expand e sr sv ms a b = some out →
    ∀ m ∈ out, ¬ (e.isStack m.src = true ∧ e.isStack m.dst = true) := by
  induction ms with
  | nil =>
    intro a b out h
    unfold Moves.expand at h
    split at h
    · split at h
      · cases h
        intro m hm
        rw [List.mem_singleton.mp hm, hsr]
        simp
      · cases h; simp
    · cases h; simp
  | cons x ms ih =>
    intro a b out h
    unfold Moves.expand at h
    split at h
    · dsimp only at h
      split at h
      · cases h
      · rename_i r hr
        have h := Option.some.inj h
        rw [← h]
        intro m hm
        rcases List.mem_append.mp hm with hm | hm
        · split at hm
          · split at hm
            · rw [List.mem_singleton.mp hm, hsr]; simp
            · cases hm
          · cases hm
        · rcases List.mem_cons.mp hm with rfl | hm
          · rw [hsr]; simp
          rcases List.mem_cons.mp hm with rfl | hm
          · rw [hsr]; simp
          · exact ih hr m hm
    · rename_i hx
      have hx : ¬ (e.isStack x.src = true ∧ e.isStack x.dst = true) := by
        unfold Moves.ScratchEnv.isS2S at hx; rw [Bool.and_eq_true] at hx; exact hx
      dsimp only at h
      split at h
      · cases h
      · rename_i pre d hpre
        split at h
        · cases h
        · rename_i r hr
          have h := Option.some.inj h
          rw [← h]
          intro m hm
          rcases List.mem_append.mp hm with hm | hm
          · split at hpre
            · split at hpre
              · cases hpre
              · cases hpre
                rw [List.mem_singleton.mp hm, hsr]; simp
            · cases hpre; cases hm
          · rcases List.mem_cons.mp hm with rfl | hm
            · exact hx
            · exact ih hr m hm

theorem compute_mem {T : Type} [Inhabited T] {e : Moves.ScratchEnv} (hreg : ∀ k a, k < 2 → e.findReg k = some a → e.isStack a = false)
    (hb : e.isStack (Allocation.reg e.borrowed) = false) {mv : MoveVecWithScratch T} {ms : List (Move T)} (h : Moves.compute? e mv = some ms) :
    ∀ m ∈ ms, ¬ (e.isStack m.src = true ∧ e.isStack m.dst = true) := by
  unfold Moves.compute? at h
  have key : ∀ (moves : List (Move T)) (fc sc : Nat), fc < 2 → (if !(moves.any e.isS2S) then some moves else
      match e.findReg fc with
      | some r => Moves.expand e r none moves false true
      | none => Moves.expand e (Allocation.reg e.borrowed) (some (e.getSlot sc)) moves false true) = some ms →
      ∀ m ∈ ms, ¬ (e.isStack m.src = true ∧ e.isStack m.dst = true) := by
    intro moves fc sc hfc h
    split at h
    · rename_i hn
      cases h
      intro m hm hs
      simp only [Bool.not_eq_true', List.any_eq_false] at hn
      exact hn m hm (by unfold Moves.ScratchEnv.isS2S; rw [hs.1, hs.2]; rfl)
    · split at h
      · rename_i r hr
        exact expand_mem (hreg fc r hfc hr) _ h
      · exact expand_mem hb _ h
  dsimp only at h
  split at h
  · split at h
    · exact key _ 1 0 (by omega) h
    · exact key _ 1 1 (by omega) h
  · exact key _ 0 0 (by omega) h

theorem resolveClass_mem (he : EnvOk cx) {i : Nat} {pm : PMoves} (st : FS × PRegSet) (c : RegClass) (st' : FS × PRegSet)
    (h : MemOk cx st.1) (e : resolveClass cx i pm st c = .ok st') : MemOk cx st'.1 := by
  unfold resolveClass at e
  dsimp only at e
  split at e
  · cases e
  · split at e
    · cases e
    · split at e
      · cases e
      · rename_i ms hms
        cases e
        refine ⟨?_, h.scratch, h.lru⟩
        intro q hq
        rcases List.mem_append.mp hq with hq | hq
        · obtain ⟨m, hm, rfl⟩ := List.mem_map.mp hq
          refine compute_mem (e := resolverEnv cx c (answers (st.1.lrus c) (st.1.scratch c) st.2) st.1.numSlots) ?_ ?_ hms m hm
          · intro k a _ ha
            have hfree : ∀ sc av p, (∀ r, sc = some r → cx.isStack (Allocation.reg r) = false) →
                (findFree (st.1.lrus c) sc av).1 = some (some p) → cx.isStack (Allocation.reg p) = false := by
              intro sc av p hsc hp
              unfold findFree at hp
              split at hp
              · cases hp; exact hsc _ rfl
              · split at hp
                · cases hp
                · cases hp
                · rename_i q hq'
                  cases hp
                  exact he.isStack_reg (last_mem h.lru hq').1
            have hsnd : ∀ sc av r, (findFree (st.1.lrus c) sc av).2.1 ≠ some r := by
              intro sc av r hr
              unfold findFree at hr
              split at hr
              · cases hr
              · split at hr <;> cases hr
            unfold resolverEnv at ha
            dsimp only at ha
            rw [Option.map_eq_some_iff] at ha
            obtain ⟨p, hp, rfl⟩ := ha
            show cx.isStack (Allocation.reg p) = false
            have hget : ∀ x : Option (Option PReg), x.getD none = some p → x = some (some p) := by
              intro x hx
              cases x with
              | none => cases hx
              | some y => exact congrArg some hx
            split at hp
            · exact hfree _ _ _ (fun r hr => h.scratch c r hr) (hget _ hp)
            · exact hfree _ _ _ (fun r hr => absurd hr (hsnd _ _ r)) (hget _ hp)
          · show cx.isStack (Allocation.reg (cx.victim c)) = false
            unfold Cx.victim
            cases hv : (cx.regs c).maxPreg with
            | none =>
              rw [Option.getD_none, isStack_reg]
              cases hc : cx.fixedStack.contains PReg.invalid with
              | false => rfl
              | true => exact absurd ((fixedStack_iff cx _).mp hc) he.invalid
            | some p =>
              exact he.isStack_reg (c := c) ((mem_toList _ _).mp (List.mem_of_getLast? hv))
        · exact h.edits q hq

theorem processBranch_mem (he : EnvOk cx) (h : MemOk cx s) {b i : Nat} (e : processBranch cx s b i = .ok s') : MemOk cx s' := by
  unfold processBranch at e
  split at e
  · cases e
  · rename_i s1 pm h1
    have hm : MemOk cx s1 := foldlM_keep (P := fun st : FS × PMoves => MemOk cx st.1) (branchArg_mem he) _ h h1
    split at e
    · cases e
    · rename_i s2 av h2
      cases e
      exact foldlM_keep (P := fun st : FS × PRegSet => MemOk cx st.1) (resolveClass_mem he) _ hm h2

theorem allocDef_mem (he : EnvOk cx) (h : MemOk cx s) {b i idx : Nat} {o : Op} (e : allocDef cx s b i o idx = .ok s') : MemOk cx s' := by
  unfold allocDef at e
  split at e
  · cases e
  · rename_i s1 h1
    have hm : MemOk cx s1 := by
      unfold defOperand at h1
      split at h1
      · split at h1
        · cases h1
        · exact processOperand_mem he h h1
      · split at h1
        · split at h1
          · exact processOperand_mem he h h1
          · cases h1
          · split at h1
            · cases h1
            · rename_i n t h2
              dsimp only at h1
              split at h1
              · cases h1
              · rename_i h3
                cases h1
                have hm : MemOk cx { t with slot := set1 t.slot o.vreg.vreg (some n) } := (getSpillslot_mem h h2).same rfl rfl rfl
                exact (processOperand_mem he hm h3).same rfl rfl rfl
        · exact processOperand_mem he h h1
    split at e
    · cases e
    · rename_i s2 h2
      have hm2 : MemOk cx s2 := by
        unfold storeDef at h2
        split at h2
        · cases h2; exact hm
        · split at h2
          · exact addMove_mem he hm h2
          · cases h2; exact hm
      exact freealloc_mem hm2 e

theorem allocUse_mem (he : EnvOk cx) (h : MemOk cx s) {i idx : Nat} {o : Op} (e : allocUse cx s i o idx = .ok s') : MemOk cx s' := by
  unfold allocUse at e
  split at e
  · split at e
    · cases e
    · exact processOperand_mem he h e
  · exact processOperand_mem he h e

theorem allocOp_mem (he : EnvOk cx) {b i : Nat} (s : FS) (x : Nat × Op) (s' : FS) (h : MemOk cx s) (e : allocOp cx b i s x = .ok s') : MemOk cx s' := by
  unfold allocOp at e
  split at e
  · exact allocDef_mem he h e
  · exact allocUse_mem he h e

theorem countOp_mem {i : Nat} (s : FS) (x : Nat × Op) (s' : FS) (h : MemOk cx s) (e : countOp cx i s x = .ok s') : MemOk cx s' := by
  unfold countOp at e
  dsimp only at e
  split at e
  · split at e
    · cases e
    · split at e <;> (cases e; exact h.same rfl rfl rfl)
  · cases e; exact h.same rfl rfl rfl
  · cases e; exact h

theorem reserveFixed_mem (he : EnvOk cx) {i : Nat} (st : FS × PRegSet × Nat) (x : Nat × Op × PReg) (st' : FS × PRegSet × Nat)
    (h : MemOk cx st.1) (e : reserveFixed cx i st x = .ok st') : MemOk cx st'.1 := by
  unfold reserveFixed at e
  dsimp only at e
  split at e
  · cases e
  · rename_i s1 h1
    have hm := reserve_mem h h1
    split at e
    · cases e; exact hm
    · split at e
      · rename_i ha
        split at e
        · cases e
        · rename_i h2
          cases e
          exact (poke_mem hm (he.allocatable_cls ha) h2).same rfl rfl rfl
      · cases e; exact hm

theorem evictFixed_mem (he : EnvOk cx) {i : Nat} (s : FS) (x : Nat × Op × PReg) (s' : FS) (h : MemOk cx s)
    (e : evictFixed cx i s x = .ok s') : MemOk cx s' := by
  unfold evictFixed at e
  dsimp only at e
  split at e
  · cases e; exact h
  · split at e
    · cases e; exact h
    · split at e
      · cases e
      · rename_i h1
        cases e
        exact (evict_mem he h h1).same rfl rfl rfl

theorem evictClobber_mem (he : EnvOk cx) {i : Nat} (st : FS × Nat) (p : PReg) (st' : FS × Nat) (h : MemOk cx st.1)
    (e : evictClobber cx i st p = .ok st') : MemOk cx st'.1 := by
  unfold evictClobber at e
  split at e
  · cases e
  · rename_i s1 h1
    have hm : MemOk cx s1 := by
      unfold evictClobber1 at h1
      split at h1
      · cases h1; exact h
      · split at h1
        · cases h1
        · rename_i h2
          cases h1
          exact (evict_mem he h h2).same rfl rfl rfl
    split at e
    · split at e
      · cases e; exact hm.same rfl rfl rfl
      · cases e; exact hm
    · cases e; exact hm

theorem useMove_mem (he : EnvOk cx) {i : Nat} (s : FS) (x : Nat × Op) (s' : FS) (h : MemOk cx s) (e : useMove cx i s x = .ok s') : MemOk cx s' := by
  unfold useMove at e
  dsimp only at e
  split at e
  · cases e; exact h
  · split at e
    · exact addMove_mem he h e
    · cases e; exact h

theorem allocInst_mem (he : EnvOk cx) {b : Nat} (s : FS) (i : Nat) (s' : FS) (h : MemOk cx s) (e : allocInst cx b s i = .ok s') : MemOk cx s' := by
  unfold allocInst at e
  split at e
  · cases e
  rename_i s1 nc h1
  have hm1 : MemOk cx s1 := by
    unfold instSetup at h1
    split at h1
    · cases h1
    rename_i t1 g1
    have k1 := foldlM_keep (P := MemOk cx) countOp_mem _ (reset_mem he h) g1
    split at h1
    · cases h1
    rename_i t2 _ _ g2
    cases h1
    have k2 := foldlM_keep (P := fun st : FS × PRegSet × Nat => MemOk cx st.1) (reserveFixed_mem he) _ k1 g2
    exact k2.same rfl rfl rfl
  split at e
  · cases e
  rename_i s2 h2
  have hm2 : MemOk cx s2 := by
    unfold instEvict at h2
    split at h2
    · cases h2
    rename_i t1 g1
    have k1 := foldlM_keep (P := MemOk cx) (evictFixed_mem he) _ hm1 g1
    split at h2
    · cases h2
    rename_i t2 _ g2
    cases h2
    exact foldlM_keep (P := fun st : FS × Nat => MemOk cx st.1) (evictClobber_mem he) _ k1 g2
  split at e
  · cases e
  rename_i s3 h3
  have hm3 : MemOk cx s3 := by
    unfold instOps at h3
    split at h3
    · cases h3
    rename_i t1 g1
    exact foldlM_keep (P := MemOk cx) (allocOp_mem he) _ (foldlM_keep (P := MemOk cx) (allocOp_mem he) _ hm2 g1) h3
  split at e
  · cases e
  rename_i s4 h4
  have hm4 := foldlM_keep (P := MemOk cx) (useMove_mem he) _ hm3 h4
  split at e
  · cases e
  rename_i s5 h5
  have hm5 : MemOk cx s5 := by
    split at h5
    · exact processBranch_mem he hm4 h5
    · cases h5; exact hm4
  cases e
  exact hm5.same rfl rfl rfl

theorem reloadParam_mem (he : EnvOk cx) {b : Nat} (s : FS) (v : VReg) (s' : FS) (h : MemOk cx s) (e : reloadParam cx b s v = .ok s') : MemOk cx s' := by
  unfold reloadParam at e
  dsimp only at e
  split at e
  · cases e; exact h
  · split at e
    · cases e
    · rename_i h1
      split at e
      · cases e
      · rename_i h2
        have hm := freealloc_mem (getSpillslot_mem h h1) h2
        split at e
        · cases e; exact hm
        · exact addMove_mem he hm e

theorem reloadLive_mem (he : EnvOk cx) {b : Nat} (s : FS) (v : VReg) (s' : FS) (h : MemOk cx s) (e : reloadLive cx b s v = .ok s') : MemOk cx s' := by
  unfold reloadLive at e
  dsimp only at e
  split at e
  · cases e
  · rename_i n s1 h1
    have hm : MemOk cx (FS.setIn { s1 with alloc := set1 s1.alloc v.vreg (stk n) } (s.alloc v.vreg) none) := by
      apply setIn_mem
      exact (getSpillslot_mem h h1).same rfl rfl rfl
    split at e
    · cases e; exact hm
    · exact addMove_mem he hm e

theorem moveIfDef_mem (he : EnvOk cx) (h : MemOk cx s) {b pred n : Nat} {v : VReg} (e : moveIfDefPredBranch cx s b pred v n = .ok s') : MemOk cx s' := by
  unfold moveIfDefPredBranch at e
  split at e
  · cases e
  · cases e; exact h
  · exact addMove_mem he h e

theorem predParams_mem (he : EnvOk cx) {b : Nat} (s : FS) (x : VReg × Nat) (s' : FS) (h : MemOk cx s) (e : predParams cx b s x = .ok s') : MemOk cx s' := by
  unfold predParams at e
  split at e
  · cases e; exact h
  · refine foldlM_keep (P := MemOk cx) ?_ _ h e
    intro s1 pred s2 hm e
    unfold predParam at e
    split at e
    · cases e
    · split at e
      · cases e
      · exact moveIfDef_mem he hm e

theorem reloadAtBegin_mem (he : EnvOk cx) (h : MemOk cx s) {b : Nat} (e : reloadAtBegin cx s b = .ok s') : MemOk cx s' := by
  unfold reloadAtBegin at e
  split at e
  · cases e
  rename_i s1 h1
  have hm1 := foldlM_keep (P := MemOk cx) (reloadParam_mem he) _ (reset_mem he h) h1
  split at e
  · cases e
  split at e
  · cases e
  rename_i s2 h2
  have hm2 := foldlM_keep (P := MemOk cx) (reloadLive_mem he) _ hm1 h2
  split at e
  · cases e
  rename_i s3 h3
  have hm3 := foldlM_keep (P := MemOk cx) (predParams_mem he) _ (a := { s2 with scratch := cx.env.scratch })
    ⟨hm2.edits, fun _ _ hr => he.scratch_stack hr, hm2.lru⟩ h3
  refine foldlM_keep (P := MemOk cx) ?_ _ hm3 e
  intro t v t' hm e
  unfold predLive at e
  exact foldlM_keep (P := MemOk cx) (fun _ _ _ hm e => moveIfDef_mem he hm e) _ hm e

theorem allocBlock_mem (he : EnvOk cx) (s : FS) (b : Nat) (s' : FS) (h : MemOk cx s) (e : allocBlock cx s b = .ok s') : MemOk cx s' := by
  unfold allocBlock at e
  split at e
  · cases e
  · rename_i h1
    exact reloadAtBegin_mem he (foldlM_keep (P := MemOk cx) (allocInst_mem he) _ h h1) e

theorem runEnv_mem (he : EnvOk cx) (e : runEnv cx = .ok s') : MemOk cx s' := by
  refine foldlM_keep (P := MemOk cx) (allocBlock_mem he) _ ?_ e
  exact ⟨by simp [FS.init], fun _ _ hr => he.scratch_stack hr, lruOk_init he⟩
end

end Fast
end Regalloc
