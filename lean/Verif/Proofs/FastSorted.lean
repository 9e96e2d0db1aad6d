import Verif.Proofs.FastMem
import Verif.Spec.Output

/-
The single-pass allocator emits its edits in order.
-/
namespace Regalloc
namespace Fast

/-- The edits are in order, and not before `q`. -/
structure EdOk (q : Nat) (s : FS) : Prop where
  sorted : SortedEdits s.edits
  ge : ∀ x ∈ s.edits, q ≤ x.1

section
variable {cx : Cx} {s s' : FS} {q : Nat}

theorem EdOk.same (h : EdOk q s) (h1 : s'.edits = s.edits) : EdOk q s' := ⟨by rw [h1]; exact h.sorted, by rw [h1]; exact h.ge⟩

theorem EdOk.mono (h : EdOk q s) {q' : Nat} (hq : q' ≤ q) : EdOk q' s := ⟨h.sorted, fun x hx => Nat.le_trans hq (h.ge x hx)⟩

theorem EdOk.many (h : EdOk q s) {E : List (Nat × Edit)} (hE : ∀ x ∈ E, x.1 = q) (h1 : s'.edits = E ++ s.edits) : EdOk q s' := by
  refine ⟨?_, ?_⟩
  · rw [h1]
    refine List.pairwise_append.mpr ⟨List.Pairwise.imp_of_mem (R := fun _ _ => True) ?_ (List.pairwise_of_forall (fun _ _ => trivial)), h.sorted, ?_⟩
    · intro a b ha hb _
      show a.1 ≤ b.1
      rw [hE a ha, hE b hb]; exact Nat.le_refl _
    · intro a ha b hb
      show a.1 ≤ b.1
      rw [hE a ha]
      exact h.ge b hb
  · rw [h1]
    intro x hx
    rcases List.mem_append.mp hx with hx | hx
    · rw [hE x hx]; exact Nat.le_refl _
    · exact h.ge x hx

theorem EdOk.push (h : EdOk q s) {i : Nat} {pos : InstPosition} {src dst : Allocation} (hq : q = pt i pos) : EdOk q (s.push i pos src dst) :=
  h.many (E := [(pt i pos, ⟨src, dst⟩)]) (fun x hx => by rw [List.mem_singleton.mp hx]; exact hq.symm) rfl

theorem getSpillslot_srt (h : EdOk q s) {v : VReg} {n : Nat} (e : getSpillslot cx s v = .ok (n, s')) : EdOk q s' := by
  unfold getSpillslot at e
  split at e
  · cases e; exact h
  · split at e
    · cases e
    · cases e; exact h.same rfl

theorem toSlot_srt (h : EdOk q s) {v : VReg} {n : Nat} (e : toSlot cx s v = .ok (n, s')) : EdOk q s' := by
  unfold toSlot at e
  split at e
  · cases e
  · rename_i h1
    cases e; exact (getSpillslot_srt h h1).same rfl

theorem evictPlain_srt {i : Nat} {pos : InstPosition} (hq : q = pt i pos) (h : EdOk q s)  {p : PReg}  (e : evictPlain cx s i p pos = .ok s') : EdOk q s' := by
  unfold evictPlain at e
  split at e
  · cases e
  · split at e
    · cases e
    · rename_i h1
      split at e
      · cases e
      · rename_i h2
        cases e
        exact (toSlot_srt h h1).push hq

theorem allocScratch_srt {i : Nat} {pos : InstPosition} (hq : q = pt i pos) (h : EdOk q s)  {c : RegClass} 
    (e : allocScratch cx s i c pos = .ok s') : EdOk q s' := by
  unfold allocScratch at e
  split at e
  · cases e
  · cases e
  · rename_i p hp
    split at e
    · cases e
    · rename_i s1 h1
      have hm : EdOk q s1 := by
        split at h1
        · exact evictPlain_srt hq h h1
        · cases h1; exact h
      cases e
      exact hm.same rfl

theorem ensureScratch_srt {i : Nat} {pos : InstPosition} (hq : q = pt i pos) (h : EdOk q s)  {c : RegClass} 
    (e : ensureScratch cx s i c pos = .ok s') : EdOk q s' := by
  unfold ensureScratch at e
  split at e
  · cases e; exact h
  · split at e
    · cases e
    · rename_i h1
      cases e; exact (allocScratch_srt hq h h1).same rfl

theorem addMove_srt {i : Nat} {pos : InstPosition} (hq : q = pt i pos) (h : EdOk q s)  {src dst : Allocation} {c : RegClass} 
    (e : addMove cx s i src dst c pos = .ok s') : EdOk q s' := by
  unfold addMove at e
  split at e
  · split at e
    · cases e
    · rename_i s1 h1
      have hm := ensureScratch_srt hq h h1
      split at e
      · cases e
      · rename_i r hr
        cases e
        exact (hm.push hq).push hq
  · rename_i hn
    cases e
    exact h.push hq

theorem evict_srt {i : Nat} {pos : InstPosition} (hq : q = pt i pos) (h : EdOk q s)  {p : PReg}  (e : evict cx s i p pos = .ok s') : EdOk q s' := by
  unfold evict at e
  split at e
  · cases e
  · split at e
    · cases e
    · rename_i h1
      exact addMove_srt hq (toSlot_srt h h1) e

theorem reset_srt (h : EdOk q s) : EdOk q (reset cx s) := h.same rfl

theorem reserve_srt (h : EdOk q s) {o : Op} {k : Nat} {p : PReg} (e : reserve s o k p = .ok s') : EdOk q s' := by
  unfold reserve at e
  dsimp only at e
  split at e
  all_goals
    repeat' split at e
    all_goals first | (cases e; exact h.same rfl) | cases e

theorem freealloc_srt (h : EdOk q s) {v : VReg} (e : freealloc s v = .ok s') : EdOk q s' := by
  unfold freealloc at e
  dsimp only at e
  split at e
  · cases e
  · split at e
    · cases e
    · cases e; exact h.same rfl

theorem poke_srt (h : EdOk q s) {c : RegClass} {p : PReg} (e : poke s c p = .ok s') : EdOk q s' := by
  unfold poke at e
  split at e
  · cases e
  · rename_i l hl
    cases e
    exact h.same rfl

theorem unavail_srt (h : EdOk q s) (pos : OperandPos) (p : PReg) : EdOk q (s.unavail pos p) := by
  cases pos <;> exact h.same rfl

theorem occupy_srt (h : EdOk q s) (o : Op) (p : PReg) : EdOk q (occupy s o p) := by
  unfold occupy
  dsimp only
  split
  · exact unavail_srt (unavail_srt h _ _) _ _
  · exact unavail_srt (unavail_srt h _ _) _ _
  · split
    · exact unavail_srt (unavail_srt h _ _) _ _
    · exact unavail_srt h _ _
  · exact unavail_srt h _ _

theorem allocReg_srt {i : Nat} (hq : q = pt i .After) (h : EdOk q s)  {o : Op} {a : Allocation} (e : allocReg cx s i o = .ok (a, s')) : EdOk q s' := by
  unfold allocReg at e
  split at e
  · cases e
  · rename_i p hp
    unfold takeReg at e
    split at e
    · cases e
    · rename_i s1 h1
      have hm : EdOk q s1 := by
        split at h1
        · exact evict_srt hq h h1
        · cases h1; exact h
      split at e
      · cases e
      · rename_i s2 h2
        cases e
        exact occupy_srt (poke_srt hm h2) _ _

theorem slotAlloc_srt (h : EdOk q s) {v : VReg} {a : Allocation} (e : slotAlloc cx s v = .ok (a, s')) : EdOk q s' := by
  unfold slotAlloc at e
  split at e
  · cases e
  · rename_i h1
    cases e; exact getSpillslot_srt h h1

theorem chooseAlloc_srt {i : Nat} (hq : q = pt i .After) (h : EdOk q s)  {o : Op} {a : Allocation} (e : chooseAlloc cx s i o = .ok (a, s')) : EdOk q s' := by
  unfold chooseAlloc at e
  split at e
  · split at e
    · exact slotAlloc_srt h e
    · split at e
      · rename_i h1
        cases e; exact allocReg_srt hq h h1
      · exact slotAlloc_srt h e
      · cases e
  · split at e
    · cases e
    · rename_i h1
      cases e; exact (allocReg_srt hq h h1).same rfl
  · cases e; exact h
  · cases e
  · exact slotAlloc_srt h e
  · cases e

theorem allocOperand_srt {i : Nat} (hq : q = pt i .After) (h : EdOk q s) {idx : Nat} {o : Op} {a : Allocation} (e : allocOperand cx s i o idx = .ok (a, s')) : EdOk q s' := by
  unfold allocOperand at e
  split at e
  · cases e
  · rename_i h1
    cases e; exact (chooseAlloc_srt hq h h1).same rfl

theorem setIn_srt (h : EdOk q s) (a : Allocation) (x : Option VReg) : EdOk q (s.setIn a x) := by
  unfold FS.setIn
  split
  · exact h.same rfl
  · exact h

theorem becomeLive_srt (h : EdOk q s) {v : VReg} {a : Allocation} (e : becomeLive s v a = .ok s') : EdOk q s' := by
  unfold becomeLive at e
  split at e
  · cases e
  · cases e
    apply setIn_srt
    exact h.same rfl

theorem relocate_srt {i : Nat} (hq : q = pt i .After) (h : EdOk q s)  {o : Op} {a c : Allocation} (e : relocate cx s i o a c = .ok s') : EdOk q s' := by
  unfold relocate at e
  split at e
  · cases e
  · rename_i s1 h1
    cases e
    apply setIn_srt
    split at h1
    · exact addMove_srt hq h h1
    · cases h1; exact h

theorem keepAlloc_srt (h : EdOk q s) {i idx : Nat} {o : Op} (e : keepAlloc cx s i o idx = .ok s') : EdOk q s' := by
  unfold keepAlloc at e
  dsimp only at e
  have hm : EdOk q (if o.constraint = .Reg then { s.setAllocs i idx (s.alloc o.vreg.vreg) with
      numAny := bump (s.setAllocs i idx (s.alloc o.vreg.vreg)).numAny (epos o) (vcls o.vreg) (-1) } else s.setAllocs i idx (s.alloc o.vreg.vreg)) := by
    split <;> exact h.same rfl
  split at e
  · cases e; exact hm
  · split at e
    · cases e
    · rename_i s1 h1
      have hm1 : EdOk q s1 := by
        split at h1
        · rename_i ha
          exact poke_srt hm h1
        · cases h1; exact hm
      split at e <;> cases e
      · exact unavail_srt (unavail_srt hm1 _ _) _ _
      · exact unavail_srt (unavail_srt hm1 _ _) _ _
      · exact unavail_srt hm1 _ _

theorem processOperand_srt {i : Nat} (hq : q = pt i .After) (h : EdOk q s) {idx : Nat} {o : Op} (e : processOperand cx s i o idx = .ok s') : EdOk q s' := by
  unfold processOperand at e
  split at e
  · cases e; exact h.same rfl
  · split at e
    · cases e
    · exact keepAlloc_srt h e
    · dsimp only at e
      split at e
      · cases e
      · rename_i h1
        have hm := allocOperand_srt hq h h1
        split at e
        · exact becomeLive_srt hm e
        · exact relocate_srt hq hm e

theorem argToSlot_srt {i : Nat} (hq : q = pt i .Before) (h : EdOk q s) {n : Nat} {v : VReg} (e : argToSlot cx s i v n = .ok s') : EdOk q s' := by
  unfold argToSlot at e
  dsimp only at e
  split at e
  · split at e
    · cases e
    · cases e; exact h.same rfl
  · split at e
    · cases e
    · rename_i s1 h1
      have hm : EdOk q s1 := by
        split at h1
        · exact addMove_srt hq h h1
        · cases h1; exact h
      cases e
      exact hm.same rfl

theorem branchArg_srt {i : Nat} (hq : q = pt i .Before)  (st : FS × PMoves) (vp : VReg × Option VReg) (st' : FS × PMoves) (h : EdOk q st.1)
    (e : branchArg cx i st vp = .ok st') : EdOk q st'.1 := by
  unfold branchArg at e
  dsimp only at e
  split at e
  · cases e; exact h
  · split at e
    · cases e
    · split at e
      · cases e
      · rename_i h1
        split at e
        · cases e
        · rename_i h2
          split at e
          · cases e
          · rename_i h3
            cases e
            exact argToSlot_srt hq (getSpillslot_srt (getSpillslot_srt h h1) h2) h3

theorem resolveClass_srt {i : Nat} (hq : q = pt i .Before)  {pm : PMoves} (st : FS × PRegSet) (c : RegClass) (st' : FS × PRegSet)
    (h : EdOk q st.1) (e : resolveClass cx i pm st c = .ok st') : EdOk q st'.1 := by
  unfold resolveClass at e
  dsimp only at e
  split at e
  · cases e
  · split at e
    · cases e
    · split at e
      · cases e
      · rename_i ms hms
        cases e
        refine h.many (E := ms.map fun m => (ptBefore i, ⟨m.src, m.dst⟩)) ?_ rfl
        intro x hx
        obtain ⟨m, _, rfl⟩ := List.mem_map.mp hx
        exact hq.symm

theorem processBranch_srt {i : Nat} (hq : q = pt i .Before) (h : EdOk q s) {b : Nat} (e : processBranch cx s b i = .ok s') : EdOk q s' := by
  unfold processBranch at e
  split at e
  · cases e
  · rename_i s1 pm h1
    have hm : EdOk q s1 := foldlM_keep (P := fun st : FS × PMoves => EdOk q st.1) (branchArg_srt hq) _ h h1
    split at e
    · cases e
    · rename_i s2 av h2
      cases e
      exact foldlM_keep (P := fun st : FS × PRegSet => EdOk q st.1) (resolveClass_srt hq) _ hm h2

theorem allocDef_srt {i : Nat} (hq : q = pt i .After) (h : EdOk q s) {b  idx : Nat} {o : Op} (e : allocDef cx s b i o idx = .ok s') : EdOk q s' := by
  unfold allocDef at e
  split at e
  · cases e
  · rename_i s1 h1
    have hm : EdOk q s1 := by
      unfold defOperand at h1
      split at h1
      · split at h1
        · cases h1
        · exact processOperand_srt hq h h1
      · split at h1
        · split at h1
          · exact processOperand_srt hq h h1
          · cases h1
          · split at h1
            · cases h1
            · rename_i n t h2
              dsimp only at h1
              split at h1
              · cases h1
              · rename_i h3
                cases h1
                have hm : EdOk q { t with slot := set1 t.slot o.vreg.vreg (some n) } := (getSpillslot_srt h h2).same rfl
                exact (processOperand_srt hq hm h3).same rfl
        · exact processOperand_srt hq h h1
    split at e
    · cases e
    · rename_i s2 h2
      have hm2 : EdOk q s2 := by
        unfold storeDef at h2
        split at h2
        · cases h2; exact hm
        · split at h2
          · exact addMove_srt hq hm h2
          · cases h2; exact hm
      exact freealloc_srt hm2 e

theorem allocUse_srt {i : Nat} (hq : q = pt i .After) (h : EdOk q s) {idx : Nat} {o : Op} (e : allocUse cx s i o idx = .ok s') : EdOk q s' := by
  unfold allocUse at e
  split at e
  · split at e
    · cases e
    · exact processOperand_srt hq h e
  · exact processOperand_srt hq h e

theorem allocOp_srt {i : Nat} (hq : q = pt i .After) {b : Nat} (s : FS) (x : Nat × Op) (s' : FS) (h : EdOk q s) (e : allocOp cx b i s x = .ok s') : EdOk q s' := by
  unfold allocOp at e
  split at e
  · exact allocDef_srt hq h e
  · exact allocUse_srt hq h e

theorem countOp_srt {i : Nat} (s : FS) (x : Nat × Op) (s' : FS) (h : EdOk q s) (e : countOp cx i s x = .ok s') : EdOk q s' := by
  unfold countOp at e
  dsimp only at e
  split at e
  · split at e
    · cases e
    · split at e <;> (cases e; exact h.same rfl)
  · cases e; exact h.same rfl
  · cases e; exact h

theorem reserveFixed_srt {i : Nat} (st : FS × PRegSet × Nat) (x : Nat × Op × PReg) (st' : FS × PRegSet × Nat)
    (h : EdOk q st.1) (e : reserveFixed cx i st x = .ok st') : EdOk q st'.1 := by
  unfold reserveFixed at e
  dsimp only at e
  split at e
  · cases e
  · rename_i s1 h1
    have hm := reserve_srt h h1
    split at e
    · cases e; exact hm
    · split at e
      · rename_i ha
        split at e
        · cases e
        · rename_i h2
          cases e
          exact (poke_srt hm h2).same rfl
      · cases e; exact hm

theorem evictFixed_srt {i : Nat} (hq : q = pt i .After)  (s : FS) (x : Nat × Op × PReg) (s' : FS) (h : EdOk q s)
    (e : evictFixed cx i s x = .ok s') : EdOk q s' := by
  unfold evictFixed at e
  dsimp only at e
  split at e
  · cases e; exact h
  · split at e
    · cases e; exact h
    · split at e
      · cases e
      · rename_i h1
        cases e
        exact (evict_srt hq h h1).same rfl

theorem evictClobber_srt {i : Nat} (hq : q = pt i .After)  (st : FS × Nat) (p : PReg) (st' : FS × Nat) (h : EdOk q st.1)
    (e : evictClobber cx i st p = .ok st') : EdOk q st'.1 := by
  unfold evictClobber at e
  split at e
  · cases e
  · rename_i s1 h1
    have hm : EdOk q s1 := by
      unfold evictClobber1 at h1
      split at h1
      · cases h1; exact h
      · split at h1
        · cases h1
        · rename_i h2
          cases h1
          exact (evict_srt hq h h2).same rfl
    split at e
    · split at e
      · cases e; exact hm.same rfl
      · cases e; exact hm
    · cases e; exact hm

theorem useMove_srt {i : Nat} (hq : q = pt i .Before)  (s : FS) (x : Nat × Op) (s' : FS) (h : EdOk q s) (e : useMove cx i s x = .ok s') : EdOk q s' := by
  unfold useMove at e
  dsimp only at e
  split at e
  · cases e; exact h
  · split at e
    · exact addMove_srt hq h e
    · cases e; exact h

theorem allocInst_srt {b : Nat} {s s' : FS} {i : Nat} (h : EdOk (pt i .After) s) (e : allocInst cx b s i = .ok s') : EdOk (pt i .Before) s' := by
  unfold allocInst at e
  split at e
  · cases e
  rename_i s1 nc h1
  have hm1 : EdOk (pt i .After) s1 := by
    unfold instSetup at h1
    split at h1
    · cases h1
    rename_i t1 g1
    have k1 := foldlM_keep (P := EdOk (pt i .After)) countOp_srt _ (reset_srt h) g1
    split at h1
    · cases h1
    rename_i t2 _ _ g2
    cases h1
    have k2 := foldlM_keep (P := fun st : FS × PRegSet × Nat => EdOk (pt i .After) st.1) reserveFixed_srt _ k1 g2
    exact k2.same rfl
  split at e
  · cases e
  rename_i s2 h2
  have hm2 : EdOk (pt i .After) s2 := by
    unfold instEvict at h2
    split at h2
    · cases h2
    rename_i t1 g1
    have k1 := foldlM_keep (P := EdOk (pt i .After)) (evictFixed_srt rfl) _ hm1 g1
    split at h2
    · cases h2
    rename_i t2 _ g2
    cases h2
    exact foldlM_keep (P := fun st : FS × Nat => EdOk (pt i .After) st.1) (evictClobber_srt rfl) _ k1 g2
  split at e
  · cases e
  rename_i s3 h3
  have hm3 : EdOk (pt i .After) s3 := by
    unfold instOps at h3
    split at h3
    · cases h3
    rename_i t1 g1
    exact foldlM_keep (P := EdOk (pt i .After)) (allocOp_srt rfl) _ (foldlM_keep (P := EdOk (pt i .After)) (allocOp_srt rfl) _ hm2 g1) h3
  split at e
  · cases e
  rename_i s4 h4
  have hm4 := foldlM_keep (P := EdOk (pt i .Before)) (useMove_srt rfl) _ (hm3.mono (by show 2 * i ≤ 2 * i + 1; omega)) h4
  split at e
  · cases e
  rename_i s5 h5
  have hm5 : EdOk (pt i .Before) s5 := by
    split at h5
    · exact processBranch_srt rfl hm4 h5
    · cases h5; exact hm4
  cases e
  exact hm5.same rfl

theorem reloadParam_srt {b : Nat} (hq : q = pt (cx.f.insns b).1 .Before)  (s : FS) (v : VReg) (s' : FS) (h : EdOk q s) (e : reloadParam cx b s v = .ok s') : EdOk q s' := by
  unfold reloadParam at e
  dsimp only at e
  split at e
  · cases e; exact h
  · split at e
    · cases e
    · rename_i h1
      split at e
      · cases e
      · rename_i h2
        have hm := freealloc_srt (getSpillslot_srt h h1) h2
        split at e
        · cases e; exact hm
        · exact addMove_srt hq hm e

theorem reloadLive_srt {b : Nat} (hq : q = pt (cx.f.insns b).1 .Before)  (s : FS) (v : VReg) (s' : FS) (h : EdOk q s) (e : reloadLive cx b s v = .ok s') : EdOk q s' := by
  unfold reloadLive at e
  dsimp only at e
  split at e
  · cases e
  · rename_i n s1 h1
    have hm : EdOk q (FS.setIn { s1 with alloc := set1 s1.alloc v.vreg (stk n) } (s.alloc v.vreg) none) := by
      apply setIn_srt
      exact (getSpillslot_srt h h1).same rfl
    split at e
    · cases e; exact hm
    · exact addMove_srt hq hm e

theorem moveIfDef_srt {b : Nat} (hq : q = pt (cx.f.insns b).1 .Before) (h : EdOk q s) {pred n : Nat} {v : VReg} (e : moveIfDefPredBranch cx s b pred v n = .ok s') : EdOk q s' := by
  unfold moveIfDefPredBranch at e
  split at e
  · cases e
  · cases e; exact h
  · exact addMove_srt hq h e

theorem predParams_srt {b : Nat} (hq : q = pt (cx.f.insns b).1 .Before)  (s : FS) (x : VReg × Nat) (s' : FS) (h : EdOk q s) (e : predParams cx b s x = .ok s') : EdOk q s' := by
  unfold predParams at e
  split at e
  · cases e; exact h
  · refine foldlM_keep (P := EdOk q) ?_ _ h e
    intro s1 pred s2 hm e
    unfold predParam at e
    split at e
    · cases e
    · split at e
      · cases e
      · exact moveIfDef_srt hq hm e

theorem reloadAtBegin_srt {b : Nat} (hq : q = pt (cx.f.insns b).1 .Before) (h : EdOk q s)  (e : reloadAtBegin cx s b = .ok s') : EdOk q s' := by
  unfold reloadAtBegin at e
  split at e
  · cases e
  rename_i s1 h1
  have hm1 := foldlM_keep (P := EdOk q) (reloadParam_srt hq) _ (reset_srt h) h1
  split at e
  · cases e
  split at e
  · cases e
  rename_i s2 h2
  have hm2 := foldlM_keep (P := EdOk q) (reloadLive_srt hq) _ hm1 h2
  split at e
  · cases e
  rename_i s3 h3
  have hm3 := foldlM_keep (P := EdOk q) (predParams_srt hq) _ (a := { s2 with scratch := cx.env.scratch }) (hm2.same rfl) h3
  refine foldlM_keep (P := EdOk q) ?_ _ hm3 e
  intro t v t' hm e
  unfold predLive at e
  exact foldlM_keep (P := EdOk q) (fun _ _ _ hm e => moveIfDef_srt hq hm e) _ hm e

theorem insts_srt {b : Nat} (is : List Nat) : ∀ {s s' : FS}, is.Pairwise (fun a b => b < a) → (∀ i ∈ is, EdOk (pt i .After) s) →
    is.foldlM (allocInst cx b) s = .ok s' → ∀ q, (∀ i ∈ is, q ≤ pt i .Before) → EdOk q s → EdOk q s' := by
  induction is with
  | nil => intro s s' _ _ e q _ hs; cases e; exact hs
  | cons i is ih =>
    intro s s' hp h e q hq hs
    rw [List.foldlM_cons] at e
    dsimp only [bind, Except.bind] at e
    split at e
    · cases e
    · rename_i s1 h1
      have hm := allocInst_srt (h i List.mem_cons_self) h1
      rw [List.pairwise_cons] at hp
      refine ih hp.2 (fun j hj => hm.mono ?_) e q (fun j hj => hq j (List.mem_cons_of_mem _ hj)) (hm.mono (hq i List.mem_cons_self))
      have := hp.1 j hj
      show 2 * j + 1 ≤ 2 * i
      omega

theorem allocBlock_srt {b hi : Nat} (hl : (cx.f.insns b).2 ≤ hi) (hn : (cx.f.insns b).1 ≤ hi) (h : EdOk (pt hi .Before) s)
    (e : allocBlock cx s b = .ok s') : EdOk (pt (cx.f.insns b).1 .Before) s' := by
  unfold allocBlock at e
  split at e
  · cases e
  · rename_i s1 h1
    have hmem : ∀ i ∈ (cx.f.blockInsts b).reverse, (cx.f.insns b).1 ≤ i ∧ i < (cx.f.insns b).2 := fun i hi => by
      have := List.mem_reverse.mp hi
      unfold Func.blockInsts at this
      rw [List.mem_range'_1] at this
      omega
    refine reloadAtBegin_srt rfl (insts_srt _ ?_ ?_ h1 _ ?_ (h.mono ?_)) e
    · rw [List.pairwise_reverse]
      unfold Func.blockInsts
      exact List.pairwise_lt_range'
    · intro i hi'
      have := hmem i hi'
      refine h.mono ?_
      show 2 * i + 1 ≤ 2 * hi
      omega
    · intro i hi'
      have := hmem i hi'
      show 2 * _ ≤ 2 * i
      omega
    · show 2 * _ ≤ 2 * hi
      omega

theorem runEnv_srt (hl : ∀ b b', b < b' → b' < cx.f.numBlocks → (cx.f.insns b).2 ≤ (cx.f.insns b').1)
    (hn : ∀ b, b < cx.f.numBlocks → (cx.f.insns b).1 < (cx.f.insns b).2) (e : runEnv cx = .ok s') : SortedEdits s'.edits := by
  have key : ∀ n, n ≤ cx.f.numBlocks → ∀ {s s' : FS}, (∀ b, b < n → EdOk (pt (cx.f.insns b).2 .Before) s) →
      SortedEdits s.edits → (List.range n).reverse.foldlM (allocBlock cx) s = .ok s' → SortedEdits s'.edits := by
    intro n
    induction n with
    | zero => intro _ s s' _ hs e; cases e; exact hs
    | succ n ih =>
      intro hle s s' h hs e
      rw [List.range_succ, List.reverse_append, List.reverse_singleton, List.singleton_append, List.foldlM_cons] at e
      dsimp only [bind, Except.bind] at e
      split at e
      · cases e
      · rename_i s1 h1
        have := hn n (by omega)
        have hm := allocBlock_srt (Nat.le_refl _) (by omega) (h n (by omega)) h1
        refine ih (by omega) (fun b hb => hm.mono ?_) hm.sorted e
        have := hl b n hb (by omega)
        show 2 * _ ≤ 2 * _
        omega
  exact key _ (Nat.le_refl _) (s := FS.init cx) (fun b _ => ⟨List.Pairwise.nil, fun x hx => by cases hx⟩) List.Pairwise.nil e

end

end Fast
end Regalloc
