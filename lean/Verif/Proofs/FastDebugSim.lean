import Verif.Proofs.FastDebugRun
import Verif.Spec.FastDebug

/-
Single-pass allocator: reported slots hold the values, along executions.
-/
namespace Regalloc
namespace Fast
open Exec Debug FastDebug Liveness

variable {cx : Cx} {C : Nat → VReg}

/-! ### Executions and the registers needed along a path -/

/-- Needed on entry to the instructions `is` at the end of `b`, following `ks`. -/
def LOutK (cx : Cx) (b : Nat) : List Nat → Nat → Prop
  | [] => fun _ => False
  | k :: ks => match (cx.f.succs b)[k]? with
      | none => fun _ => False
      | some s => LOutE cx (LIn cx ks s) b k s

theorem LIn_eq (ks : List Nat) (b : Nat) : LIn cx ks b = liveB cx (LOutK cx b ks) (cx.f.blockInsts b) := by
  cases ks <;> rfl

theorem readsFirst_append {v : Nat} {t t' : List Access} (h : ReadsFirst v (t ++ t')) :
    .read v ∈ t ∨ (.write v ∉ t ∧ ReadsFirst v t') := by
  obtain ⟨pre, post, e, hn⟩ := h
  rcases List.append_eq_append_iff.mp e with ⟨a, rfl, rfl⟩ | ⟨c, rfl, h2⟩
  · exact .inr ⟨fun h => hn (List.mem_append_left _ h), a, post, rfl, fun h => hn (List.mem_append_right _ h)⟩
  · cases c with
    | nil => 
      refine .inr ⟨by simpa using hn, [], post, by simpa using h2.symm, by simp⟩
    | cons x c =>
      rw [List.cons_append, List.cons.injEq] at h2
      left
      rw [← h2.1]
      simp

theorem read_instTrace {i w : Nat} (h : Access.read w ∈ instTrace (cx.f.operands i)) : UU cx i w := by
  unfold instTrace at h
  simp only [List.mem_append, List.mem_map, Access.read.injEq, reduceCtorEq, and_false, exists_false, or_false, false_or,
    exists_eq_right] at h
  have : ∀ p, w ∈ regsAt (cx.f.operands i) .Use p → UU cx i w := by
    intro p hp
    unfold regsAt at hp
    obtain ⟨o, ho, e⟩ := List.mem_map.mp hp
    obtain ⟨h1, h2⟩ := List.mem_filter.mp ho
    obtain ⟨k, hk⟩ := List.mem_iff_getElem?.mp h1
    have := of_decide_eq_true h2
    exact ⟨k, o, hk, this.1, this.2.2, e⟩
  rcases h with h | h
  · exact this _ h
  · exact this _ h

section
variable (hf : FuncOk cx.f C)
include hf

theorem write_instTrace {i w : Nat} (hi : i < cx.f.numInsts) (h : DDi cx i w) : Access.write w ∈ instTrace (cx.f.operands i) := by
  obtain ⟨k, o, ho, _, hk, e⟩ := h
  have hm := List.mem_of_getElem? ho
  have hn := ((hf.operands i hi).defs o hm hk).1
  have : w ∈ regsAt (cx.f.operands i) .Def o.pos := by
    unfold regsAt
    exact List.mem_map.mpr ⟨o, List.mem_filter.mpr ⟨hm, by simp [hk, hn]⟩, e⟩
  unfold instTrace
  simp only [List.mem_append, List.mem_map, Access.write.injEq, exists_eq_right]
  cases hp : o.pos with
  | Early => rw [hp] at this; exact .inl (.inl (.inr this))
  | Late => rw [hp] at this; exact .inr this

theorem readsFirst_insts {L : Nat → Prop} {w : Nat} {rest : List Access} (hL : ReadsFirst w rest → L w) :
    ∀ (is : List Nat), (∀ i ∈ is, i < cx.f.numInsts) →
    ReadsFirst w (is.flatMap (fun i => instTrace (cx.f.operands i)) ++ rest) → liveB cx L is w
  | [], _, h => hL h
  | i :: is, hi, h => by
    rw [List.flatMap_cons, List.append_assoc] at h
    rcases readsFirst_append h with h | ⟨h1, h2⟩
    · exact .inl (read_instTrace h)
    · exact .inr ⟨readsFirst_insts hL is (fun j hj => hi j (List.mem_cons_of_mem _ hj)) h2,
        fun hd => h1 (write_instTrace hf (hi i List.mem_cons_self) hd)⟩

theorem readsFirst_nil {w : Nat} : ¬ ReadsFirst w [] := by
  rintro ⟨pre, post, e, _⟩
  simp at e

theorem readsFirst_edge {b k s w : Nat} {L : Nat → Prop} {t : List Access} (hb : b < cx.f.numBlocks)
    (hs : (cx.f.succs b)[k]? = some s) (hL : ReadsFirst w t → L w ∧ ∀ p ∈ cx.f.params s, p.vreg ≠ w)
    (h : ReadsFirst w ((cx.f.args b (cx.f.lastInst b) k).map (fun p => Access.read p.vreg) ++ t)) : LOutE cx L b k s w := by
  rcases readsFirst_append h with h | ⟨_, h⟩
  · right
    obtain ⟨a, ha, e⟩ := List.mem_map.mp h
    have e : a.vreg = w := by simpa using e
    obtain ⟨j, hj⟩ := List.mem_iff_getElem?.mp ha
    have hlen := (hf.args b hb k s hs).1
    have hjl : j < (cx.f.params s).length := by rw [← hlen]; exact (List.getElem?_eq_some_iff.mp hj).1
    refine ⟨((cx.f.params s)[j], a), ?_, e⟩
    unfold edgeMoves
    rw [if_pos (edge_branch hf hb hs)]
    exact List.mem_of_getElem? (i := j) (List.getElem?_zip_eq_some.mpr ⟨by simp [hjl], hj⟩)
  · exact .inl (hL h)

theorem exec_LIn {b w : Nat} {t : List Access} (hx : Liveness.Exec cx.f b t) : b < cx.f.numBlocks → ReadsFirst w t →
    ∃ ks, LIn cx ks b w ∧ ∀ p ∈ cx.f.params b, p.vreg ≠ w := by
  have hblk : ∀ (b : Nat) (rest : List Access), ReadsFirst w (blockTrace cx.f b ++ rest) →
      ReadsFirst w ((cx.f.blockInsts b).flatMap (fun i => instTrace (cx.f.operands i)) ++ rest) ∧ ∀ p ∈ cx.f.params b, p.vreg ≠ w := by
    intro b rest h
    unfold blockTrace at h
    rw [List.append_assoc] at h
    rcases readsFirst_append h with h | ⟨h1, h2⟩
    · obtain ⟨_, _, e⟩ := List.mem_map.mp h; cases e
    · exact ⟨h2, fun p hp e => h1 (List.mem_map.mpr ⟨p, hp, by rw [e]⟩)⟩
  induction hx with
  | stop b =>
    intro hb h
    have h' : ReadsFirst w (blockTrace cx.f b ++ []) := by rw [List.append_nil]; exact h
    obtain ⟨h1, h2⟩ := hblk b _ h'
    exact ⟨[], readsFirst_insts hf (fun h => (readsFirst_nil hf h).elim) _ (fun i hi => inst_lt hf hb hi) h1, h2⟩
  | @step b c k t hs hx ih =>
    intro hb h
    rw [List.append_assoc] at h
    obtain ⟨h1, h2⟩ := hblk b _ h
    have hc := hf.succs b hb c (List.mem_of_getElem? hs)
    by_cases hr : ReadsFirst w t
    · obtain ⟨ks, h3, h4⟩ := ih hc hr
      refine ⟨k :: ks, ?_, h2⟩
      rw [LIn_some hs]
      exact readsFirst_insts hf (readsFirst_edge hf hb hs (fun _ => ⟨h3, h4⟩)) _ (fun i hi => inst_lt hf hb hi) h1
    · refine ⟨k :: [], ?_, h2⟩
      rw [LIn_some hs]
      exact readsFirst_insts hf (readsFirst_edge hf hb hs (fun h => (hr h).elim)) _ (fun i hi => inst_lt hf hb hi) h1

theorem readLater_live {b j w : Nat} (hb : b < cx.f.numBlocks) (hj : (cx.f.insns b).1 ≤ j) (h : ReadLater cx.f b j w) :
    ∃ ks, liveB cx (LOutK cx b ks) (List.range' j ((cx.f.insns b).2 - j)) w := by
  obtain ⟨t, hx, hr⟩ := h
  have hlt : ∀ i ∈ List.range' j ((cx.f.insns b).2 - j), i < cx.f.numInsts := by
    intro i hi
    rw [List.mem_range'_1] at hi
    exact inst_lt hf hb (by rw [mem_blockInsts]; omega)
  rcases hx with rfl | ⟨k, c, t', hs, hx, rfl⟩
  · refine ⟨[], readsFirst_insts (rest := []) hf (fun h => (readsFirst_nil hf h).elim) _ hlt ?_⟩
    rw [List.append_nil]; exact hr
  · have hc := hf.succs b hb c (List.mem_of_getElem? hs)
    by_cases hr' : ReadsFirst w t'
    · obtain ⟨ks, h3, h4⟩ := exec_LIn hf hx hc hr'
      refine ⟨k :: ks, ?_⟩
      show liveB cx (match (cx.f.succs b)[k]? with
        | none => fun _ => False
        | some s => LOutE cx (LIn cx ks s) b k s) _ _
      rw [hs]
      exact readsFirst_insts hf (readsFirst_edge hf hb hs (fun _ => ⟨h3, h4⟩)) _ hlt hr
    · refine ⟨k :: [], ?_⟩
      show liveB cx (match (cx.f.succs b)[k]? with
        | none => fun _ => False
        | some s => LOutE cx (LIn cx [] s) b k s) _ _
      rw [hs]
      exact readsFirst_insts hf (readsFirst_edge hf hb hs (fun h => (hr' h).elim)) _ hlt hr

end

/-! ### Partly executed blocks -/

theorem filter_at {eb ea : Nat → List Edit} {n q : Nat} (h : q / 2 < n) :
    ((editsOf eb ea (List.range' 0 n)).filter (fun pe => decide (pe.1 = q))).map (fun pe => InstOrEdit.edit pe.2) =
      (if q % 2 = 1 then ea (q / 2) else eb (q / 2)).map InstOrEdit.edit := by
  obtain ⟨i, hi⟩ : ∃ i, i = q / 2 := ⟨_, rfl⟩
  rw [← hi] at h ⊢
  have hB : ∀ i, pt i .Before = 2 * i := fun _ => rfl
  have hA : ∀ i, pt i .After = 2 * i + 1 := fun _ => rfl
  have hspl : List.range' 0 n = List.range' 0 i ++ (i :: List.range' (i + 1) (n - i - 1)) := by
    have h1 := List.range'_append_1 (s := 0) (m := i) (n := n - i)
    rw [show i + (n - i) = n from by omega, Nat.zero_add] at h1
    rw [← h1]
    congr 1
    obtain ⟨m, hm⟩ : ∃ m, n - i = m + 1 := ⟨n - i - 1, by omega⟩
    rw [hm, List.range'_succ]; rfl
  have h2 : ∀ is, editsOf eb ea (i :: is) = (eb i).map (fun e => (pt i .Before, e)) ++
      ((ea i).map (fun e => (pt i .After, e)) ++ editsOf eb ea is) := by
    intro is; unfold editsOf; rw [List.flatMap_cons, List.append_assoc]
  rw [hspl, editsOf_append, h2]
  simp only [List.filter_append, List.map_append]
  rw [filter_editsOf_nil (is := List.range' (i + 1) (n - i - 1)) (by
      rintro x ⟨j, hj, hj1, hj2⟩
      rw [List.mem_range'_1] at hj
      simp only [decide_eq_false_iff_not]; omega),
    filter_editsOf_nil (is := List.range' 0 i) (by
      rintro x ⟨j, hj, hj1, hj2⟩
      rw [List.mem_range'_1] at hj
      simp only [decide_eq_false_iff_not]; omega)]
  simp only [List.map_nil, List.append_nil, List.nil_append]
  split
  · rw [filter_const (q := pt i .After) _ (by intro e; simp only [hA, decide_eq_true_eq]; omega),
      filter_const_nil (q := pt i .Before) (by intro e; simp only [hB, decide_eq_false_iff_not]; omega)]
    rfl
  · rw [filter_const (q := pt i .Before) _ (by intro e; simp only [hB, decide_eq_true_eq]; omega),
      filter_const_nil (q := pt i .After) (by intro e; simp only [hA, decide_eq_false_iff_not]; omega)]
    simp

theorem allocItems_points {Val : Type} {f : Func} {out : Output} {sem : Sem Val} {junk : Nat → Allocation → Val}
    {eb ea : Nat → List Edit} {al : Nat → Nat → Allocation} {n : Nat} (hed : out.edits = editsOf eb ea (List.range' 0 n))
    (hal : ∀ i, i < n → out.instAllocs i = some ((List.range (f.operands i).length).map (al i))) :
    ∀ (m lo : Nat) (A : Allocation → Val) (tr : Trace Val), lo + m ≤ n →
    allocItems f out sem junk ((List.range' (2 * lo) (2 * m)).flatMap fun q =>
      (if q % 2 = 1 then [.inst (q / 2)] else []) ++ (out.edits.filter (fun pe => decide (pe.1 = q))).map (fun pe => .edit pe.2)) A tr =
      runM f eb ea al sem junk (List.range' lo m) A tr
  | 0, lo, A, tr, _ => rfl
  | m + 1, lo, A, tr, h => by
    rw [show 2 * (m + 1) = 2 * m + 1 + 1 from by omega, List.range'_succ, List.range'_succ, List.flatMap_cons, List.flatMap_cons,
      List.range'_succ, runM]
    rw [if_neg (by omega : ¬ 2 * lo % 2 = 1), if_pos (by omega : (2 * lo + 1) % 2 = 1), hed, filter_at (by omega), filter_at (by omega),
      if_neg (by omega : ¬ 2 * lo % 2 = 1), if_pos (by omega : (2 * lo + 1) % 2 = 1), show 2 * lo / 2 = lo from by omega,
      show (2 * lo + 1) / 2 = lo from by omega, List.nil_append, allocItems_edits, List.append_assoc, List.singleton_append,
      allocItems, allocItems_edits, hal lo (by omega), ← hed]
    exact allocItems_points hed hal m (lo + 1) _ _ (by omega)

section
variable (he : EnvOk cx) (hf : FuncOk cx.f C)
include he hf

/-! ### Simulation up to a point -/

theorem reach_sim {t : FS} {eb ea : Nat → List Edit} (G : Glob cx C (List.range cx.f.numBlocks) t eb ea) {Val : Type}
    (sem : Sem Val) (junk : Nat → Allocation → Val) (ks' : List Nat) {c : Nat} {V' : VReg → Val} {A' : Allocation → Val}
    {trA trV : Trace Val} : ∀ (ks : List Nat) (b : Nat), Reach cx.f b →
    ∀ (V : VReg → Val) (A : Allocation → Val) (tr : Trace Val),
    (∀ w n, LIn cx (ks ++ ks') b w → t.slot w = some n → A (stk n) = V (C w)) →
    allocReach cx.f (outputOf cx t) sem junk ks b A tr = some (c, A', trA) →
    origReach cx.f sem ks b V tr = some (c, V', trV) →
    trA = trV ∧ Reach cx.f c ∧ ∀ w n, LIn cx ks' c w → t.slot w = some n → A' (stk n) = V' (C w)
  | [], b, hr, V, A, tr, h, h1, h2 => by
    unfold allocReach at h1
    unfold origReach at h2
    cases h1; cases h2
    exact ⟨rfl, hr, h⟩
  | k :: ks, b, hr, V, A, tr, h, h1, h2 => by
    have hb := hr.lt hf
    unfold allocReach at h1
    unfold origReach at h2
    dsimp only at h1 h2
    rw [block_run hf G sem junk hb] at h1
    cases hs : (cx.f.succs b)[k]? with
    | none => rw [hs] at h1; cases h1
    | some s =>
      rw [hs] at h1 h2
      dsimp only at h1 h2
      rw [List.cons_append, LIn_some hs] at h
      have hsm := List.mem_of_getElem? hs
      have hsn := hf.succs b hb s hsm
      obtain ⟨⟨e1, e2⟩, _⟩ := G.tr t.slot (glob_fin G) b (List.mem_range.mpr hb) Val sem junk (LIn cx (ks ++ ks') s)
        (LOutE cx (LIn cx (ks ++ ks') s) b k s) (assignParams (edgeMoves cx.f b k s)) V A tr (fun w h => LIn_C hf hsn h)
        (fun w h => LOutE_C hf hb hs h) (fun w h hd => live_reader hf he hsn hb h hd) (edgeOk hf hr hs) h
      rw [e1] at h1
      exact reach_sim G sem junk ks' ks s (.step hr hsm) _ _ _ e2 h1 h2

theorem mid_block {t : FS} {eb ea : Nat → List Edit} (G : Glob cx C (List.range cx.f.numBlocks) t eb ea) {Val : Type}
    (sem : Sem Val) (junk : Nat → Allocation → Val) (ks' : List Nat) {b : Nat} (hr : Reach cx.f b) {V : VReg → Val}
    {A : Allocation → Val} (tr : Trace Val) (h : ∀ w n, LIn cx ks' b w → t.slot w = some n → A (stk n) = V (C w))
    {pre post : List Nat} (hsp : cx.f.blockInsts b = pre ++ post) (hne : post ≠ []) {w : Nat}
    (hl : liveB cx (LOutK cx b ks') post w) :
    (∀ n, SlotAtDef cx b w → t.slot w = some n →
      (runM cx.f eb ea t.allocs sem junk pre A tr).1 (stk n) = (origInsts cx.f sem pre V tr).1 (C w)) ∧
    ∀ s u, AtEnd cx b s → post.reverse.foldlM (allocInst cx b) s = .ok u → pre ≠ [] → u.alloc w ≠ Allocation.none →
      (runM cx.f eb ea t.allocs sem junk pre A tr).1 (u.alloc w) = (origInsts cx.f sem pre V tr).1 (C w) := by
  have hb := hr.lt hf
  have hend : ∀ (h : ∀ w n, liveB cx (fun _ => False) (cx.f.blockInsts b) w → t.slot w = some n → A (stk n) = V (C w))
      (hl : liveB cx (fun _ => False) post w),
      (∀ n, SlotAtDef cx b w → t.slot w = some n →
        (runM cx.f eb ea t.allocs sem junk pre A tr).1 (stk n) = (origInsts cx.f sem pre V tr).1 (C w)) ∧
      ∀ s u, AtEnd cx b s → post.reverse.foldlM (allocInst cx b) s = .ok u → pre ≠ [] → u.alloc w ≠ Allocation.none →
        (runM cx.f eb ea t.allocs sem junk pre A tr).1 (u.alloc w) = (origInsts cx.f sem pre V tr).1 (C w) := by
    intro h hl
    exact (G.tr t.slot (glob_fin G) b (List.mem_range.mpr hb) Val sem junk (fun _ => False) (fun _ => False) id V A tr
      (fun _ h => h.elim) (fun _ h => h.elim)
      (fun _ h => h.elim) (edgeOk_end hf hr) h).2 pre post hsp hne w hl
  cases ks' with
  | nil => exact hend h hl
  | cons k ks =>
    rw [LIn_eq] at h
    unfold LOutK at h hl
    dsimp only at h hl
    cases hs : (cx.f.succs b)[k]? with
    | none =>
      rw [hs] at h hl
      exact hend h hl
    | some s =>
      rw [hs] at h hl
      have hsn := hf.succs b hb s (List.mem_of_getElem? hs)
      exact (G.tr t.slot (glob_fin G) b (List.mem_range.mpr hb) Val sem junk (LIn cx ks s)
        (LOutE cx (LIn cx ks s) b k s) (assignParams (edgeMoves cx.f b k s)) V A tr (fun w h => LIn_C hf hsn h)
        (fun w h => LOutE_C hf hb hs h) (fun w h hd => live_reader hf he hsn hb h hd) (edgeOk hf hr hs) h).2 pre post hsp hne w hl

/-- The slot of a register live at the start of some block holds its value wherever it is still
to be read. -/
theorem slot_holds {t : FS} {eb ea : Nat → List Edit} (G : Glob cx C (List.range cx.f.numBlocks) t eb ea) {w n b j : Nat}
    (hb : b < cx.f.numBlocks) (hj : j ∈ cx.f.blockInsts b) (hst : LiveAtStart cx.f w) (hrl : ReadLater cx.f b j w)
    (hn : t.slot w = some n) : HoldsBefore cx.f (outputOf cx t) (C w) (stk n) b j := by
  intro Val sem junk ks V V' A A' trA trV h1 h2
  rw [mem_blockInsts] at hj
  obtain ⟨ks', hl⟩ := readLater_live hf hb hj.1 hrl
  obtain ⟨e, hr, hA⟩ := reach_sim he hf G sem junk ks' ks _ .entry V A [] (by
    intro w n hl
    obtain ⟨v, hv, _⟩ := LIn_defined (hf.defined _) hl
    exact hv.elim) h1 h2
  subst e
  have hac : (∃ i ∈ cx.f.blockInsts b, DDi cx i w) → ∃ b', b < b' ∧ b' < cx.f.numBlocks ∧ ReadIn cx b' w := by
    intro hd
    obtain ⟨c, hc, hrc⟩ := hst
    obtain ⟨kc, hlc⟩ := readLater_live hf hc (Nat.le_refl _) hrc
    refine live_reader hf he (ks := kc) hc hb ?_ hd
    rw [LIn_eq]
    exact hlc
  have hsp : cx.f.blockInsts b = List.range' (cx.f.insns b).1 (j - (cx.f.insns b).1) ++ List.range' j ((cx.f.insns b).2 - j) := by
    unfold Func.blockInsts
    have h1 := List.range'_append_1 (s := (cx.f.insns b).1) (m := j - (cx.f.insns b).1) (n := (cx.f.insns b).2 - j)
    rw [show (cx.f.insns b).1 + (j - (cx.f.insns b).1) = j from by omega] at h1
    rw [h1]
    congr 1
    omega
  have key := (mid_block he hf G sem junk ks' hr trA hA hsp (by
    intro h
    have := congrArg List.length h
    simp at this
    omega) hl).1 n (G.late b (List.mem_range.mpr hb) w hac) hn
  rw [← key]
  split
  · next hle =>
    rw [show j - (cx.f.insns b).1 = 0 from by omega]
    rfl
  · next hgt =>
    have hed : (outputOf cx t).edits = editsOf eb ea (List.range' 0 cx.f.numInsts) := by
      show t.edits = _
      rw [G.edits, insts_range hf]
    have hlt : j < cx.f.numInsts := inst_lt hf hb (by rw [mem_blockInsts]; exact hj)
    unfold upTo
    rw [show 2 * j - 1 + 1 - 2 * (cx.f.insns b).1 = 2 * (j - (cx.f.insns b).1) from by omega]
    rw [allocItems_points (al := t.allocs) hed (fun i hi => instAllocs_outputOf cx t hi) _ _ _ _ (by omega)]

end

/-! ### The points reported -/

/-- The points recorded for each register satisfy `S` and `T`. -/
def PtOk (S T : Nat → Nat → Prop) (d : Dbg) : Prop :=
  ∀ w, (∀ s, (d w).1 = some s → S w s) ∧ ∀ t, (d w).2.1 = some t → T w t

theorem PtOk.set {S T : Nat → Nat → Prop} {d : Dbg} (h : PtOk S T d) {v : Nat} {x : Option Nat × Option Nat × Allocation}
    (h1 : ∀ s, x.1 = some s → S v s) (h2 : ∀ t, x.2.1 = some t → T v t) : PtOk S T (set1 d v x) := by
  intro w
  by_cases e : w = v
  · subst e; rw [set1_same]; exact ⟨h1, h2⟩
  · rw [set1_ne _ _ e]; exact h w

theorem foldlM_pres {σ α : Type} {g : σ → α → R σ} (I : σ → Prop) : ∀ {l : List α} {s s' : σ}, I s →
    (∀ x ∈ l, ∀ s s', I s → g s x = .ok s' → I s') → l.foldlM g s = .ok s' → I s'
  | [], s, s', h, _, e => by
    have e : s = s' := Except.ok.inj e
    rw [← e]; exact h
  | x :: l, s, s', h, hs, e => by
    rw [List.foldlM_cons] at e
    cases h1 : g s x with
    | error m => rw [h1] at e; cases e
    | ok s1 =>
      rw [h1] at e
      exact foldlM_pres I (hs x List.mem_cons_self s s1 h h1) (fun y hy => hs y (List.mem_cons_of_mem _ hy)) e

section
variable (hf : FuncOk cx.f C)
include hf

theorem points_block {b : Nat} (hb : b < cx.f.numBlocks) {st st' : FS × Dbg}
    (h : PtOk (ValueStarts cx.f) (AccessEnds cx.f) st.2) (hs : allocBlockD cx st b = .ok st') :
    PtOk (ValueStarts cx.f) (AccessEnds cx.f) st'.2 := by
  have hop : ∀ i ∈ cx.f.blockInsts b, ∀ (x : Nat × Op) (d : Dbg) (s s' : FS), x.2 ∈ cx.f.operands i →
      PtOk (ValueStarts cx.f) (AccessEnds cx.f) d → PtOk (ValueStarts cx.f) (AccessEnds cx.f) (dbgOp i d s s' x) := by
    intro i hi x d s s' hx h
    have hW : x.2.kind = .Def → ∃ r ∈ opWrites (cx.f.operands i), r.vreg = x.2.vreg.vreg := fun hk =>
      ⟨x.2.vreg, by unfold opWrites; exact List.mem_map.mpr ⟨x.2, List.mem_filter.mpr ⟨hx, by simp [hk]⟩, rfl⟩, rfl⟩
    have h1 : PtOk (ValueStarts cx.f) (AccessEnds cx.f) (dbgOperand d s s' i x.1 x.2) := by
      unfold dbgOperand
      split
      · exact h
      · next hn =>
        rw [not_or] at hn
        have hn1 : x.2.asFixedNonallocatable = none := by simpa using hn.1
        refine h.set (h _).1 ?_
        intro t ht
        have ht := (Option.some.inj ht).symm
        refine ⟨b, hb, i, hi, ?_⟩
        cases hk : x.2.kind with
        | Def =>
          have : t = ptBefore (i + 1) := by rw [ht, hk]; cases x.2.pos <;> rfl
          exact .inr (.inl ⟨.inr (hW hk), this⟩)
        | Use =>
          have hm : x.2.vreg.vreg ∈ regsAt (cx.f.operands i) .Use x.2.pos := by
            unfold regsAt
            exact List.mem_map.mpr ⟨x.2, List.mem_filter.mpr ⟨hx, by simp [hk, hn1]⟩, rfl⟩
          cases hp : x.2.pos with
          | Early => rw [hp] at hm; exact .inl ⟨hm, by rw [ht, hk, hp]⟩
          | Late => rw [hp] at hm; exact .inr (.inl ⟨.inl hm, by rw [ht, hk, hp]⟩)
    unfold dbgOp
    cases hk : x.2.kind with
    | Use => exact h1
    | Def =>
      refine h1.set ?_ (h1 _).2
      intro s hs
      have hs := (Option.some.inj hs).symm
      exact ⟨b, hb, .inr ⟨i, hi, hW hk, hs⟩⟩
  have hinst : ∀ i ∈ cx.f.blockInsts b, ∀ st st' : FS × Dbg, PtOk (ValueStarts cx.f) (AccessEnds cx.f) st.2 →
      allocInstD cx b st i = .ok st' → PtOk (ValueStarts cx.f) (AccessEnds cx.f) st'.2 := by
    intro i hi st st' h hs
    unfold allocInstD at hs
    split at hs
    · cases hs
    split at hs
    · cases hs
    split at hs
    · cases hs
    next s3 d3 h3 =>
    split at hs
    · cases hs
    next s4 h4 =>
    split at hs
    · cases hs
    next s5 d5 h5 =>
    have hs := Except.ok.inj hs
    subst hs
    show PtOk _ _ d5
    have hd3 : PtOk (ValueStarts cx.f) (AccessEnds cx.f) d3 := by
      have hstep : ∀ p, ∀ x ∈ opsAt cx i p, ∀ s s' : FS × Dbg, PtOk (ValueStarts cx.f) (AccessEnds cx.f) s.2 →
          stepD (allocOp cx b i) (dbgOp i) s x = .ok s' → PtOk (ValueStarts cx.f) (AccessEnds cx.f) s'.2 := by
        intro p x hx s s' h hs
        unfold stepD at hs
        split at hs
        · cases hs
        · have hs := Except.ok.inj hs
          subst hs
          refine hop i hi x _ _ _ ?_ h
          exact List.mem_of_getElem? (mem_opsOf.mp (List.mem_filter.mp hx).1)
      unfold instOpsD at h3
      split at h3
      · cases h3
      next st1 h1 =>
      exact foldlM_pres (fun s => PtOk (ValueStarts cx.f) (AccessEnds cx.f) s.2)
        (foldlM_pres (fun s => PtOk (ValueStarts cx.f) (AccessEnds cx.f) s.2) h (hstep _) h1) (hstep _) h3
    by_cases hbr : cx.f.isBranch i = true
    · rw [if_pos hbr] at h5
      have hl := hf.branch_last b hb i hi hbr
      unfold processBranchD at h5
      split at h5
      · cases h5
      next sp d6 h6 =>
      split at h5
      · cases h5
      have h5 := Except.ok.inj h5
      have e : d6 = d5 := congrArg Prod.snd h5
      subst e
      refine foldlM_pres (fun s : (FS × PMoves) × Dbg => PtOk (ValueStarts cx.f) (AccessEnds cx.f) s.2) hd3 ?_ h6
      intro x hx s s' h hs
      unfold branchArgD at hs
      split at hs
      · cases hs
      · have hs := Except.ok.inj hs
        subst hs
        show PtOk _ _ (dbgArg _ _ _ _ _)
        unfold dbgArg
        split
        · exact h
        · refine h.set (h _).1 ?_
          intro t ht
          have ht' : t = ptBefore i := (Option.some.inj ht).symm
          obtain ⟨k, s, j, v, hsk, hv, rfl⟩ := mem_pairs.mp hx
          refine ⟨b, hb, i, hi, .inr (.inr ⟨k, s, hsk, ⟨v, ?_, rfl⟩, hl, ht'⟩)⟩
          rw [← hl]
          exact List.mem_of_getElem? hv
    · rw [if_neg hbr] at h5
      have e : d3 = d5 := congrArg Prod.snd (Except.ok.inj h5)
      rw [← e]; exact hd3
  unfold allocBlockD at hs
  split at hs
  · cases hs
  next st1 h1 =>
  have hd1 := foldlM_pres (fun s : FS × Dbg => PtOk (ValueStarts cx.f) (AccessEnds cx.f) s.2) h
    (fun i hi => hinst i (List.mem_reverse.mp hi)) h1
  unfold reloadAtBeginD at hs
  split at hs
  · cases hs
  next s2 d2 h2 =>
  split at hs
  · cases hs
  have hs := Except.ok.inj hs
  subst hs
  refine foldlM_pres (s := (reset cx st1.1, st1.2)) (s' := (s2, d2)) (fun s : FS × Dbg => PtOk (ValueStarts cx.f) (AccessEnds cx.f) s.2) hd1 ?_ h2
  intro v hv s s' h hs
  unfold stepD at hs
  split at hs
  · cases hs
  · have hs := Except.ok.inj hs
    subst hs
    show PtOk _ _ (dbgParam _ _ _ _ _ _)
    unfold dbgParam
    split
    · exact h
    · refine h.set ?_ (h _).2
      intro s hs
      exact ⟨b, hb, .inl ⟨v, hv, rfl, (Option.some.inj hs).symm⟩⟩

theorem points_run {t : FS} {d : Dbg} (h : runEnvD cx = .ok (t, d)) : PtOk (ValueStarts cx.f) (AccessEnds cx.f) d := by
  unfold runEnvD at h
  refine foldlM_pres (fun s : FS × Dbg => PtOk (ValueStarts cx.f) (AccessEnds cx.f) s.2) ?_ ?_ h
  · intro w
    constructor
    · intro s hs; cases hs
    · intro s hs; cases hs
  · intro b hb s s' hI hs
    exact points_block hf (List.mem_range.mp (List.mem_reverse.mp hb)) hI hs

omit hf in
theorem starts_def {w s : Nat} (h : ValueStarts cx.f w s) : DefIn cx (List.range cx.f.numBlocks) w := by
  obtain ⟨b, hb, h⟩ := h
  refine ⟨b, List.mem_range.mpr hb, ?_⟩
  rcases h with ⟨q, hq, e, _⟩ | ⟨i, hi, hw, _⟩
  · exact .inl ⟨q, hq, e⟩
  · exact .inr ⟨i, hi, DDi_iff.mpr hw⟩

end

end Fast
end Regalloc
