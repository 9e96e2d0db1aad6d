import Verif.Proofs.ApplyGroups
import Verif.Proofs.CheckerSound
import Verif.Proofs.FastRun
import Verif.Props.InsertedMoves

/-
Executions of the emitted code, as moves and instructions alternating.
-/
namespace Regalloc.Apply

open ResolveMoves Exec RedundantMoves
open Moves (Store exec)

variable {Val : Type}

/-- One instruction, its clobbers last. -/
def stepA (f : Func) (al : Nat → Nat → Allocation) (sem : InstSem Val) (junk : Nat → Allocation → Val) (i n : Nat) (A : Allocation → Val) :
    (Nat × List Val × List Val) × (Allocation → Val) :=
  let r := stepInst sem i ((f.operands i).zip ((List.range (f.operands i).length).map (al i))) A
  (r.1, fun a => if a ∈ (f.clobbers i).map Allocation.reg then junk n a else r.2 a)

/-- Instructions, each after the moves placed before it. -/
def runT (f : Func) (al : Nat → Nat → Allocation) (sem : Sem Val) (junk : Nat → Allocation → Val) (ms : List PMove) :
    List Nat → (Allocation → Val) → Trace Val → (Allocation → Val) × Trace Val
  | [], A, tr => (A, tr)
  | i :: is, A, tr =>
    let r := stepA f al (sem tr) junk i tr.length (movesAt ms (2 * i) A)
    runT f al sem junk ms is r.2 (tr ++ [r.1])

theorem execE_movesAt (es : List RMove) (q : Nat) (A : Allocation → Val) :
    Fast.execE (((es.map (fun m => (m.pp.pos.bits.toNat, (⟨m.src, m.dst⟩ : Edit)))).filter (fun pe => decide (pe.1 = q))).map (·.2)) A =
      movesAt (es.map RMove.toP) q A := by
  unfold movesAt Fast.execE
  induction es generalizing A with
  | nil => rfl
  | cons m es ih =>
    simp only [List.map_cons, List.filter_cons]
    by_cases h : m.pp.pos.bits.toNat = q
    · rw [if_pos (by simpa using h), if_pos (by show decide (m.pp.pos.bits.toNat = q) = true; simpa using h)]
      simp only [List.map_cons, List.foldl_cons]
      rw [ih]
      rfl
    · rw [if_neg (by simpa using h), if_neg (by show ¬ decide (m.pp.pos.bits.toNat = q) = true; simpa using h)]
      exact ih A

/-- The items of a block, when no edit is placed after an instruction. -/
theorem allocItems_runT {f : Func} {out : Output} {sem : Sem Val} {junk : Nat → Allocation → Val} {al : Nat → Nat → Allocation}
    {es : List RMove} (he : out.edits = es.map (fun m => (m.pp.pos.bits.toNat, ⟨m.src, m.dst⟩)))
    (heven : ∀ m ∈ es, m.pp.pos.bits.toNat % 2 = 0) (lo : Nat) :
    ∀ (n k : Nat) (A : Allocation → Val) (tr : Trace Val),
    (∀ j, lo + k ≤ j → j < lo + k + n → out.instAllocs j = some ((List.range (f.operands j).length).map (al j))) →
    allocItems f out sem junk ((List.range' (lo + k) n).flatMap fun i =>
      (out.edits.filter fun pe => ptBefore lo ≤ pe.1 ∧ ptBefore i ≤ pe.1 + 1 ∧ pe.1 ≤ ptBefore i).map
        (fun pe => InstOrEdit.edit pe.2) ++ [.inst i]) A tr =
      runT f al sem junk (es.map RMove.toP) (List.range' (lo + k) n) A tr := by
  intro n
  induction n with
  | zero => intro k A tr _; rfl
  | succ n ih =>
    intro k A tr hal
    rw [List.range'_succ, List.flatMap_cons, runT]
    have hfil : (out.edits.filter fun pe => decide (ptBefore lo ≤ pe.1 ∧ ptBefore (lo + k) ≤ pe.1 + 1 ∧ pe.1 ≤ ptBefore (lo + k))) =
        out.edits.filter (fun pe => decide (pe.1 = 2 * (lo + k))) := by
      apply List.filter_congr
      intro pe hpe
      rw [he] at hpe
      obtain ⟨m, hm, rfl⟩ := List.mem_map.mp hpe
      have := heven m hm
      rw [decide_eq_decide]
      show 2 * lo ≤ m.pp.pos.bits.toNat ∧ 2 * (lo + k) ≤ m.pp.pos.bits.toNat + 1 ∧ m.pp.pos.bits.toNat ≤ 2 * (lo + k) ↔
        m.pp.pos.bits.toNat = 2 * (lo + k)
      omega
    rw [hfil]
    have hmap : ((out.edits.filter (fun pe => decide (pe.1 = 2 * (lo + k)))).map (fun pe => InstOrEdit.edit pe.2)) =
        ((out.edits.filter (fun pe => decide (pe.1 = 2 * (lo + k)))).map (·.2)).map InstOrEdit.edit := by
      rw [List.map_map]; rfl
    rw [hmap, List.append_assoc, Fast.allocItems_edits, he, execE_movesAt]
    rw [← he, List.singleton_append, allocItems, hal (lo + k) (Nat.le_refl _) (by omega), Option.getD_some]
    have := ih (k + 1) (stepA f al (sem tr) junk (lo + k) tr.length (movesAt (es.map RMove.toP) (2 * (lo + k)) A)).2
      (tr ++ [(stepA f al (sem tr) junk (lo + k) tr.length (movesAt (es.map RMove.toP) (2 * (lo + k)) A)).1])
      (fun j h1 h2 => hal j (by omega) (by omega))
    rw [← Nat.add_assoc] at this
    rw [← this]
    rfl

/-! ### Removing redundant moves changes nothing -/

theorem runPoints_add {V : Type} (eff : Nat → Store V → Store V) (ms : List PMove) : ∀ (a b q : Nat) (σ : Store V),
    runPoints eff ms q (a + b) σ = runPoints eff ms (q + a) b (runPoints eff ms q a σ) := by
  intro a
  induction a with
  | zero => intro b q σ; rw [Nat.zero_add]; rfl
  | succ a ih =>
    intro b q σ
    rw [show a + 1 + b = (a + b) + 1 by omega]
    simp only [runPoints]
    rw [ih, show q + 1 + a = q + (a + 1) by omega]

theorem runPoints_congr {V : Type} (eff eff' : Nat → Store V → Store V) (ms : List PMove) : ∀ (n q : Nat) (σ : Store V),
    (∀ j, 2 * j < q + n → eff j = eff' j) → runPoints eff ms q n σ = runPoints eff' ms q n σ := by
  intro n
  induction n with
  | zero => intros; rfl
  | succ n ih =>
    intro q σ h
    simp only [runPoints]
    rw [ih _ _ (fun j hj => h j (by omega)), h (q / 2) (by omega)]

theorem movesAt_none {V : Type} {ms : List PMove} {q : Nat} (h : ∀ m ∈ ms, m.pos ≠ q) (σ : Store V) : movesAt ms q σ = σ := by
  unfold movesAt
  rw [List.filter_eq_nil_iff.mpr]
  · rfl
  · intro m hm
    simpa using h m hm

theorem runPoints_step {V : Type} (eff : Nat → Store V → Store V) (ms : List PMove) (heven : ∀ m ∈ ms, m.pos % 2 = 0) (lo k : Nat) (σ : Store V) :
    runPoints eff ms (2 * lo) (2 * (k + 1)) σ =
      eff (lo + k) (movesAt ms (2 * (lo + k)) (runPoints eff ms (2 * lo) (2 * k) σ)) := by
  rw [show 2 * (k + 1) = 2 * k + 2 by omega, runPoints_add]
  rw [show 2 * lo + 2 * k = 2 * (lo + k) by omega]
  simp only [runPoints]
  rw [if_neg (show ¬ (2 * (lo + k) + 1) % 2 = 0 by omega), if_pos (show 2 * (lo + k) % 2 = 0 by omega),
    movesAt_none (q := 2 * (lo + k) + 1) (fun m hm => by have := heven m hm; omega)]
  rw [show 2 * (lo + k) / 2 = lo + k by omega]

theorem runPoints_half {V : Type} (eff : Nat → Store V → Store V) (ms : List PMove) (lo k : Nat) (σ : Store V) (hid : ∀ σ, eff (lo + k) σ = σ) :
    runPoints eff ms (2 * lo) (2 * k + 1) σ = movesAt ms (2 * (lo + k)) (runPoints eff ms (2 * lo) (2 * k) σ) := by
  rw [runPoints_add]
  rw [show 2 * lo + 2 * k = 2 * (lo + k) by omega]
  simp only [runPoints]
  rw [if_pos (by omega), show 2 * (lo + k) / 2 = lo + k by omega, hid]

theorem runT_append {f : Func} {al : Nat → Nat → Allocation} {sem : Sem Val} {junk : Nat → Allocation → Val} {ms : List PMove} (is js : List Nat) :
    ∀ (A : Allocation → Val) (tr : Trace Val), runT f al sem junk ms (is ++ js) A tr =
      runT f al sem junk ms js (runT f al sem junk ms is A tr).1 (runT f al sem junk ms is A tr).2 := by
  induction is with
  | nil => intro A tr; rfl
  | cons i is ih =>
    intro A tr
    rw [List.cons_append, runT, runT]
    exact ih _ _

theorem runT_eq {f : Func} {al : Nat → Nat → Allocation} {sem : Sem Val} {junk : Nat → Allocation → Val} {ms ms' : List PMove} {e : RMEnv}
    (heven : ∀ m ∈ ms, m.pos % 2 = 0) (heven' : ∀ m ∈ ms', m.pos % 2 = 0) {lo hi : Nat}
    (hstep : ∀ t i n σ l, (∀ (k : Nat) (o : Op), (e.f.operands i)[k]? = some o → o.kind = .Def → l ≠ e.getAlloc i k) →
      (∀ p ∈ e.f.clobbers i, l ≠ Allocation.reg p) → (stepA f al (sem t) junk i n σ).2 l = σ l)
    (heq : ∀ (eff : Nat → Store Val → Store Val), EffOk e eff → ∀ n, 2 * lo + n ≤ 2 * hi → ∀ σ,
      runPoints eff ms (2 * lo) n σ = runPoints eff ms' (2 * lo) n σ) (A : Allocation → Val) (tr : Trace Val) :
    runT f al sem junk ms (List.range' lo (hi - lo)) A tr = runT f al sem junk ms' (List.range' lo (hi - lo)) A tr := by
  let T : Nat → Trace Val := fun j => (runT f al sem junk ms (List.range' lo (j - lo)) A tr).2
  let eff : Nat → Store Val → Store Val := fun j σ => (stepA f al (sem (T j)) junk j (T j).length σ).2
  let effX : Nat → Nat → Store Val → Store Val := fun i j σ => if j = i then σ else eff j σ
  have hok : EffOk e eff := fun i σ l h1 h2 _ => hstep _ i _ σ l h1 h2
  have hokX : ∀ i, EffOk e (effX i) := by
    intro i j σ l h1 h2 h3
    show (if j = i then σ else eff j σ) l = σ l
    split
    · rfl
    · exact hok j σ l h1 h2 h3
  have key : ∀ (n k : Nat) (tr' : Trace Val), lo + k + n = hi →
      runT f al sem junk ms (List.range' lo k) A tr = (runPoints eff ms (2 * lo) (2 * k) A, tr') →
      runT f al sem junk ms (List.range' (lo + k) n) (runPoints eff ms (2 * lo) (2 * k) A) tr' =
        runT f al sem junk ms' (List.range' (lo + k) n) (runPoints eff ms' (2 * lo) (2 * k) A) tr' := by
    intro n
    induction n with
    | zero =>
      intro k tr' hk _
      simp only [List.range'_zero, runT]
      rw [heq eff hok (2 * k) (by omega)]
    | succ n ih =>
      intro k tr' hk htr
      have hT : T (lo + k) = tr' := by
        show (runT f al sem junk ms (List.range' lo (lo + k - lo)) A tr).2 = _
        rw [show lo + k - lo = k by omega, htr]
      rw [List.range'_succ, runT, runT]
      have hmv : movesAt ms (2 * (lo + k)) (runPoints eff ms (2 * lo) (2 * k) A) =
          movesAt ms' (2 * (lo + k)) (runPoints eff ms' (2 * lo) (2 * k) A) := by
        have h1 := heq (effX (lo + k)) (hokX _) (2 * k + 1) (by omega) A
        rw [runPoints_half _ _ _ _ _ (fun σ => by show (if lo + k = lo + k then _ else _) = _; rw [if_pos rfl]),
          runPoints_half _ _ _ _ _ (fun σ => by show (if lo + k = lo + k then _ else _) = _; rw [if_pos rfl])] at h1
        have hc : ∀ ms'' : List PMove, runPoints (effX (lo + k)) ms'' (2 * lo) (2 * k) A = runPoints eff ms'' (2 * lo) (2 * k) A := by
          intro ms''
          apply runPoints_congr
          intro j hj
          funext σ
          show (if j = lo + k then σ else eff j σ) = eff j σ
          rw [if_neg (by omega)]
        rw [hc, hc] at h1
        exact h1
      have hs : ∀ (ms'' : List PMove), (∀ m ∈ ms'', m.pos % 2 = 0) →
          (stepA f al (sem tr') junk (lo + k) tr'.length (movesAt ms'' (2 * (lo + k)) (runPoints eff ms'' (2 * lo) (2 * k) A))).2 =
            runPoints eff ms'' (2 * lo) (2 * (k + 1)) A := by
        intro ms'' hev
        rw [runPoints_step eff ms'' hev]
        show _ = (stepA f al (sem (T (lo + k))) junk (lo + k) (T (lo + k)).length _).2
        rw [hT]
      rw [hs ms heven, hs ms' heven', hmv]
      refine ih (k + 1) _ (by omega) ?_
      rw [List.range'_1_concat, runT_append, htr, runT, runT, hs ms heven, hmv]
  rcases Nat.lt_or_ge hi lo with h | h
  · rw [show hi - lo = 0 by omega]; rfl
  · have := key (hi - lo) 0 tr (by omega) (by simp [runT, runPoints])
    simpa [runPoints] using this

/-! ### The moves at one point -/

/-- What the moves of one priority at one point do. -/
structure Stage (e : MoveEnv) (num : Nat) (ms : List InsertedMove) (prio : InsertMovePrio) (q : Nat) (σ σ' : Allocation → Val) : Prop where
  moved : ∀ m ∈ ms, m.pp = ⟨prio.toU32, pnt q⟩ → σ' m.dst = σ m.src
  kept : ∀ l, (∀ m ∈ ms, m.pp = ⟨prio.toU32, pnt q⟩ → m.dst ≠ l) →
    ¬ Spare e num q (ms.filter fun m => decide (m.pp = ⟨prio.toU32, pnt q⟩)) l → σ' l = σ l
  none : (∀ m ∈ ms, m.pp ≠ ⟨prio.toU32, pnt q⟩) → σ' = σ

/-- A sorted list is the concatenation of its levels. -/
theorem levels {α : Type} (g : α → Nat) : ∀ (n : Nat) (l : List α), l.Pairwise (fun a b => g a ≤ g b) → (∀ a ∈ l, g a < n) →
    l = (List.range n).flatMap (fun p => l.filter (fun a => decide (g a = p))) := by
  intro n
  induction n with
  | zero =>
    intro l _ h
    cases l with
    | nil => rfl
    | cons a l => exact absurd (h a List.mem_cons_self) (by omega)
  | succ n ih =>
    intro l hs h
    have hspl : l = l.filter (fun a => decide (g a < n)) ++ l.filter (fun a => decide (g a = n)) := by
      clear ih
      induction l with
      | nil => rfl
      | cons a l ih2 =>
        rw [List.pairwise_cons] at hs
        have ih3 := ih2 hs.2 (fun b hb => h b (List.mem_cons_of_mem _ hb))
        by_cases ha : g a < n
        · rw [List.filter_cons_of_pos (by simpa using ha), List.filter_cons_of_neg (by simp; omega), List.cons_append, ← ih3]
        · have h1 : ∀ b ∈ a :: l, g b = n := by
            intro b hb
            have h2 := h b hb
            rcases List.mem_cons.mp hb with rfl | hb
            · omega
            · have := hs.1 b hb; omega
          rw [List.filter_eq_nil_iff.mpr (fun b hb => by have := h1 b hb; simp; omega),
            List.filter_eq_self.mpr (fun b hb => by simpa using h1 b hb)]
          rfl
    rw [List.range_succ, List.flatMap_append, List.flatMap_singleton]
    conv => lhs; rw [hspl]
    congr 1
    rw [ih (l.filter (fun a => decide (g a < n))) (List.Pairwise.filter _ hs) (fun a ha => by simpa using (List.mem_filter.mp ha).2)]
    rw [List.flatMap_def, List.flatMap_def]
    congr 1
    apply List.map_congr_left
    intro p hp
    rw [List.mem_range] at hp
    rw [List.filter_filter]
    apply List.filter_congr
    intro a _
    rw [← Bool.decide_and, decide_eq_decide]
    constructor
    · rintro ⟨h1, _⟩; exact h1
    · intro h1; exact ⟨h1, by omega⟩

theorem movesAt_append {V : Type} (ms ms' : List PMove) (q : Nat) (σ : Store V) :
    movesAt (ms ++ ms') q σ = movesAt ms' q (movesAt ms q σ) := by
  unfold movesAt
  rw [List.filter_append, List.foldl_append]

theorem flat_append (gs gs' : List GroupOut) : flat (gs ++ gs') = flat gs ++ flat gs' := by
  unfold flat
  rw [List.flatMap_append]

theorem movesAt_flat {V : Type} (gs : List GroupOut) (q : Nat) (σ : Store V) :
    movesAt ((flat gs).map RMove.toP) q σ = movesAt ((flat (gs.filter (fun g => decide (g.1.pos.bits.toNat = q)))).map RMove.toP) q σ := by
  induction gs generalizing σ with
  | nil => rfl
  | cons g gs ih =>
    have h1 : flat (g :: gs) = flat [g] ++ flat gs := flat_append [g] gs
    rw [h1, List.map_append, movesAt_append, ih]
    by_cases h : g.1.pos.bits.toNat = q
    · rw [List.filter_cons_of_pos (by simpa using h)]
      rw [show g :: gs.filter (fun g => decide (g.1.pos.bits.toNat = q)) = [g] ++ gs.filter (fun g => decide (g.1.pos.bits.toNat = q)) from rfl]
      rw [flat_append, List.map_append, movesAt_append]
    · rw [List.filter_cons_of_neg (by simpa using h)]
      congr 1
      apply movesAt_none
      intro m hm
      obtain ⟨r, hr, rfl⟩ := List.mem_map.mp hm
      unfold flat at hr
      simp only [List.flatMap_cons, List.flatMap_nil, List.append_nil, List.mem_map] at hr
      obtain ⟨y, _, rfl⟩ := hr
      exact h

theorem movesAt_group {V : Type} (g : GroupOut) (σ : Store V) :
    movesAt ((flat [g]).map RMove.toP) g.1.pos.bits.toNat σ = exec σ g.2 := by
  unfold flat movesAt exec
  simp only [List.flatMap_cons, List.flatMap_nil, List.append_nil, List.map_map]
  rw [List.filter_eq_self.mpr]
  · rw [List.foldl_map]
    rfl
  · intro m hm
    obtain ⟨y, _, rfl⟩ := List.mem_map.mp hm
    simp [RMove.toP]

section
variable {e : MoveEnv} {num num' : Nat} {ms : List InsertedMove} {gs : List GroupOut}
  (hs : gs.Pairwise (fun (a b : GroupOut) => a.1.Before b.1))
  (hiff : ∀ pp, (∃ m ∈ ms, m.pp = pp) ↔ ∃ g ∈ gs, g.1 = pp)
  (hperf : ∀ g ∈ gs, Performs e num num' g.1.pos.bits.toNat (ms.filter fun m => decide (m.pp = g.1)) g.2)
include hs hiff hperf

theorem stage_of {q : Nat} (hq : q < 2 ^ 32) (prio : InsertMovePrio) (σ : Allocation → Val) :
    Stage e num ms prio q σ (movesAt ((flat (gs.filter (fun g => decide (g.1 = ⟨prio.toU32, pnt q⟩)))).map RMove.toP) q σ) := by
  have hlen : ∀ (l : List GroupOut), l.Pairwise (fun (a b : GroupOut) => a.1.Before b.1) → (∀ g ∈ l, g.1 = ⟨prio.toU32, pnt q⟩) →
      l = [] ∨ ∃ g, l = [g] := by
    intro l h1 h2
    match l, h1, h2 with
    | [], _, _ => exact .inl rfl
    | [g], _, _ => exact .inr ⟨g, rfl⟩
    | g :: g' :: l, h1, h2 =>
      exfalso
      have h3 := (List.pairwise_cons.mp h1).1 g' List.mem_cons_self
      rw [h2 g (by simp), h2 g' (by simp)] at h3
      unfold PosWithPrio.Before at h3
      omega
  rcases hlen _ (List.Pairwise.filter (fun g : GroupOut => decide (g.1 = ⟨prio.toU32, pnt q⟩)) hs)
      (fun g hg => by simpa using (List.mem_filter.mp hg).2) with h | ⟨g, h⟩
  · rw [h]
    have hn : ∀ m ∈ ms, m.pp ≠ ⟨prio.toU32, pnt q⟩ := by
      intro m hm he
      obtain ⟨g, hg, hg2⟩ := (hiff _).mp ⟨m, hm, he⟩
      have : g ∈ gs.filter (fun g => decide (g.1 = ⟨prio.toU32, pnt q⟩)) := List.mem_filter.mpr ⟨hg, by simpa using hg2⟩
      rw [h] at this
      cases this
    exact ⟨fun m hm he => absurd he (hn m hm), fun _ _ _ => rfl, fun _ => rfl⟩
  · rw [h]
    have hg : g ∈ gs.filter (fun g => decide (g.1 = ⟨prio.toU32, pnt q⟩)) := by rw [h]; simp
    obtain ⟨hg1, hg2⟩ := List.mem_filter.mp hg
    have hg2 : g.1 = ⟨prio.toU32, pnt q⟩ := by simpa using hg2
    have hpos : g.1.pos.bits.toNat = q := by rw [hg2]; exact pnt_toNat hq
    have hmv := movesAt_group g σ
    rw [hpos] at hmv
    rw [hmv]
    have P := hperf g hg1
    rw [hpos, hg2] at P
    refine ⟨?_, ?_, ?_⟩
    · intro m hm he
      exact P.moved σ m (List.mem_filter.mpr ⟨hm, by simpa using he⟩)
    · intro l h1 h2
      refine P.kept σ l ?_ h2
      intro m hm
      exact h1 m (List.mem_filter.mp hm).1 (by simpa using (List.mem_filter.mp hm).2)
    · intro hn
      obtain ⟨m, hm, he⟩ := (hiff _).mpr ⟨g, hg1, hg2⟩
      exact absurd he (hn m hm)

/-- The moves at one point are done in order of priority. -/
theorem stages (hprio : ∀ m ∈ ms, m.pp.prio.toNat < 6) {q : Nat} (hq : q < 2 ^ 32) (σ : Allocation → Val) :
    ∃ σ0 σ1 σ2 σ3 σ4, Stage e num ms .InEdgeMoves q σ σ0 ∧ Stage e num ms .Regular q σ0 σ1 ∧
      Stage e num ms .MultiFixedRegInitial q σ1 σ2 ∧ Stage e num ms .MultiFixedRegSecondary q σ2 σ3 ∧
      Stage e num ms .ReusedInput q σ3 σ4 ∧ Stage e num ms .OutEdgeMoves q σ4 (movesAt ((flat gs).map RMove.toP) q σ) := by
  have hlev : gs.filter (fun g => decide (g.1.pos.bits.toNat = q)) =
      (List.range 6).flatMap (fun p => gs.filter (fun g => decide (g.1 = ⟨UInt32.ofNat p, pnt q⟩))) := by
    have h1 := levels (fun g : GroupOut => g.1.prio.toNat) 6 (gs.filter (fun g => decide (g.1.pos.bits.toNat = q))) (by
      have h2 : (gs.filter (fun g => decide (g.1.pos.bits.toNat = q))).Pairwise (fun (a b : GroupOut) => a.1.Before b.1) :=
        List.Pairwise.filter _ hs
      refine h2.imp_of_mem ?_
      intro a b ha hb hab
      have ha : a.1.pos.bits.toNat = q := by simpa using (List.mem_filter.mp ha).2
      have hb : b.1.pos.bits.toNat = q := by simpa using (List.mem_filter.mp hb).2
      unfold PosWithPrio.Before at hab
      omega) (by
      intro g hg
      obtain ⟨m, hm, he⟩ := (hiff g.1).mpr ⟨g, (List.mem_filter.mp hg).1, rfl⟩
      rw [← he]
      exact hprio m hm)
    rw [h1]
    rw [List.flatMap_def, List.flatMap_def]
    congr 1
    apply List.map_congr_left
    intro p hp
    rw [List.mem_range] at hp
    rw [List.filter_filter]
    apply List.filter_congr
    intro g _
    rw [← Bool.decide_and, decide_eq_decide]
    constructor
    · rintro ⟨h2, h3⟩
      obtain ⟨⟨a, ⟨b⟩⟩, c⟩ := g
      simp only [PosWithPrio.mk.injEq]
      refine ⟨?_, ?_⟩
      · rw [← UInt32.toNat_inj, UInt32.toNat_ofNat_of_lt' (by show _ < 2 ^ 32; omega)]
        exact h2
      · unfold pnt
        congr 1
        rw [← UInt32.toNat_inj, UInt32.toNat_ofNat_of_lt' hq]
        exact h3
    · intro h2
      rw [h2]
      exact ⟨UInt32.toNat_ofNat_of_lt' (by show _ < 2 ^ 32; omega), pnt_toNat hq⟩
  have hst := fun prio σ => stage_of (Val := Val) hs hiff hperf hq prio σ
  refine ⟨_, _, _, _, _, hst .InEdgeMoves σ, hst .Regular _, hst .MultiFixedRegInitial _, hst .MultiFixedRegSecondary _,
    hst .ReusedInput _, ?_⟩
  have h6 : List.range 6 = [0, 1, 2, 3, 4, 5] := rfl
  have hfin : movesAt ((flat gs).map RMove.toP) q σ =
      movesAt ((flat ([0, 1, 2, 3, 4, 5].flatMap (fun p => gs.filter (fun g => decide (g.1 = ⟨UInt32.ofNat p, pnt q⟩))))).map RMove.toP) q σ := by
    rw [movesAt_flat, hlev, h6]
  rw [hfin]
  simp only [List.flatMap_cons, List.flatMap_nil, List.append_nil, flat_append, List.map_append, movesAt_append]
  exact hst .OutEdgeMoves _
end

end Regalloc.Apply
