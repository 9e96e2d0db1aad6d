import Verif.Proofs.ApplyTop
import Verif.Spec.DebugInfo

/-
Executions up to a point of a block.
-/
namespace Regalloc.Debug

open Exec ResolveMoves RedundantMoves Apply

variable {Val : Type}

theorem allocItems_append {f : Func} {out : Output} {sem : Sem Val} {junk : Nat → Allocation → Val} (is js : List InstOrEdit) :
    ∀ (A : Allocation → Val) (tr : Trace Val), allocItems f out sem junk (is ++ js) A tr =
      allocItems f out sem junk js (allocItems f out sem junk is A tr).1 (allocItems f out sem junk is A tr).2 := by
  induction is with
  | nil => intro A tr; rfl
  | cons i is ih =>
    intro A tr
    cases i with
    | inst i => simp only [List.cons_append, allocItems]; exact ih _ _
    | edit e => simp only [List.cons_append, allocItems]; exact ih _ _

theorem origInsts_append {f : Func} {sem : Sem Val} (is js : List Nat) :
    ∀ (V : VReg → Val) (tr : Trace Val), origInsts f sem (is ++ js) V tr =
      origInsts f sem js (origInsts f sem is V tr).1 (origInsts f sem is V tr).2 := by
  induction is with
  | nil => intro A tr; rfl
  | cons i is ih => intro V tr; simp only [List.cons_append, origInsts]; exact ih _ _

/-- Edits at a point. -/
def editsAt (out : Output) (q : Nat) : List InstOrEdit :=
  (out.edits.filter (fun pe => decide (pe.1 = q))).map (fun pe => .edit pe.2)

theorem pairs {α : Type} (g : Nat → List α) (lo : Nat) : ∀ n, (List.range' (2 * lo) (2 * n)).flatMap g =
    (List.range' lo n).flatMap (fun i => g (2 * i) ++ g (2 * i + 1)) := by
  intro n
  induction n generalizing lo with
  | zero => rfl
  | succ n ih =>
    rw [show 2 * (n + 1) = 2 * n + 1 + 1 by omega, List.range'_succ, List.range'_succ, List.range'_succ]
    simp only [List.flatMap_cons]
    have := ih (lo + 1)
    rw [show 2 * (lo + 1) = 2 * lo + 1 + 1 by omega] at this
    rw [this, List.append_assoc]

/-- Without edits after instructions. -/
theorem upTo_after {out : Output} (heven : ∀ pe ∈ out.edits, pe.1 % 2 = 0) {lo j : Nat} (h : lo ≤ j + 1) :
    (List.range' (2 * lo) (2 * (j + 1 - lo))).flatMap (fun q => (if q % 2 = 1 then [InstOrEdit.inst (q / 2)] else []) ++ editsAt out q) =
      (List.range' lo (j + 1 - lo)).flatMap (fun i => editsAt out (2 * i) ++ [.inst i]) := by
  rw [pairs]
  congr 1
  funext i
  have h1 : editsAt out (2 * i + 1) = [] := by
    unfold editsAt
    rw [List.filter_eq_nil_iff.mpr]
    · rfl
    · intro pe hpe
      have := heven pe hpe
      simp only [decide_eq_true_eq]
      omega
  rw [h1, if_neg (by omega), if_pos (by omega), show (2 * i + 1) / 2 = i by omega]
  simp

theorem items_runT {f : Func} {out : Output} {sem : Sem Val} {junk : Nat → Allocation → Val} {al : Nat → Nat → Allocation}
    {es : List RMove} (he : out.edits = es.map (fun m => (m.pp.pos.bits.toNat, ⟨m.src, m.dst⟩))) :
    ∀ (n lo : Nat) (A : Allocation → Val) (tr : Trace Val),
    (∀ j, lo ≤ j → j < lo + n → out.instAllocs j = some ((List.range (f.operands j).length).map (al j))) →
    allocItems f out sem junk ((List.range' lo n).flatMap fun i => editsAt out (2 * i) ++ [.inst i]) A tr =
      runT f al sem junk (es.map RMove.toP) (List.range' lo n) A tr := by
  intro n
  induction n with
  | zero => intro lo A tr _; rfl
  | succ n ih =>
    intro lo A tr hal
    rw [List.range'_succ, List.flatMap_cons, runT]
    have hmap : editsAt out (2 * lo) =
        ((out.edits.filter (fun pe => decide (pe.1 = 2 * lo))).map (·.2)).map InstOrEdit.edit := by
      unfold editsAt
      rw [List.map_map]; rfl
    rw [hmap, List.append_assoc, Fast.allocItems_edits, he, execE_movesAt]
    rw [List.singleton_append, allocItems, hal lo (Nat.le_refl _) (by omega), Option.getD_some]
    rw [← ih (lo + 1) _ _ (fun j h1 h2 => hal j (by omega) (by omega))]
    rfl

theorem edits_movesAt {f : Func} {out : Output} {sem : Sem Val} {junk : Nat → Allocation → Val} {es : List RMove}
    (he : out.edits = es.map (fun m => (m.pp.pos.bits.toNat, ⟨m.src, m.dst⟩))) (q : Nat) (A : Allocation → Val) (tr : Trace Val) :
    allocItems f out sem junk (editsAt out q) A tr = (movesAt (es.map RMove.toP) q A, tr) := by
  have hmap : editsAt out q = ((out.edits.filter (fun pe => decide (pe.1 = q))).map (·.2)).map InstOrEdit.edit ++ [] := by
    unfold editsAt
    rw [List.map_map, List.append_nil]; rfl
  rw [hmap, Fast.allocItems_edits, he, execE_movesAt]
  rfl

/-- The function with an instruction that does nothing. -/
def idle (f : Func) (j : Nat) : Func :=
  { f with operands := fun i => if i = j then [] else f.operands i, clobbers := fun i => if i = j then [] else f.clobbers i }

theorem stepA_idle {f : Func} {al : Nat → Nat → Allocation} {sem : InstSem Val} {junk : Nat → Allocation → Val} {i j n : Nat}
    {A : Allocation → Val} (h : i ≠ j) : stepA (idle f j) al sem junk i n A = stepA f al sem junk i n A := by
  unfold stepA idle
  simp only [if_neg h]

theorem stepA_idle_self {f : Func} {al : Nat → Nat → Allocation} {sem : InstSem Val} {junk : Nat → Allocation → Val} {j n : Nat}
    {A : Allocation → Val} : (stepA (idle f j) al sem junk j n A).2 = A := by
  unfold stepA idle
  simp [stepInst, writesFrom]

theorem runT_idle {f : Func} {al : Nat → Nat → Allocation} {sem : Sem Val} {junk : Nat → Allocation → Val} {ms : List PMove} {j : Nat} :
    ∀ (is : List Nat) (A : Allocation → Val) (tr : Trace Val), j ∉ is → runT (idle f j) al sem junk ms is A tr = runT f al sem junk ms is A tr := by
  intro is
  induction is with
  | nil => intros; rfl
  | cons i is ih =>
    intro A tr h
    rw [List.mem_cons, not_or] at h
    simp only [runT]
    rw [stepA_idle (fun e => h.1 e.symm)]
    exact ih _ _ h.2

/-- Removing redundant moves does not change what is there after the moves of a point, either. -/
theorem runT_eq_moves {f : Func} {al : Nat → Nat → Allocation} {sem : Sem Val} {junk : Nat → Allocation → Val} {ms ms' : List PMove} {e : RMEnv}
    (heven : ∀ m ∈ ms, m.pos % 2 = 0) (heven' : ∀ m ∈ ms', m.pos % 2 = 0) {lo j : Nat} (hlo : lo ≤ j)
    (hstep : ∀ t i n σ l, (∀ (k : Nat) (o : Op), (e.f.operands i)[k]? = some o → o.kind = .Def → l ≠ e.getAlloc i k) →
      (∀ p ∈ e.f.clobbers i, l ≠ Allocation.reg p) → (stepA f al (sem t) junk i n σ).2 l = σ l)
    (heq : ∀ (eff : Nat → Moves.Store Val → Moves.Store Val), EffOk e eff → ∀ n, 2 * lo + n ≤ 2 * (j + 1) → ∀ σ,
      runPoints eff ms (2 * lo) n σ = runPoints eff ms' (2 * lo) n σ) (A : Allocation → Val) (tr : Trace Val) :
    movesAt ms (2 * j) (runT f al sem junk ms (List.range' lo (j - lo)) A tr).1 =
      movesAt ms' (2 * j) (runT f al sem junk ms' (List.range' lo (j - lo)) A tr).1 := by
  have h := runT_eq (f := idle f j) (al := al) (sem := sem) (junk := junk) heven heven' (lo := lo) (hi := j + 1) (e := e) (by
    intro t i n σ l h1 h2
    by_cases hij : i = j
    · subst hij
      rw [stepA_idle_self]
    · rw [stepA_idle hij]
      exact hstep t i n σ l h1 h2) heq A tr
  have key : ∀ ms : List PMove, (runT (idle f j) al sem junk ms (List.range' lo (j + 1 - lo)) A tr).1 =
      movesAt ms (2 * j) (runT f al sem junk ms (List.range' lo (j - lo)) A tr).1 := by
    intro ms
    rw [show j + 1 - lo = (j - lo) + 1 by omega, List.range'_1_concat, runT_append, show lo + (j - lo) = j by omega]
    rw [runT_idle (List.range' lo (j - lo)) A tr (by rw [List.mem_range'_1]; omega)]
    simp only [runT]
    rw [stepA_idle_self]
  rw [← key, ← key, h]

/-- What the moves do at each point, and what is executed up to each point. -/
theorem run_points {x : Env} {e : MoveEnv} {num : UInt32} (hf : FuncOk x) (hv : Valid x e num.toNat) (M : MachineOk e)
    (hroom : Room e num.toNat) {ms sorted : List InsertedMove} {allocs : Nat → Nat → Allocation} (ha : apply x = some (ms, allocs))
    (hef : e.f = x.f) (hea : e.getAlloc = allocs) (heb : e.insnBlock = x.insnBlock)
    (hperm : sorted.Perm ms) (hsorted : sorted.Pairwise (fun a b => a.pp.key ≤ b.pp.key)) :
    ∃ srcs psrcs pdests al1 al2 gs edits s', Done x ms allocs srcs psrcs pdests al1 al2 ∧
      resolveSorted e sorted (Slots.start num) = some (edits, s') ∧
      (∀ Val : Type, ∀ q, q < 2 ^ 32 → ∀ σ : Allocation → Val, ∃ σ0 σ1 σ2 σ3 σ4, Stage e num.toNat ms .InEdgeMoves q σ σ0 ∧
        Stage e num.toNat ms .Regular q σ0 σ1 ∧ Stage e num.toNat ms .MultiFixedRegInitial q σ1 σ2 ∧
        Stage e num.toNat ms .MultiFixedRegSecondary q σ2 σ3 ∧ Stage e num.toNat ms .ReusedInput q σ3 σ4 ∧
        Stage e num.toNat ms .OutEdgeMoves q σ4 (movesAt ((flat gs).map RMove.toP) q σ)) ∧
      ∀ (Val : Type) (sem : Sem Val) (junk : Nat → Allocation → Val) b, b < x.f.numBlocks → ∀ A tr,
        allocItems x.f (outputOf x.f s'.num.toNat edits allocs) sem junk ((outputOf x.f s'.num.toNat edits allocs).blockInstsAndEdits x.f b) A tr =
          runT x.f allocs sem junk ((flat gs).map RMove.toP) (x.f.blockInsts b) A tr ∧
        ∀ j ∈ x.f.blockInsts b,
          allocItems x.f (outputOf x.f s'.num.toNat edits allocs) sem junk (upTo (outputOf x.f s'.num.toNat edits allocs) (x.f.insns b).1 (2 * j + 1)) A tr =
            runT x.f allocs sem junk ((flat gs).map RMove.toP) (List.range' (x.f.insns b).1 (j + 1 - (x.f.insns b).1)) A tr ∧
          (allocItems x.f (outputOf x.f s'.num.toNat edits allocs) sem junk (upTo (outputOf x.f s'.num.toNat edits allocs) (x.f.insns b).1 (2 * j)) A tr).1 =
            movesAt ((flat gs).map RMove.toP) (2 * j)
              (runT x.f allocs sem junk ((flat gs).map RMove.toP) (List.range' (x.f.insns b).1 (j - (x.f.insns b).1)) A tr).1 := by
  obtain ⟨srcs, psrcs, pdests, al1, al2, D⟩ := apply_done hf hv ha
  obtain ⟨gs, edits, s', h1, h2, h3, h4, h5, h6, _, h8⟩ := C37_resolve_inserted_moves e M num hroom ms sorted hperm hsorted
    (moves_groupOk hf hv D)
  have hevenF : ∀ m ∈ flat gs, m.pp.pos.bits.toNat % 2 = 0 := by
    intro m hm
    unfold flat at hm
    obtain ⟨g, hg, hm⟩ := List.mem_flatMap.mp hm
    obtain ⟨y, _, rfl⟩ := List.mem_map.mp hm
    obtain ⟨m', hm', he⟩ := (h3 g.1).mpr ⟨g, hg, rfl⟩
    show g.1.pos.bits.toNat % 2 = 0
    rw [← he]
    exact moves_even hf hv D hm'
  have hevenE : ∀ m ∈ edits, m.pp.pos.bits.toNat % 2 = 0 := fun m hm => hevenF m (h5.subset hm)
  have hpF : ∀ m ∈ (flat gs).map RMove.toP, m.pos % 2 = 0 := by
    intro m hm
    obtain ⟨r, hr, rfl⟩ := List.mem_map.mp hm
    exact hevenF r hr
  have hpE : ∀ m ∈ edits.map RMove.toP, m.pos % 2 = 0 := by
    intro m hm
    obtain ⟨r, hr, rfl⟩ := List.mem_map.mp hm
    exact hevenE r hr
  have hevenO : ∀ pe ∈ (outputOf x.f s'.num.toNat edits allocs).edits, pe.1 % 2 = 0 := by
    intro pe hpe
    obtain ⟨m, hm, rfl⟩ := List.mem_map.mp hpe
    exact hevenE m hm
  have hsortE : SortedEdits (outputOf x.f s'.num.toNat edits allocs).edits := by
    show (edits.map _).Pairwise _
    rw [List.pairwise_map]
    refine h6.imp ?_
    intro a b hab
    unfold PosWithPrio.Before at hab
    show a.pp.pos.bits.toNat ≤ b.pp.pos.bits.toNat
    omega
  refine ⟨srcs, psrcs, pdests, al1, al2, gs, edits, s', D, h1, fun Val q hq σ => stages h2 h3 h4 (fun m hm => prio_lt hf hv D hm) hq σ, ?_⟩
  intro Val sem junk b hb A tr
  have hstep : ∀ (t : Trace Val) i n σ l, (∀ (k : Nat) (o : Op), (e.rm.f.operands i)[k]? = some o → o.kind = .Def → l ≠ e.rm.getAlloc i k) →
      (∀ p ∈ e.rm.f.clobbers i, l ≠ Allocation.reg p) → (stepA x.f allocs (sem t) junk i n σ).2 l = σ l := by
    intro _ i n σ l g1 g2
    apply stepA_other
    · intro k o g3 g4
      rw [← hea]
      exact g1 k o (by show (e.f.operands i)[k]? = some o; rw [hef]; exact g3) g4
    · intro p hp
      exact g2 p (by show p ∈ e.f.clobbers i; rw [hef]; exact hp)
  have hrun : ∀ (eff : Nat → Moves.Store Val → Moves.Store Val), EffOk e.rm eff → ∀ n, 2 * (x.f.insns b).1 + n ≤ 2 * (x.f.insns b).2 → ∀ σ,
      runPoints eff (edits.map RMove.toP) (2 * (x.f.insns b).1) n σ = runPoints eff ((flat gs).map RMove.toP) (2 * (x.f.insns b).1) n σ := by
    intro eff hok n hn σ
    refine h8 eff hok b (x.f.insns b).1 (x.f.insns b).2 ?_ n hn σ
    rw [heb]
    exact hv.blocks b hb
  have hall : ∀ j, j < (x.f.insns b).2 → (outputOf x.f s'.num.toNat edits allocs).instAllocs j =
      some ((List.range (x.f.operands j).length).map (allocs j)) := by
    intro j hj
    apply instAllocs_outputOf
    have := hf.insts b hb
    omega
  refine ⟨?_, ?_⟩
  · rw [C20_block_items _ _ _ hsortE]
    have hit := allocItems_runT (f := x.f) (out := outputOf x.f s'.num.toNat edits allocs) (sem := sem) (junk := junk) (al := allocs) rfl hevenE
      (x.f.insns b).1 ((x.f.insns b).2 - (x.f.insns b).1) 0 A tr (fun j h9 h10 => hall j (by omega))
    rw [Nat.add_zero] at hit
    have hit2 : allocItems x.f (outputOf x.f s'.num.toNat edits allocs) sem junk
        (blockItems (outputOf x.f s'.num.toNat edits allocs).edits (x.f.insns b).1 (x.f.insns b).2) A tr = _ := hit
    rw [hit2]
    exact runT_eq (e := e.rm) hpE hpF hstep hrun A tr
  · intro j hj
    have hj := (blockInsts_mem hf).mp hj
    constructor
    · unfold upTo
      have := upTo_after hevenO (lo := (x.f.insns b).1) (j := j) (by omega)
      unfold editsAt at this
      rw [show 2 * j + 1 + 1 - 2 * (x.f.insns b).1 = 2 * (j + 1 - (x.f.insns b).1) by omega, this]
      refine (items_runT (al := allocs) rfl _ _ A tr (fun j' _ h10 => hall j' (by omega))).trans ?_
      exact runT_eq (e := e.rm) (hi := j + 1) hpE hpF hstep (fun eff hok n hn σ => hrun eff hok n (by omega) σ) A tr
    · have hsplit : upTo (outputOf x.f s'.num.toNat edits allocs) (x.f.insns b).1 (2 * j) =
          (List.range' (x.f.insns b).1 (j - (x.f.insns b).1)).flatMap
            (fun i => editsAt (outputOf x.f s'.num.toNat edits allocs) (2 * i) ++ [.inst i]) ++
          editsAt (outputOf x.f s'.num.toNat edits allocs) (2 * j) := by
        unfold upTo
        rw [show 2 * j + 1 - 2 * (x.f.insns b).1 = 2 * (j - (x.f.insns b).1) + 1 by omega, List.range'_1_concat, List.flatMap_append,
          List.flatMap_singleton, show 2 * (x.f.insns b).1 + 2 * (j - (x.f.insns b).1) = 2 * j by omega, if_neg (by omega)]
        congr 1
        rcases Nat.eq_or_lt_of_le hj.1 with h | h
        · rw [← h, Nat.sub_self]
          rfl
        · have := upTo_after hevenO (lo := (x.f.insns b).1) (j := j - 1) (by omega)
          rw [show j - 1 + 1 - (x.f.insns b).1 = j - (x.f.insns b).1 by omega] at this
          exact this
      rw [hsplit, allocItems_append, edits_movesAt (es := edits) rfl]
      dsimp only
      rw [items_runT (al := allocs) (es := edits) rfl _ _ A tr (fun j' _ h10 => hall j' (by omega))]
      exact runT_eq_moves (e := e.rm) hpE hpF hj.1 hstep (fun eff hok n hn σ => hrun eff hok n (by omega) σ) A tr

end Regalloc.Debug
