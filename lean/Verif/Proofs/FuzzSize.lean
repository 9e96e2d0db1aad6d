import Verif.Model.FuzzFunc

/-
C52: how large generated functions get.
-/
namespace Regalloc.FuzzGen

/-- If the computation succeeds, its result is as stated. -/
def Post {α : Type} (m : G α) (Q : α → Prop) : Prop := ∀ s a s', m s = .ok (a, s') → Q a

theorem Post.pure {α : Type} {a : α} {Q : α → Prop} (h : Q a) : Post (Pure.pure a : G α) Q := by
  intro s a' s' e
  change Except.ok (a, s) = Except.ok (a', s') at e
  cases e
  exact h

theorem Post.bind {α β : Type} {m : G α} {k : α → G β} {P : α → Prop} {Q : β → Prop} (h : Post m P)
    (hk : ∀ a, P a → Post (k a) Q) : Post (m >>= k) Q := by
  intro s b s' e
  change G.andThen m k s = .ok (b, s') at e
  unfold G.andThen at e
  cases hm : m s with
  | error x => rw [hm] at e; cases e
  | ok r =>
    rw [hm] at e
    exact hk r.1 (h s r.1 r.2 hm) r.2 b s' e

theorem Post.fail {α : Type} {Q : α → Prop} (e : Err) : Post (G.fail e) Q := by
  intro s a s' h
  cases h

theorem Post.any {α : Type} (m : G α) : Post m (fun _ => True) := fun _ _ _ _ => trivial

theorem Post.intIn (lo hi : Nat) : Post (intIn lo hi) (fun x => x ≤ hi) := by
  intro s a s' e
  unfold FuzzGen.intIn at e
  split at e
  · cases e
  · cases e
    have := Nat.mod_lt (s.headD 0) (show 0 < hi - lo + 1 by omega)
    omega

theorem Post.ite {α : Type} {c : Prop} [Decidable c] {m m' : G α} {Q : α → Prop} (h : Post m Q) (h' : Post m' Q) :
    Post (if c then m else m') Q := by
  split
  · exact h
  · exact h'

theorem Post.mono {α : Type} {m : G α} {P Q : α → Prop} (h : Post m P) (hi : ∀ a, P a → Q a) : Post m Q :=
  fun s a s' e => hi a (h s a s' e)

theorem allocVreg_size (nv : Nat) : Post (allocVreg nv) (fun x => x.2 = nv + 1) := by
  unfold allocVreg
  refine (Post.any _).bind fun c _ => ?_
  exact Post.ite (Post.pure rfl) (Post.fail _)

theorem blockVregs_size (opts : Options) (n : Nat) : ∀ k nv, Post (blockVregs opts n k nv) (fun x => x.1.length = k ∧ x.2.1 = nv + k) := by
  intro k
  induction k with
  | zero => intro nv; exact Post.pure ⟨rfl, rfl⟩
  | succ k ih =>
    intro nv
    unfold blockVregs
    refine (allocVreg_size nv).bind fun v hv => ?_
    refine (Post.any _).bind fun _ _ => ?_
    refine (Post.any _).bind fun _ _ => ?_
    refine (Post.any _).bind fun _ _ => ?_
    refine (ih v.2).bind fun r hr => Post.pure ?_
    simp only [List.length_cons]
    omega

theorem splitParams_size (b : Nat) : ∀ vs k, Post (splitParams b vs k) (fun x => x.2.length ≤ vs.length) := by
  intro vs
  induction vs with
  | nil => intro k; exact Post.pure (by simp)
  | cons v vs ih =>
    intro k
    unfold splitParams
    refine (Post.any _).bind fun p _ => ?_
    refine Post.ite ?_ ?_
    · refine (ih _).bind fun r hr => Post.pure ?_
      simp only [List.length_cons]; omega
    · refine (ih _).bind fun r hr => Post.pure ?_
      simp only [List.length_cons]; omega

theorem planBlocks_size (opts : Options) (n : Nat) : ∀ bs nv, Post (planBlocks opts n bs nv) (fun x =>
    x.2.1 ≤ nv + bs.length * opts.numVregs.2 ∧ ∀ q ∈ x.1, q.defs.length ≤ opts.numVregs.2) := by
  intro bs
  induction bs with
  | nil => intro nv; exact Post.pure (by simp)
  | cons b bs ih =>
    intro nv
    unfold planBlocks
    refine (Post.intIn _ _).bind fun k hk => ?_
    refine (blockVregs_size opts n k nv).bind fun vs hvs => ?_
    refine (Post.any _).bind fun m _ => ?_
    refine (splitParams_size b vs.1 m).bind fun s hs => ?_
    refine (ih vs.2.1).bind fun r hr => Post.pure ?_
    refine ⟨?_, ?_⟩
    · rw [List.length_cons, Nat.succ_mul]
      dsimp only
      omega
    · intro q hq
      rcases List.mem_cons.mp hq with rfl | hq
      · dsimp only; omega
      · exact hr.2 q hq

theorem genUses_size (cx : Cx) (avail : List VReg) : ∀ k rem, Post (genUses cx avail k rem) (fun x => x.1.length ≤ k) := by
  intro k
  induction k with
  | zero => intro rem; exact Post.pure (by simp)
  | succ k ih =>
    intro rem
    unfold genUses
    refine (Post.any _).bind fun loc _ => ?_
    refine Post.ite ?_ ?_
    · refine (Post.any _).bind fun v _ => ?_
      refine (Post.any _).bind fun c _ => ?_
      refine (ih rem).bind fun r hr => Post.pure ?_
      simp only [List.length_cons]; omega
    · refine (Post.any _).bind fun d _ => ?_
      cases d with
      | none => exact Post.pure (by simp)
      | some d =>
        dsimp only
        cases cx.plans[d]? with
        | none => exact Post.fail _
        | some p =>
          dsimp only
          refine (Post.any _).bind fun v _ => ?_
          refine (Post.any _).bind fun c _ => ?_
          refine (ih _).bind fun r hr => Post.pure ?_
          simp only [List.length_cons]; omega

theorem toReuse_size (ops : List Op) : Post (toReuse ops) (fun x => x.length = ops.length) := by
  unfold toReuse
  cases ops[0]? with
  | none => exact Post.fail _
  | some d =>
    dsimp only
    refine Post.ite (Post.fail _) ?_
    refine (Post.any _).bind fun k _ => ?_
    cases ops[k]? with
    | none => exact Post.fail _
    | some u =>
      dsimp only
      refine Post.ite (Post.ite (Post.pure (by simp)) (Post.fail _)) (Post.pure rfl)

theorem toFixed_size (s : Fixing) (i : Nat) : Post (toFixed s i) (fun x => x.ops.length = s.ops.length) := by
  unfold toFixed
  cases s.ops[i]? with
  | none => exact Post.fail _
  | some o =>
    dsimp only
    cases o.vreg.class? with
    | none => exact Post.fail _
    | some c =>
      dsimp only
      refine (Post.any _).bind fun e _ => ?_
      refine Post.ite (Post.pure rfl) (Post.ite (Post.pure rfl) ?_)
      cases o.pos with
      | Early => exact Post.ite (Post.pure rfl) (Post.pure (by simp))
      | Late => exact Post.ite (Post.pure rfl) (Post.pure (by simp))

theorem fixSome_size : ∀ k s, Post (fixSome k s) (fun x => x.ops.length = s.ops.length) := by
  intro k
  induction k with
  | zero => intro s; exact Post.pure rfl
  | succ k ih =>
    intro s
    unfold fixSome
    refine (Post.any _).bind fun i _ => ?_
    refine (toFixed_size s i).bind fun s' hs => ?_
    exact (ih s').mono fun x hx => by omega

theorem callDefs_size : ∀ k nv, Post (callDefs k nv) (fun x => x.2 = nv + k ∧ x.1.length = k ∧ ∀ o ∈ x.1, o.constraint = .Any ∧ o.kind = .Def) := by
  intro k
  induction k with
  | zero => intro nv; exact Post.pure (by simp)
  | succ k ih =>
    intro nv
    unfold callDefs
    refine (allocVreg_size nv).bind fun v hv => ?_
    refine (ih v.2).bind fun r hr => Post.pure ?_
    refine ⟨by dsimp only; omega, by simp only [List.length_cons]; omega, ?_⟩
    intro o ho
    rcases List.mem_cons.mp ho with rfl | ho
    · exact ⟨rfl, rfl⟩
    · exact hr.2.2 o ho

theorem callClobbers_size (ops : List Op) : ∀ k, Post (callClobbers ops k) (fun x => x.length ≤ k) := by
  intro k
  induction k with
  | zero => exact Post.pure (by simp)
  | succ k ih =>
    unfold callClobbers
    refine (Post.any _).bind fun e _ => ?_
    refine (Post.any _).bind fun c _ => ?_
    refine ih.bind fun ps hps => Post.pure ?_
    split
    · omega
    · rw [List.length_cons]; omega

theorem plainClobbers_size : ∀ k ps, Post (plainClobbers k ps) (fun x => x.length ≤ ps.length + k) := by
  intro k
  induction k with
  | zero => intro ps; exact Post.pure (by simp)
  | succ k ih =>
    intro ps
    unfold plainClobbers
    refine (Post.any _).bind fun e _ => ?_
    refine Post.ite ((ih ps).mono fun x hx => by omega) ?_
    refine (Post.any _).bind fun c _ => ?_
    exact (ih _).mono fun x hx => by rw [List.length_append, List.length_singleton] at hx; omega

/-- The operands of an instruction that do not accept any place. -/
def picky (ops : List Op) : List Op := ops.filter (fun o => decide (o.constraint ≠ .Any))

/-- An instruction has few operands and clobbers. -/
structure InstSize (o : Options) (ops : List Op) (cl : List PReg) : Prop where
  picky : (picky ops).length ≤ o.numUses.2 + 2
  clobbers : cl.length ≤ o.numClobbers.2
  uses : ops.countP (fun o => decide (o.kind = .Use)) ≤ o.numUses.2 + 2
  ops : ops.length ≤ o.numUses.2 + 2 + o.numCallsite.2

theorem picky_le (ops : List Op) : (picky ops).length ≤ ops.length := List.length_filter_le _ _

theorem special_size {opts : Options} {ops : List Op} (hl : ops.length ≤ opts.numUses.2 + 1) (nv : Nat) :
    Post (special opts ops nv) (fun x => InstSize opts x.1 x.2.1 ∧ x.2.2 ≤ nv + opts.numCallsite.2) := by
  have key : ∀ l : List Op, l.length ≤ opts.numUses.2 + 2 → ∀ cl : List PReg, cl.length ≤ opts.numClobbers.2 → InstSize opts l cl :=
    fun l h cl hc => ⟨Nat.le_trans (picky_le l) h, hc, Nat.le_trans List.countP_le_length h, by omega⟩
  unfold special
  refine (Post.any _).bind fun r _ => ?_
  refine Post.ite ?_ ?_
  · refine (toReuse_size ops).bind fun ops' h' => Post.pure ⟨key _ (by dsimp only; omega) _ (by simp), by dsimp only; omega⟩
  refine (Post.any _).bind fun f _ => ?_
  refine Post.ite ?_ ?_
  · refine (Post.any _).bind fun k _ => ?_
    refine (fixSome_size k ⟨ops, [], []⟩).bind fun s hs => ?_
    dsimp only at hs
    refine (Post.any _).bind fun c _ => ?_
    refine Post.ite ?_ ?_
    · refine (Post.intIn _ _).bind fun m hm => ?_
      refine (callDefs_size m nv).bind fun ds hds => ?_
      refine (Post.intIn _ _).bind fun k hk => ?_
      refine (callClobbers_size _ k).bind fun cl hcl => Post.pure ⟨⟨?_, ?_, ?_, ?_⟩, ?_⟩
      · have e : picky (s.ops ++ ds.1) = picky s.ops := by
          unfold picky
          have : ds.1.filter (fun o => decide (o.constraint ≠ .Any)) = [] := by
            rw [List.filter_eq_nil_iff]
            intro o ho
            simp [(hds.2.2 o ho).1]
          rw [List.filter_append, this, List.append_nil]
        dsimp only
        rw [e]
        have := picky_le s.ops
        omega
      · dsimp only; omega
      · dsimp only
        have : ds.1.countP (fun o => decide (o.kind = .Use)) = 0 := by
          rw [List.countP_eq_zero]
          intro o ho
          simp [(hds.2.2 o ho).2]
        rw [List.countP_append, this]
        have : s.ops.countP (fun o => decide (o.kind = .Use)) ≤ s.ops.length := List.countP_le_length
        omega
      · dsimp only; rw [List.length_append]; omega
      · dsimp only; omega
    · exact Post.pure ⟨key _ (by dsimp only; omega) _ (by simp), by dsimp only; omega⟩
  refine (Post.any _).bind fun c _ => ?_
  refine Post.ite ?_ ?_
  · refine (Post.intIn _ _).bind fun k hk => ?_
    refine (plainClobbers_size k []).bind fun cl hcl => Post.pure ⟨key _ (by dsimp only; omega) _ (by dsimp only; simp only [List.length_nil] at hcl; omega), by dsimp only; omega⟩
  refine (Post.any _).bind fun x _ => ?_
  refine Post.ite ?_ (Post.pure ⟨key _ (by dsimp only; omega) _ (by simp), by dsimp only; omega⟩)
  refine (Post.any _).bind fun c _ => ?_
  exact Post.pure ⟨key _ (by dsimp only; rw [List.length_append, List.length_singleton]; omega) _ (by simp), by dsimp only; omega⟩

theorem genInsts_size (cx : Cx) : ∀ vs avail nv rem, Post (genInsts cx vs avail nv rem) (fun x =>
    x.1.length = vs.length ∧ (∀ d ∈ x.1, InstSize cx.opts d.operands d.clobbers) ∧ x.2.2 ≤ nv + vs.length * cx.opts.numCallsite.2) := by
  intro vs
  induction vs with
  | nil => intro avail nv rem; exact Post.pure (by simp)
  | cons v vs ih =>
    intro avail nv rem
    unfold genInsts
    refine (Post.any _).bind fun c _ => ?_
    refine (Post.any _).bind fun p _ => ?_
    refine (Post.intIn _ _).bind fun k hk => ?_
    refine (genUses_size cx avail k rem).bind fun us hus => ?_
    refine (special_size (by rw [List.length_cons]; omega) nv).bind fun x hx => ?_
    refine (ih _ _ _).bind fun r hr => Post.pure ⟨?_, ?_, ?_⟩
    · simp only [List.length_cons]; omega
    · intro d hd
      rcases List.mem_cons.mp hd with rfl | hd
      · exact hx.1
      · exact hr.2.1 d hd
    · rw [List.length_cons, Nat.succ_mul]
      dsimp only
      omega

theorem instSize_nil (o : Options) : InstSize o [] [] := ⟨by simp [picky], by simp, by simp, by simp⟩

theorem genBlock_size (cx : Cx) (succs : List Nat) (nv : Nat) (hq : ∀ q ∈ cx.plans, q.defs.length ≤ cx.opts.numVregs.2) :
    Post (genBlock cx succs nv) (fun x => x.1.length ≤ cx.opts.numVregs.2 + 1 ∧ (∀ d ∈ x.1, InstSize cx.opts d.operands d.clobbers) ∧
      x.2.2 ≤ nv + cx.opts.numVregs.2 * cx.opts.numCallsite.2) := by
  unfold genBlock
  cases hp : cx.plans[cx.block]? with
  | none => exact Post.fail _
  | some q =>
    dsimp only
    have hl := hq q (List.mem_of_getElem? hp)
    have hmul := Nat.mul_le_mul_right cx.opts.numCallsite.2 hl
    refine (Post.any _).bind fun rem _ => ?_
    refine (genInsts_size cx q.defs q.params nv rem).bind fun r hr => ?_
    have fin : ∀ t : InstData, t.operands = [] → t.clobbers = [] → (r.1 ++ [t]).length ≤ cx.opts.numVregs.2 + 1 ∧
        (∀ d ∈ r.1 ++ [t], InstSize cx.opts d.operands d.clobbers) := by
      intro t h1 h2
      refine ⟨by rw [List.length_append, List.length_singleton]; omega, ?_⟩
      intro d hd
      rcases List.mem_append.mp hd with hd | hd
      · exact hr.2.1 d hd
      · rw [List.mem_singleton.mp hd, h1, h2]; exact instSize_nil _
    refine Post.ite ?_ ?_
    · refine (Post.any _).bind fun args _ => Post.pure ?_
      exact ⟨(fin _ rfl rfl).1, (fin _ rfl rfl).2, by dsimp only; omega⟩
    · exact Post.pure ⟨(fin _ rfl rfl).1, (fin _ rfl rfl).2, by dsimp only; omega⟩

theorem genBlocks_size (opts : Options) (idom : List (Option Nat)) (plans : List Plan) (g : Graph)
    (hq : ∀ q ∈ plans, q.defs.length ≤ opts.numVregs.2) : ∀ bs nv, Post (genBlocks opts idom plans g bs nv) (fun x =>
      ((x.1.map Prod.fst).flatten).length ≤ bs.length * (opts.numVregs.2 + 1) ∧
      (∀ y ∈ x.1, ∀ d ∈ y.1, InstSize opts d.operands d.clobbers) ∧ x.2 ≤ nv + bs.length * (opts.numVregs.2 * opts.numCallsite.2)) := by
  intro bs
  induction bs with
  | nil => intro nv; exact Post.pure (by simp)
  | cons b bs ih =>
    intro nv
    unfold genBlocks
    cases g.succs[b]? with
    | none => exact Post.fail _
    | some ss =>
      dsimp only
      refine (genBlock_size ⟨opts, idom, plans, b⟩ ss nv hq).bind fun x hx => ?_
      refine (ih x.2.2).bind fun r hr => Post.pure ⟨?_, ?_, ?_⟩
      · rw [List.map_cons, List.flatten_cons, List.length_append, List.length_cons, Nat.succ_mul]
        dsimp only at hx ⊢
        omega
      · intro y hy
        rcases List.mem_cons.mp hy with rfl | hy
        · exact hx.2.1
        · exact hr.2.1 y hy
      · rw [List.length_cons, Nat.succ_mul]
        dsimp only at hx ⊢
        omega

/-- A generated function is not too large. -/
structure Small (opts : Options) (x : Fn) : Prop where
  vregs : x.numVregs ≤ opts.numBlocks.2 * opts.numVregs.2 + opts.numBlocks.2 * (opts.numVregs.2 * opts.numCallsite.2)
  insts : x.insts.length ≤ opts.numBlocks.2 * (opts.numVregs.2 + 1)
  each : ∀ d ∈ x.insts, InstSize opts d.operands d.clobbers

theorem generate_size (opts : Options) : Post (generate opts) (Small opts) := by
  unfold generate
  refine (Post.intIn _ _).bind fun n hn => ?_
  refine (Post.any _).bind fun g _ => ?_
  refine (Post.any _).bind fun idom _ => ?_
  refine (planBlocks_size opts n _ 0).bind fun ps hps => ?_
  refine (genBlocks_size opts idom ps.1 g hps.2 _ _).bind fun r hr => Post.pure ⟨?_, ?_, ?_⟩
  · dsimp only
    have h1 := hps.1
    have h2 := hr.2.2
    rw [List.length_range] at h1 h2
    have := Nat.mul_le_mul_right opts.numVregs.2 hn
    have := Nat.mul_le_mul_right (opts.numVregs.2 * opts.numCallsite.2) hn
    omega
  · dsimp only
    have h1 := hr.1
    rw [List.length_range] at h1
    exact Nat.le_trans h1 (Nat.mul_le_mul_right _ hn)
  · intro d hd
    dsimp only at hd
    rw [List.mem_flatten] at hd
    obtain ⟨l, hl, hd⟩ := hd
    obtain ⟨y, hy, rfl⟩ := List.mem_map.mp hl
    exact hr.2.1 y hy d hd

end Regalloc.FuzzGen
