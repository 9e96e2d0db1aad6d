import Verif.Proofs.Ssa

/-
C10: SSA validation.
-/
namespace Regalloc
open Ssa

/-- Acceptance implies at most one definition per register number in the whole
program text, and all of them in range. -/
theorem C10_single_definition (f : Func) (info : Cfg.Info) (h : validate f info = .ok ()) :
    ((allWrites f).map VReg.vreg).Nodup ∧ ∀ w ∈ allWrites f, w.vreg < f.numVregs := by
  obtain ⟨t, h1, _⟩ := (validate_ok f info).mp h
  obtain ⟨p1, p2, _⟩ := pass1_ok _ h1
  refine ⟨p1, ?_⟩
  intro w hw
  obtain ⟨b, hb, hwb⟩ := List.mem_flatMap.mp hw
  have := p2 b hb w hwb
  rw [List.getElem?_replicate] at this
  split at this
  · assumption
  · simp at this

/-- Acceptance implies that, on every path from the entry, every operand use
reads a register number that was written earlier on that path. -/
theorem C10_defined_before_use (f : Func) (info : Cfg.Info) (hc : Cfg.init f = .ok info)
    (hm : EdgesMatch f) (h : validate f info = .ok ()) (b : Nat) (l : List Nat)
    (hw : Walk f.succs f.entry b l) : ReadsDefined (pathEvents f l) := by
  obtain ⟨t, h1, h2, _, h4⟩ := (validate_ok f info).mp h
  obtain ⟨_, _, p3, p4⟩ := pass1_ok _ h1
  obtain ⟨_, _, _, hpo, hdom⟩ := Cfg.init_ok hc
  have hreach : ∀ x, Reaches f.succs f.entry x → x < f.numBlocks := by
    rintro x ⟨l, hl⟩
    induction hl with
    | start => exact hm.entryLt
    | step _ hs ih => exact hm.succLt _ _ ih hs
  obtain ⟨idom, g1, g2⟩ := C09_dominates f.numBlocks f.entry f.succs f.preds info.postorder hpo
    ⟨fun x hx p hp => hm.predLt p x (hreach x hx) hp,
     fun x p hx hp => hm.iff p x (hreach p hp) (hreach x hx)⟩
  rw [hdom] at g1
  simp only [Option.some.injEq] at g1
  subst g1
  -- one block, executed after the blocks `l`
  have key : ∀ c l', Walk f.succs f.entry c (c :: l') → ∀ pre i v post,
      blockEvents f c = pre ++ .read i v :: post → ∃ w, .write w ∈ pathEvents f l' ++ pre ∧ w.vreg = v.vreg := by
    intro c l' hwk pre i v post he
    obtain ⟨is1, is2, e1, e2, e3⟩ := blockEvents_split he
    have hcr : Reaches f.succs f.entry c := ⟨_, hwk⟩
    have hu := h2 c (hreach c hcr) is1 i is2 e1 v e2
    unfold checkUse at hu
    split at hu
    · simp at hu
    · simp at hu
    · next d hd =>
      split at hu
      · next hdc =>
        split at hu
        · next hv => exact ⟨v, List.mem_append_right _ ((e3 v).mpr hv), rfl⟩
        · simp at hu
      · next hdc =>
        split at hu
        · simp at hu
        · next hdm =>
          obtain ⟨r, r1, r2⟩ := g2 d c hcr
          rw [hdm] at r1
          simp only [Option.some.injEq] at r1
          have hD := r2.mp r1.symm (c :: l') hwk
          have hdl : d ∈ l' := by
            rcases List.mem_cons.mp hD with h | h
            · exact absurd h hdc
            · exact h
          by_cases hex : ∃ x, x < f.numBlocks ∧ ∃ w ∈ writes f x, w.vreg = v.vreg
          · obtain ⟨x, hx, w, hw, e⟩ := hex
            have := p3 x (by simpa using hx) w hw
            rw [e, hd] at this
            simp only [Option.some.injEq] at this
            subst this
            exact ⟨w, List.mem_append_left _ ((write_mem_path f l' w).mpr ⟨d, hdl, hw⟩), e⟩
          · have := p4 v.vreg (by
              intro x hx w hw e; exact hex ⟨x, by simpa using hx, w, hw, e⟩)
            rw [hd, List.getElem?_replicate] at this
            split at this <;> simp at this
        · simp at hu
  induction hw with
  | start =>
    have : pathEvents f [f.entry] = [] ++ blockEvents f f.entry := by simp [pathEvents]
    rw [this]
    refine ReadsDefined.append (by intro pre i v post h; simp at h) ?_
    intro pre i v post he
    simpa [pathEvents] using key f.entry [] .start pre i v post he
  | @step a b l hp hs ih =>
    rw [pathEvents_cons]
    exact ReadsDefined.append ih (key b l (hp.step hs))

/-- Acceptance implies that exactly the last instruction of each block is a
branch or return, that branch arguments match the parameters of the target in
number, and that the entry block has no parameters. -/
theorem C10_terminators (f : Func) (info : Cfg.Info) (h : validate f info = .ok ()) :
    TerminatorsOk f ∧ f.params f.entry = [] := by
  obtain ⟨_, _, _, h3, h4⟩ := (validate_ok f info).mp h
  exact ⟨h3, h4⟩

/-- Conversely, validation accepts every program in SSA form: unique in-range
definitions, reads preceded by writes on every path, consistent classes and
well-formed terminators; every block reachable. -/
theorem C10_accepts_ssa (f : Func) (info : Cfg.Info) (hc : Cfg.init f = .ok info) (hm : EdgesMatch f)
    (hreachable : ∀ b, b < f.numBlocks → Reaches f.succs f.entry b)
    (hnd : ((allWrites f).map VReg.vreg).Nodup) (hlt : ∀ w ∈ allWrites f, w.vreg < f.numVregs)
    (hcls : ∀ b, b < f.numBlocks → ∀ i ∈ f.blockInsts b, ∀ v ∈ opReads (f.operands i), ∀ w ∈ allWrites f,
      w.vreg = v.vreg → w = v)
    (hrd : ∀ b l, Walk f.succs f.entry b l → ReadsDefined (pathEvents f l))
    (ht : TerminatorsOk f) (hp : f.params f.entry = []) : validate f info = .ok () := by
  rw [validate_ok]
  obtain ⟨t, h1⟩ := pass1_complete (f := f) (List.range f.numBlocks) (t := List.replicate f.numVregs none) hnd (by
    intro b hb w hw
    have := hlt w (List.mem_flatMap.mpr ⟨b, hb, hw⟩)
    simp [this])
  obtain ⟨_, _, p3, _⟩ := pass1_ok _ h1
  refine ⟨t, h1, ?_, ht, hp⟩
  obtain ⟨_, _, _, hpo, hdom⟩ := Cfg.init_ok hc
  have hreach : ∀ x, Reaches f.succs f.entry x → x < f.numBlocks := by
    rintro x ⟨l, hl⟩
    induction hl with
    | start => exact hm.entryLt
    | step _ hs ih => exact hm.succLt _ _ ih hs
  obtain ⟨idom, g1, g2⟩ := C09_dominates f.numBlocks f.entry f.succs f.preds info.postorder hpo
    ⟨fun x hx p hp => hm.predLt p x (hreach x hx) hp,
     fun x p hx hp => hm.iff p x (hreach p hp) (hreach x hx)⟩
  rw [hdom] at g1
  simp only [Option.some.injEq] at g1
  subst g1
  intro b hb is1 i is2 he v hv
  -- on any path to `b`, some earlier write
  have hpath : ∀ l', Walk f.succs f.entry b (b :: l') → ∃ w, w.vreg = v.vreg ∧
      ((∃ c ∈ l', w ∈ writes f c) ∨ w ∈ f.params b ++ is1.flatMap (instDefs f)) := by
    intro l' hw
    obtain ⟨pre, post, e1, e2⟩ := blockEvents_join he hv
    obtain ⟨w, hw1, hw2⟩ := hrd b _ hw (pathEvents f l' ++ pre) i v post (by
      rw [pathEvents_cons, e1, List.append_assoc])
    refine ⟨w, hw2, ?_⟩
    rcases List.mem_append.mp hw1 with h | h
    · exact .inl ((write_mem_path f l' w).mp h)
    · exact .inr ((e2 w).mp h)
  have hloc : ∀ w, w ∈ f.params b ++ is1.flatMap (instDefs f) → w ∈ writes f b := by
    intro w hw
    unfold writes
    rcases List.mem_append.mp hw with h | h
    · exact List.mem_append_left _ h
    · obtain ⟨j, hj, hwj⟩ := List.mem_flatMap.mp h
      exact List.mem_append_right _ (List.mem_flatMap.mpr ⟨j, by rw [he]; simp [hj], hwj⟩)
  obtain ⟨l0, hl0⟩ := hreachable b hb
  obtain ⟨l1, hl1, hnd1, _⟩ := hl0.simple
  obtain ⟨l', rfl⟩ := hl1.head
  obtain ⟨w, hwv, hwc⟩ := hpath l' hl1
  have hwd : ∃ d, d < f.numBlocks ∧ w ∈ writes f d ∧ (d = b → w ∈ f.params b ++ is1.flatMap (instDefs f)) := by
    rcases hwc with ⟨c, hc, hw⟩ | hw
    · refine ⟨c, hreach c (hl1.reach_mem c (List.mem_cons_of_mem _ hc)), hw, ?_⟩
      rintro rfl
      rw [List.nodup_cons] at hnd1
      exact absurd hc hnd1.1
    · exact ⟨b, hb, hloc w hw, fun _ => hw⟩
  obtain ⟨d, hd, hw, hdb⟩ := hwd
  have htd := p3 d (by simpa using hd) w hw
  rw [hwv] at htd
  unfold checkUse
  rw [htd]
  simp only
  by_cases e : d = b
  · rw [if_pos e]
    have := hcls b hb i (by rw [he]; simp) v hv w (List.mem_flatMap.mpr ⟨d, by simpa using hd, hw⟩) hwv
    subst this
    rw [if_pos (hdb e)]
  · rw [if_neg e]
    obtain ⟨r, r1, r2⟩ := g2 d b (hreachable b hb)
    have : r = true := by
      rw [r2]
      intro l hl
      obtain ⟨l2, rfl⟩ := hl.head
      obtain ⟨w2, hw2, hc2⟩ := hpath l2 hl
      have hb2 : ∃ c, c < f.numBlocks ∧ c ∈ b :: l2 ∧ w2 ∈ writes f c := by
        rcases hc2 with ⟨c, hc, hw⟩ | hw
        · exact ⟨c, hreach c (hl.reach_mem c (List.mem_cons_of_mem _ hc)), List.mem_cons_of_mem _ hc, hw⟩
        · exact ⟨b, hb, by simp, hloc w2 hw⟩
      obtain ⟨c, hcl, hcm, hcw⟩ := hb2
      have := p3 c (by simpa using hcl) w2 hcw
      rw [hw2, htd] at this
      simp only [Option.some.injEq] at this
      subst this
      exact hcm
    subst this
    rw [r1]

/-! ### Findings -/

/-- One block, one instruction. -/
def oneInst (ops : List Op) (n : Nat) : Func where
  numInsts := 1
  numBlocks := 1
  entry := 0
  insns := fun _ => (0, 1)
  succs := fun _ => []
  preds := fun _ => []
  params := fun _ => []
  isRet := fun _ => true
  isBranch := fun _ => false
  args := fun _ _ _ => []
  operands := fun _ => ops
  clobbers := fun _ => []
  numVregs := n

/-- Finding: a use of a register number that is out of range makes validation
panic instead of returning an error. -/
theorem C10_out_of_range_use_panics : ∃ f info, Cfg.init f = .ok info ∧ validate f info = .panic :=
  ⟨oneInst [⟨VReg.new 3 .Int, .Any, .Use, .Early⟩] 1, _, rfl, by decide⟩

/-- Two blocks, 0 → 1. Block 0 defines v0 as an integer register, block 1 reads
v0 as a float register. -/
def classMix : Func where
  numInsts := 3
  numBlocks := 2
  entry := 0
  insns := fun b => if b = 0 then (0, 2) else (2, 3)
  succs := fun b => if b = 0 then [1] else []
  preds := fun b => if b = 1 then [0] else []
  params := fun _ => []
  isRet := fun i => i = 2
  isBranch := fun i => i = 1
  args := fun _ _ _ => []
  operands := fun i => if i = 0 then [⟨VReg.new 0 .Int, .Any, .Def, .Late⟩]
    else if i = 2 then [⟨VReg.new 0 .Float, .Any, .Use, .Early⟩] else []
  clobbers := fun _ => []
  numVregs := 1

/-- Finding: register classes are compared only within a block; a use whose class
differs from the definition's is accepted across blocks. -/
theorem C10_class_mismatch_accepted_across_blocks :
    ∃ info, Cfg.init classMix = .ok info ∧ validate classMix info = .ok () ∧
      VReg.new 0 .Float ∈ opReads (classMix.operands 2) ∧ allWrites classMix = [VReg.new 0 .Int] :=
  ⟨_, rfl, by decide, by decide, by decide⟩

/-- 0 → 1 with a parameter; the branch passes v7, which nothing defines. -/
def undefArg : Func where
  numInsts := 2
  numBlocks := 2
  entry := 0
  insns := fun b => (b, b + 1)
  succs := fun b => if b = 0 then [1] else []
  preds := fun b => if b = 1 then [0] else []
  params := fun b => if b = 1 then [VReg.new 0 .Int] else []
  isRet := fun i => i = 1
  isBranch := fun i => i = 0
  args := fun _ _ _ => [VReg.new 7 .Int]
  operands := fun _ => []
  clobbers := fun _ => []
  numVregs := 1

/-- Finding: branch arguments are not checked as uses; an undefined (even out of
range) argument is accepted. -/
theorem C10_undefined_branch_argument_accepted :
    ∃ info, Cfg.init undefArg = .ok info ∧ validate undefArg info = .ok () ∧
      VReg.new 7 .Int ∈ undefArg.args 0 0 0 ∧ VReg.new 7 .Int ∉ allWrites undefArg :=
  ⟨_, rfl, by decide, by decide, by decide⟩

/-! ### Non-vacuity -/

/-- A loop: 0 defines v0, v1 and jumps to 1(v2 := v0); 1 defines v3 from v2 and
v1, goes to 2 or 3; 2 jumps back with v3; 3 returns v3. -/
def ssaLoop : Func where
  numInsts := 6
  numBlocks := 4
  entry := 0
  insns := fun b => if b = 0 then (0, 2) else if b = 1 then (2, 4) else if b = 2 then (4, 5) else (5, 6)
  succs := fun b => if b = 0 then [1] else if b = 1 then [2, 3] else if b = 2 then [1] else []
  preds := fun b => if b = 1 then [0, 2] else if b = 2 then [1] else if b = 3 then [1] else []
  params := fun b => if b = 1 then [VReg.new 2 .Int] else []
  isRet := fun i => i = 5
  isBranch := fun i => i = 1 ∨ i = 3 ∨ i = 4
  args := fun b _ _ => if b = 0 then [VReg.new 0 .Int] else if b = 2 then [VReg.new 3 .Int] else []
  operands := fun i =>
    if i = 0 then [⟨VReg.new 0 .Int, .Any, .Def, .Late⟩, ⟨VReg.new 1 .Int, .Any, .Def, .Late⟩]
    else if i = 2 then [⟨VReg.new 3 .Int, .Reg, .Def, .Late⟩, ⟨VReg.new 2 .Int, .Any, .Use, .Early⟩,
      ⟨VReg.new 1 .Int, .Any, .Use, .Early⟩]
    else if i = 5 then [⟨VReg.new 3 .Int, .Any, .Use, .Early⟩] else []
  clobbers := fun _ => []
  numVregs := 4

example : EdgesMatch ssaLoop := EdgesMatch.of_decide (by decide)
example : ∃ info, Cfg.init ssaLoop = .ok info ∧ validate ssaLoop info = .ok () :=
  ⟨_, rfl, by decide +kernel⟩

/-- Block 2 of `ssaLoop` defines v1 instead of block 0: block 1 can be reached
without passing through it, so the use of v1 there is rejected. -/
example : ∃ info, Cfg.init ssaLoop = .ok info ∧
    validate { ssaLoop with operands := fun i =>
      if i = 4 then [⟨VReg.new 1 .Int, .Any, .Def, .Late⟩]
      else if i = 2 then [⟨VReg.new 1 .Int, .Any, .Use, .Early⟩] else [] } info =
    .err (.ssa (VReg.new 1 .Int) (some 2)) := ⟨_, rfl, by decide +kernel⟩

end Regalloc
