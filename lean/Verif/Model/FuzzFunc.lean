import Verif.Model.Ssa
import Verif.Model.DebugInfo
import Verif.Model.Sort

/-
Model of `/repo/src/fuzzing/func.rs`: the generator of functions that the fuzz targets feed to the
allocators.

`Unstructured` is a stream of numbers, one for each choice; when it has run out, the choices are
those for zero, as in the `arbitrary` crate (`int_in_range` yields the lower end, `bool` is false).
How many bytes a choice takes is left out: the claims are about all streams, thus about all
sequences of choices.
-/
namespace Regalloc.FuzzGen

open Regalloc.Debug (Label)

/-- How the generator fails: `choose` from nothing, which makes the fuzzer skip the input; a virtual
register number that does not fit (`debug_assert` in `VReg::new`, `/repo/src/lib.rs:433-438`); any
other panic. -/
inductive Err
  | emptyChoose | tooManyVregs | panic
  deriving DecidableEq, Repr

/-- A computation that makes choices: `fn(&mut Unstructured) -> ArbitraryResult<α>`. -/
def G (α : Type) : Type := List Nat → Except Err (α × List Nat)

namespace G

def ret {α : Type} (a : α) : G α := fun s => .ok (a, s)

def andThen {α β : Type} (m : G α) (k : α → G β) : G β := fun s =>
  match m s with
  | .ok (a, s') => k a s'
  | .error e => .error e

/-- `return Err(e)`, or a panic. -/
def fail {α : Type} (e : Err) : G α := fun _ => .error e

end G

instance : Monad G where
  pure := G.ret
  bind := G.andThen

/-- `Unstructured::int_in_range(lo..=hi)`. It panics if the range is empty. -/
def intIn (lo hi : Nat) : G Nat := fun s =>
  if hi < lo then .error .panic else .ok (lo + s.headD 0 % (hi - lo + 1), s.tail)

/-- `bool::arbitrary`. -/
def flip : G Bool := fun s => .ok (s.headD 0 % 2 == 1, s.tail)

/-- `c && bool::arbitrary(u)?`. -/
def andFlip (c : Bool) : G Bool := if c then flip else pure false

/-- `Unstructured::choose`. -/
def choose {α : Type} (l : List α) : G α :=
  match l with
  | [] => .fail .emptyChoose
  | x :: xs => do
    let i ← intIn 0 xs.length
    match (x :: xs)[i]? with
    | some y => pure y
    | none => .fail .panic

/-- `/repo/src/fuzzing/func.rs:18-23`. -/
inductive InstOpcode
  | Op | Ret | Branch
  deriving DecidableEq, Repr

/-- `/repo/src/fuzzing/func.rs:25-30`. -/
structure InstData where
  op : InstOpcode
  operands : List Op
  clobbers : List PReg
  deriving DecidableEq, Repr

/-- `/repo/src/fuzzing/func.rs:49-60` `Func`. (`reftype_vregs`, which nothing reads, is left out.) -/
structure Fn where
  insts : List InstData
  blocks : List (Nat × Nat)
  preds : List (List Nat)
  succs : List (List Nat)
  paramsIn : List (List VReg)
  paramsOut : List (List (List VReg))
  numVregs : Nat
  labels : List Label
  deriving DecidableEq, Repr

/-- `/repo/src/fuzzing/func.rs:62-131`: the function as the allocator sees it. Asking for a block or
an instruction that does not exist panics in the code and yields something empty here. The clobbers
are collected in a set (`:112-118`); here they are listed in the order of its iteration. -/
def Fn.func (x : Fn) : Func where
  numInsts := x.insts.length
  numBlocks := x.blocks.length
  entry := 0
  insns := fun b => x.blocks.getD b (0, 0)
  succs := fun b => x.succs.getD b []
  preds := fun b => x.preds.getD b []
  params := fun b => x.paramsIn.getD b []
  isRet := fun i => (x.insts[i]?.map (·.op)) == some .Ret
  isBranch := fun i => (x.insts[i]?.map (·.op)) == some .Branch
  args := fun b _ k => (x.paramsOut.getD b []).getD k []
  operands := fun i => (x.insts[i]?.map (·.operands)).getD []
  clobbers := fun i => (PRegSet.ofList ((x.insts[i]?.map (·.clobbers)).getD [])).toList
  numVregs := x.numVregs

/-- `/repo/src/fuzzing/func.rs:357-370` `Options`. Ranges are inclusive. -/
structure Options where
  reusedInputs : Bool
  fixedRegs : Bool
  fixedNonallocatable : Bool
  clobbers : Bool
  reftypes : Bool
  callsiteIsh : Bool
  numBlocks : Nat × Nat
  numVregs : Nat × Nat
  numUses : Nat × Nat
  numCallsite : Nat × Nat
  numClobbers : Nat × Nat

/-- `/repo/src/fuzzing/func.rs:372-388` `DEFAULT`. -/
def Options.default : Options where
  reusedInputs := false
  fixedRegs := false
  fixedNonallocatable := false
  clobbers := false
  reftypes := false
  callsiteIsh := false
  numBlocks := (1, 100)
  numVregs := (5, 15)
  numUses := (0, 10)
  numCallsite := (0, 20)
  numClobbers := (0, 10)

/-- `/repo/src/fuzzing/func.rs:237-241`. -/
def anyClass : G RegClass := choose [.Int, .Float, .Vector]

/-- `/repo/src/fuzzing/func.rs:243-247`. -/
def anyPos : G OperandPos := choose [.Early, .Late]

/-- `/repo/src/fuzzing/func.rs:249-253`. -/
def anyConstraint : G OperandConstraint := choose [.Any, .Reg]

/-! ### The control-flow graph -/

structure Graph where
  succs : List (List Nat)
  preds : List (List Nat)

/-- `/repo/src/fuzzing/func.rs:159-171`: `n` calls of `add_block`. -/
def Graph.blocks (n : Nat) : Graph := ⟨List.replicate n [], List.replicate n []⟩

/-- `/repo/src/fuzzing/func.rs:177-180` `add_edge`. -/
def addEdge (g : Graph) (a b : Nat) : G Graph :=
  match g.succs[a]?, g.preds[b]? with
  | some s, some p => pure ⟨g.succs.set a (s ++ [b]), g.preds.set b (p ++ [a])⟩
  | _, _ => .fail .panic

/-- The graph, `out_blocks` and `in_blocks`. -/
structure Spine where
  g : Graph
  outs : List Nat
  ins : List Nat

/-- `/repo/src/fuzzing/func.rs:424-443`: the loop that makes the spine. The fuel is the number of
blocks. -/
def spine (n : Nat) : Nat → Nat → Spine → G Spine
  | 0, _, s => pure s
  | fuel + 1, a, s =>
    if a < n then do
      let fork ← andFlip (decide (n > 3 ∧ a < n - 3))
      if fork then do
        let g ← addEdge s.g a (a + 1)
        let g ← addEdge g a (a + 2)
        let g ← addEdge g (a + 2) (a + 3)
        spine n fuel (a + 3) ⟨g, s.outs ++ [a + 1], s.ins ++ [a]⟩
      else if a < n - 1 then do
        let g ← addEdge s.g a (a + 1)
        spine n fuel (a + 1) ⟨g, s.outs, s.ins ++ [a]⟩
      else spine n fuel (a + 1) ⟨s.g, s.outs, s.ins ++ [a]⟩
    else pure s

/-- `/repo/src/fuzzing/func.rs:444-447`. -/
def connect (ins : List Nat) : List Nat → Graph → G Graph
  | [], g => pure g
  | p :: ps, g => do
    let s ← choose ins
    let g ← addEdge g p s
    connect ins ps g

/-- `/repo/src/fuzzing/func.rs:421-447`. -/
def makeGraph (n : Nat) : G Graph := do
  let s ← spine n n 0 ⟨Graph.blocks n, [], []⟩
  connect s.ins s.outs s.g

/-- `/repo/src/fuzzing/func.rs:190-207` `compute_doms`. An error of `postorder::calculate` is ignored
in the code; here it is a panic, which is proved not to happen. -/
def doms (n : Nat) (g : Graph) : G (List (Option Nat)) :=
  match Postorder.calculate? n 0 (fun b => g.succs.getD b []) with
  | some (.ok post) =>
    match Domtree.calculate? n (fun b => g.preds.getD b []) post 0 with
    | some idom => pure idom
    | none => .fail .panic
  | _ => .fail .panic

/-- `/repo/src/fuzzing/func.rs:255-278` `choose_dominating_block`. -/
def chooseDom (idom : List (Option Nat)) (orig : Nat) (allowSelf : Bool) : Nat → Nat → G (Option Nat)
  | 0, _ => .fail .panic
  | fuel + 1, b => do
    let stop ← andFlip (allowSelf || decide (b ≠ orig))
    if stop then pure (if b ≠ orig ∨ allowSelf then some b else none)
    else
      match idom[b]? with
      | none => .fail .panic
      | some none => pure (if b ≠ orig ∨ allowSelf then some b else none)
      | some (some p) => chooseDom idom orig allowSelf fuel p

/-! ### Registers -/

/-- `/repo/src/fuzzing/func.rs:450-454` `alloc_vreg`; `nv` is `num_vregs`. -/
def allocVreg (nv : Nat) : G (VReg × Nat) := do
  let c ← anyClass
  if nv ≤ VReg.MAX then pure (VReg.new nv c, nv + 1) else .fail .tooManyVregs

/-- `/repo/src/fuzzing/func.rs:216-227`: the loop of `add_arbitrary_debug_labels`. -/
def moreLabels (last : Nat) (v : VReg) : Nat → Nat → G (List Label)
  | 0, _ => pure []
  | k + 1, start =>
    if last ≤ start then pure []
    else do
      let e ← intIn start last
      let l ← intIn 0 100
      let ls ← moreLabels last v k e
      pure (⟨v, start, e, l⟩ :: ls)

/-- `/repo/src/fuzzing/func.rs:208-228` `add_arbitrary_debug_labels`. -/
def someLabels (n : Nat) (v : VReg) : G (List Label) := do
  let start ← intIn 0 (10 * n)
  moreLabels (10 * n) v 10 start

/-- `/repo/src/fuzzing/func.rs:468-470`: labels for some registers. -/
def labelsIf (lab : Bool) (n : Nat) (v : VReg) : G (List Label) := if lab then someLabels n v else pure []

/-- `/repo/src/fuzzing/func.rs:462-471`: the registers of a block. -/
def blockVregs (opts : Options) (n : Nat) : Nat → Nat → G (List VReg × Nat × List Label)
  | 0, nv => pure ([], nv, [])
  | k + 1, nv => do
    let v ← allocVreg nv
    let _ ← andFlip opts.reftypes
    let lab ← flip
    let ls ← labelsIf lab n v.1
    let r ← blockVregs opts n k v.2
    pure (v.1 :: r.1, r.2.1, ls ++ r.2.2)

/-- `/repo/src/fuzzing/func.rs:477-484`: the parameters of the block, and the registers to be
defined in it. -/
def splitParams (b : Nat) : List VReg → Nat → G (List VReg × List VReg)
  | [], _ => pure ([], [])
  | v :: vs, k => do
    let p ← andFlip (decide (b > 0))
    if p ∧ k > 0 then do
      let r ← splitParams b vs (k - 1)
      pure (v :: r.1, r.2)
    else do
      let r ← splitParams b vs k
      pure (r.1, v :: r.2)

/-- What is decided about a block at first: its registers, its parameters, and the registers its
instructions define, in order (`vregs_by_block_to_be_defined` is that list reversed, and popped from
the end). -/
structure Plan where
  vregs : List VReg
  params : List VReg
  defs : List VReg
  deriving DecidableEq, Repr

/-- `/repo/src/fuzzing/func.rs:456-488`. -/
def planBlocks (opts : Options) (n : Nat) : List Nat → Nat → G (List Plan × Nat × List Label)
  | [], nv => pure ([], nv, [])
  | b :: bs, nv => do
    let k ← intIn opts.numVregs.1 opts.numVregs.2
    let vs ← blockVregs opts n k nv
    let m ← intIn 0 (min 3 (vs.1.length / 3))
    let s ← splitParams b vs.1 m
    let r ← planBlocks opts n bs vs.2.1
    pure (⟨vs.1, s.1, s.2⟩ :: r.1, r.2.1, vs.2.2 ++ r.2.2)

/-! ### Instructions -/

/-- The graph's dominators, the plans, and the block at hand. -/
structure Cx where
  opts : Options
  idom : List (Option Nat)
  plans : List Plan
  block : Nat

/-- `choose_dominating_block(&builder.idom, block, false, u)`. -/
def Cx.dom (cx : Cx) : G (Option Nat) := chooseDom cx.idom cx.block false (cx.idom.length + 2) cx.block

/-- `/repo/src/fuzzing/func.rs:505-507`: whether a use is of a register of the same block. -/
def useLocal (avail : List VReg) (rem : Int) : G Bool :=
  if avail.isEmpty then pure false else if rem = 0 then pure true else flip

/-- `/repo/src/fuzzing/func.rs:505-533`: the uses of an instruction. `rem` is
`remaining_nonlocal_uses`, an `i32`. -/
def genUses (cx : Cx) (avail : List VReg) : Nat → Int → G (List Op × Int)
  | 0, rem => pure ([], rem)
  | k + 1, rem => do
    let loc ← useLocal avail rem
    if loc then do
      let v ← choose avail
      let c ← anyConstraint
      let r ← genUses cx avail k rem
      pure (⟨v, c, .Use, .Early⟩ :: r.1, r.2)
    else do
      let d ← cx.dom
      match d with
      | none => pure ([], rem)
      | some d =>
        match cx.plans[d]? with
        | none => .fail .panic
        | some p => do
          let v ← choose p.vregs
          let c ← anyConstraint
          let r ← genUses cx avail k (rem - 1)
          pure (⟨v, c, .Use, .Early⟩ :: r.1, r.2)

/-- `/repo/src/fuzzing/func.rs:280-304` `convert_def_to_reuse`. The encoding has room for the numbers
of 32 inputs (`debug_assert` in `Operand::new`, `/repo/src/lib.rs:717-720`). -/
def toReuse (ops : List Op) : G (List Op) :=
  match ops[0]? with
  | none => .fail .panic
  | some d =>
    if d.kind ≠ .Def then .fail .panic
    else do
      let k ← intIn 1 (ops.length - 1)
      match ops[k]? with
      | none => .fail .panic
      | some u =>
        if d.vreg.class? = u.vreg.class? then
          if k ≤ 31 then
            pure ((ops.set 0 ⟨d.vreg, .Reuse k, d.kind, .Late⟩).set k ⟨u.vreg, .Reg, u.kind, .Early⟩)
          else .fail .panic
        else pure ops

/-- The operands, `fixed_early` and `fixed_late`. -/
structure Fixing where
  ops : List Op
  early : List PReg
  late : List PReg

/-- `/repo/src/fuzzing/func.rs:306-348` `convert_op_to_fixed`, for operand `i`. -/
def toFixed (s : Fixing) (i : Nat) : G Fixing :=
  match s.ops[i]? with
  | none => .fail .panic
  | some o =>
    match o.vreg.class? with
    | none => .fail .panic
    | some c => do
      let e ← intIn 0 62
      let p := PReg.new e c
      if o.kind = .Def ∧ o.pos = .Early ∧ p ∈ s.late then pure s
      else if o.kind = .Use ∧ o.pos = .Late ∧ p ∈ s.early then pure s
      else
        match o.pos with
        | .Early =>
          if p ∈ s.early then pure s
          else pure ⟨s.ops.set i ⟨o.vreg, .FixedReg p, o.kind, o.pos⟩, s.early ++ [p], s.late⟩
        | .Late =>
          if p ∈ s.late then pure s
          else pure ⟨s.ops.set i ⟨o.vreg, .FixedReg p, o.kind, o.pos⟩, s.early, s.late ++ [p]⟩

/-- `/repo/src/fuzzing/func.rs:544-549`. -/
def fixSome : Nat → Fixing → G Fixing
  | 0, s => pure s
  | k + 1, s => do
    let i ← intIn 0 (s.ops.length - 1)
    let s ← toFixed s i
    fixSome k s

/-- `/repo/src/fuzzing/func.rs:553-556`: outputs of a call. `Operand::any_def` is a late definition. -/
def callDefs : Nat → Nat → G (List Op × Nat)
  | 0, nv => pure ([], nv)
  | k + 1, nv => do
    let v ← allocVreg nv
    let r ← callDefs k v.2
    pure (⟨v.1, .Any, .Def, .Late⟩ :: r.1, r.2)

/-- `/repo/src/fuzzing/func.rs:350-355` `has_fixed_def_with`. -/
def fixedDef (p : PReg) (o : Op) : Bool := decide (o.kind = .Def ∧ o.constraint = .FixedReg p)

/-- `/repo/src/fuzzing/func.rs:564-571`. -/
def callClobbers (ops : List Op) : Nat → G (List PReg)
  | 0 => pure []
  | k + 1 => do
    let e ← intIn 0 30
    let c ← anyClass
    let ps ← callClobbers ops k
    pure (if ops.any (fixedDef (PReg.new e c)) then ps else PReg.new e c :: ps)

/-- `/repo/src/fuzzing/func.rs:574-580`. The class is chosen only if the register number is new. -/
def plainClobbers : Nat → List PReg → G (List PReg)
  | 0, ps => pure ps
  | k + 1, ps => do
    let e ← intIn 0 30
    if ps.any (fun r => r.hwEnc == e) then plainClobbers k ps
    else do
      let c ← anyClass
      plainClobbers k (ps ++ [PReg.new e c])

/-- `/repo/src/fuzzing/func.rs:535-586`: special constraints. Returns the operands, the clobbers and
`num_vregs`. -/
def special (opts : Options) (ops : List Op) (nv : Nat) : G (List Op × List PReg × Nat) := do
  let r ← andFlip (decide (ops.length > 1) && opts.reusedInputs)
  if r then do
    let ops ← toReuse ops
    pure (ops, [], nv)
  else do
    let f ← andFlip opts.fixedRegs
    if f then do
      let k ← intIn 0 (ops.length - 1)
      let s ← fixSome k ⟨ops, [], []⟩
      let c ← andFlip opts.callsiteIsh
      if c then do
        let m ← intIn opts.numCallsite.1 opts.numCallsite.2
        let ds ← callDefs m nv
        let k ← intIn opts.numClobbers.1 opts.numClobbers.2
        let cl ← callClobbers (s.ops ++ ds.1) k
        pure (s.ops ++ ds.1, cl, ds.2)
      else pure (s.ops, [], nv)
    else do
      let c ← andFlip opts.clobbers
      if c then do
        let k ← intIn opts.numClobbers.1 opts.numClobbers.2
        let cl ← plainClobbers k []
        pure (ops, cl, nv)
      else do
        let x ← andFlip opts.fixedNonallocatable
        if x then do
          let c ← anyClass
          pure (ops ++ [⟨VReg.new VReg.MAX c, .FixedReg (PReg.new 63 c), .Use, .Early⟩], [], nv)
        else pure (ops, [], nv)

/-- `/repo/src/fuzzing/func.rs:493-596`: the instructions that define the registers of the list.
Returns them with the registers then available and `num_vregs`. -/
def genInsts (cx : Cx) : List VReg → List VReg → Nat → Int → G (List InstData × List VReg × Nat)
  | [], avail, nv, _ => pure ([], avail, nv)
  | v :: vs, avail, nv, rem => do
    let c ← anyConstraint
    let p ← anyPos
    let k ← intIn cx.opts.numUses.1 cx.opts.numUses.2
    let us ← genUses cx avail k rem
    let x ← special cx.opts (⟨v, c, .Def, p⟩ :: us.1) nv
    let r ← genInsts cx vs (avail ++ [v]) x.2.2 us.2
    pure (⟨.Op, x.1, x.2.1⟩ :: r.1, r.2)

/-- `/repo/src/fuzzing/func.rs:613-617`: the registers to choose an argument from, given a block that
dominates this one, if there is one, and whether to use it. -/
def argSource (cx : Cx) (avail : List VReg) (far : Bool) : Option Nat → G (List VReg)
  | none => pure avail
  | some d =>
    if far then
      match cx.plans[d]? with
      | some q => pure q.vregs
      | none => .fail .panic
    else pure avail

/-- `/repo/src/fuzzing/func.rs:606-632`: the arguments for the parameters `ps` of a successor. -/
def genArgs (cx : Cx) (avail : List VReg) : List VReg → G (List VReg)
  | [] => pure []
  | p :: ps => do
    let d ← cx.dom
    let far ← andFlip d.isSome
    let vs ← argSource cx avail far d
    let v ← choose (vs.filter (fun v => decide (v.class? = p.class?)))
    let r ← genArgs cx avail ps
    pure (v :: r)

/-- `/repo/src/fuzzing/func.rs:603-634`: the arguments for all successors. -/
def genEdges (cx : Cx) (avail : List VReg) : List Nat → G (List (List VReg))
  | [] => pure []
  | s :: ss =>
    match cx.plans[s]? with
    | none => .fail .panic
    | some q => do
      let a ← genArgs cx avail q.params
      let r ← genEdges cx avail ss
      pure (a :: r)

/-- `/repo/src/fuzzing/func.rs:490-640`: the instructions of block `cx.block`, the arguments of its
branch, and `num_vregs`. -/
def genBlock (cx : Cx) (succs : List Nat) (nv : Nat) : G (List InstData × List (List VReg) × Nat) :=
  match cx.plans[cx.block]? with
  | none => .fail .panic
  | some q => do
    let rem ← intIn 0 3
    let r ← genInsts cx q.defs q.params nv rem
    if succs.length > 0 then do
      let args ← genEdges cx r.2.1 succs
      pure (r.1 ++ [⟨.Branch, [], []⟩], args, r.2.2)
    else pure (r.1 ++ [⟨.Ret, [], []⟩], [], r.2.2)

/-- The loop over the blocks. -/
def genBlocks (opts : Options) (idom : List (Option Nat)) (plans : List Plan) (g : Graph) :
    List Nat → Nat → G (List (List InstData × List (List VReg)) × Nat)
  | [], nv => pure ([], nv)
  | b :: bs, nv =>
    match g.succs[b]? with
    | none => .fail .panic
    | some ss => do
      let x ← genBlock ⟨opts, idom, plans, b⟩ ss nv
      let r ← genBlocks opts idom plans g bs x.2.2
      pure ((x.1, x.2.1) :: r.1, r.2)

/-- `/repo/src/fuzzing/func.rs:229-240` `finalize`: the ranges of the blocks, from instruction `k` on. -/
def layOut : List (List InstData) → Nat → List (Nat × Nat)
  | [], _ => []
  | is :: r, k => (k, k + is.length) :: layOut r (k + is.length)

/-- Order of labels: tuples of register, start, end and label. -/
def labelLe (a b : Label) : Bool :=
  decide (a.vreg.bits < b.vreg.bits) || (decide (a.vreg.bits = b.vreg.bits) &&
    (decide (a.fr < b.fr) || (decide (a.fr = b.fr) &&
      (decide (a.to < b.to) || (decide (a.to = b.to) && decide (a.label ≤ b.label))))))

/-- `/repo/src/fuzzing/func.rs:399-646` `arbitrary_with_options`. -/
def generate (opts : Options) : G Fn := do
  let n ← intIn opts.numBlocks.1 opts.numBlocks.2
  let g ← makeGraph n
  let idom ← doms n g
  let ps ← planBlocks opts n (List.range n) 0
  let r ← genBlocks opts idom ps.1 g (List.range n) ps.2.1
  pure { insts := (r.1.map Prod.fst).flatten
         blocks := layOut (r.1.map Prod.fst) 0
         preds := g.preds
         succs := g.succs
         paramsIn := ps.1.map Plan.params
         paramsOut := r.1.map Prod.snd
         numVregs := r.2
         labels := isort labelLe ps.2.2 }

/-! ### What the targets run -/

/-- `/repo/src/fuzzing/func.rs:699-701`. -/
def regsFrom (lo n : Nat) (c : RegClass) : PRegSet := PRegSet.ofList ((List.range' lo n).map (fun i => PReg.new i c))

/-- `/repo/src/fuzzing/func.rs:698-729` `machine_env`. -/
def machineEnv : MachineEnv where
  preferred := regsFrom 0 24
  nonPreferred := regsFrom 24 8
  scratch := fun _ => none
  fixedStackSlots := (List.range' 32 31).flatMap (fun i => [PReg.new i .Int, PReg.new i .Float, PReg.new i .Vector])

/-- `/repo/src/fuzzing/func.rs:124-131` `spillslot_size`. -/
def slotSize : RegClass → UInt32
  | .Int => 1
  | .Float => 1
  | .Vector => 2

/-- `/repo/src/fuzzing/ion.rs:9-17` `OPTIONS`. -/
def ionOptions : Options :=
  { Options.default with
    reusedInputs := true
    fixedRegs := true
    fixedNonallocatable := true
    clobbers := true
    reftypes := true
    callsiteIsh := true }

end Regalloc.FuzzGen
