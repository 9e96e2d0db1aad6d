import Verif.Model.Cfg

/-
Model of `/repo/src/ssa.rs` (`validate_ssa`, lines 13-138).
-/
namespace Regalloc
namespace Ssa

/-- Definitions of a block in program order, with the instruction (`none` for a
block parameter): the sequence of `def` calls of `/repo/src/ssa.rs:32-41`. -/
def blockDefs (f : Func) (b : Nat) : List (VReg × Option Nat) :=
  (f.params b).map (fun v => (v, none)) ++
  (f.blockInsts b).flatMap (fun i =>
    ((f.operands i).filter (fun o => o.kind = .Def)).map (fun o => (o.vreg, some i)))

/-- The `def` calls of one block, `/repo/src/ssa.rs:18-41`. -/
def defAll (b : Nat) : List (VReg × Option Nat) → List (Option Nat) → Outcome (List (Option Nat))
  | [], t => .ok t
  | d :: ds, t =>
    match t[d.1.vreg]? with
    | none => .err (.ssa d.1 d.2)
    | some (some _) => .err (.ssa d.1 d.2)
    | some none => defAll b ds (t.set d.1.vreg (some b))

/-- First pass, `/repo/src/ssa.rs:15-42`. -/
def pass1 (f : Func) : List Nat → List (Option Nat) → Outcome (List (Option Nat))
  | [], t => .ok t
  | b :: bs, t =>
    match defAll b (blockDefs f b) t with
    | .ok t' => pass1 f bs t'
    | .err e => .err e
    | .panic => .panic

/-- Check of one use, `/repo/src/ssa.rs:64-77`. `.panic` covers the indexing
panic on an out-of-range register number. -/
def checkUse (idom : List (Option Nat)) (t : List (Option Nat)) (b : Nat) (loc : List VReg) (i : Nat)
    (v : VReg) : Outcome Unit :=
  match t[v.vreg]? with
  | none => .panic
  | some none => .err (.ssa v (some i))
  | some (some d) =>
    if d = b then if v ∈ loc then .ok () else .err (.ssa v (some i))
    else
      match Domtree.dominates? idom (some d) (some b) with
      | none => .panic
      | some true => .ok ()
      | some false => .err (.ssa v (some i))

/-- Operand loop, `/repo/src/ssa.rs:56-84`. -/
def checkOps (idom : List (Option Nat)) (t : List (Option Nat)) (b : Nat) (loc : List VReg) (i : Nat) :
    List Op → Outcome Unit
  | [] => .ok ()
  | o :: os =>
    if o.asFixedNonallocatable.isSome then checkOps idom t b loc i os
    else
      match o.kind with
      | .Def => checkOps idom t b loc i os
      | .Use =>
        match checkUse idom t b loc i o.vreg with
        | .ok _ => checkOps idom t b loc i os
        | .err e => .err e
        | .panic => .panic

/-- Registers an instruction defines. -/
def instDefs (f : Func) (i : Nat) : List VReg :=
  ((f.operands i).filter (fun o => o.kind = .Def)).map Op.vreg

/-- Instruction loop of the second pass, `/repo/src/ssa.rs:54-94`. -/
def checkInsts (f : Func) (idom : List (Option Nat)) (t : List (Option Nat)) (b : Nat) :
    List Nat → List VReg → Outcome Unit
  | [], _ => .ok ()
  | i :: is, loc =>
    match checkOps idom t b loc i (f.operands i) with
    | .ok _ => checkInsts f idom t b is (loc ++ instDefs f i)
    | .err e => .err e
    | .panic => .panic

/-- Second pass, `/repo/src/ssa.rs:48-95`. -/
def pass2 (f : Func) (idom : List (Option Nat)) (t : List (Option Nat)) : List Nat → Outcome Unit
  | [] => .ok ()
  | b :: bs =>
    match checkInsts f idom t b (f.blockInsts b) (f.params b) with
    | .ok _ => pass2 f idom t bs
    | .err e => .err e
    | .panic => .panic

/-- Branch-argument counts, `/repo/src/ssa.rs:110-122`. -/
def argsOk (f : Func) (b i : Nat) : Bool :=
  (f.succs b).zipIdx.all (fun p => (f.params p.1).length == (f.args b i p.2).length)

/-- Terminator check of one instruction, `/repo/src/ssa.rs:104-130`. -/
def termCheck (f : Func) (b i : Nat) : Option RegAllocError :=
  if i = f.lastInst b then
    if ¬ (f.isBranch i ∨ f.isRet i) then some (.bb b)
    else if f.isBranch i ∧ ¬ argsOk f b i then some (.branch i)
    else none
  else if f.isBranch i ∨ f.isRet i then some (.bb b)
  else none

/-- Third pass, `/repo/src/ssa.rs:101-131`. -/
def pass3 (f : Func) (bs : List Nat) : Option RegAllocError :=
  bs.findSome? (fun b => (f.blockInsts b).findSome? (termCheck f b))

/-- `/repo/src/ssa.rs:13-140` `validate_ssa`. -/
def validate (f : Func) (info : Cfg.Info) : Outcome Unit :=
  match pass1 f (List.range f.numBlocks) (List.replicate f.numVregs none) with
  | .err e => .err e
  | .panic => .panic
  | .ok t =>
    match pass2 f info.domtree t (List.range f.numBlocks) with
    | .err e => .err e
    | .panic => .panic
    | .ok _ =>
      match pass3 f (List.range f.numBlocks) with
      | some e => .err e
      | none => if (f.params f.entry).length > 0 then .err (.bb f.entry) else .ok ()

end Ssa
end Regalloc
