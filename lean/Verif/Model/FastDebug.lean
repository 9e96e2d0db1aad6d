import Verif.Model.Fastalloc
import Verif.Model.DebugInfo

/-
Model of the debug locations computed by the single-pass allocator,
`/repo/src/fastalloc/mod.rs`: `vreg_to_live_inst_range` and `build_debug_info`.

The bookkeeping does not influence allocation, so it is kept apart from the state of
`Model/Fastalloc.lean`: each step of the allocator is run as it is there, and the entries that
the step writes are computed from the states before and after it.
-/
namespace Regalloc
namespace Fast

open Debug (Label Loc)

/-- `/repo/src/fastalloc/mod.rs:424-429` `vreg_to_live_inst_range`: first point, end and location.
`ProgPoint::invalid()` is `none`. -/
abbrev Dbg := Nat → Option Nat × Option Nat × Allocation

/-- `/repo/src/fastalloc/mod.rs:489-496`. -/
def Dbg.init : Dbg := fun _ => (none, none, Allocation.none)

/-- `/repo/src/fastalloc/mod.rs:838-851`, in `process_operand_allocation`: the register was not
live so far. The new allocation is the one recorded for the operand. -/
def dbgOperand (d : Dbg) (s s' : FS) (i idx : Nat) (o : Op) : Dbg :=
  if o.asFixedNonallocatable.isSome ∨ s.alloc o.vreg.vreg ≠ Allocation.none then d
  else
    set1 d o.vreg.vreg ((d o.vreg.vreg).1,
      some (match o.pos, o.kind with
        | .Early, .Use => ptAfter i
        | _, _ => ptBefore (i + 1)),
      s'.allocs i idx)

/-- `/repo/src/fastalloc/mod.rs:1112-1121`, in `alloc_def_op`. -/
def dbgDef (d : Dbg) (s' : FS) (i : Nat) (v : VReg) : Dbg :=
  set1 d v.vreg (some (ptAfter i), (d v.vreg).2.1,
    match s'.slot v.vreg with
    | some n => stk n
    | none => (d v.vreg).2.2)

/-- One operand: `s` and `s'` are the states before and after `allocOp`. -/
def dbgOp (i : Nat) (d : Dbg) (s s' : FS) (x : Nat × Op) : Dbg :=
  match x.2.kind with
  | .Use => dbgOperand d s s' i x.1 x.2
  | .Def => dbgDef (dbgOperand d s s' i x.1 x.2) s' i x.2.vreg

/-- One branch argument, `/repo/src/fastalloc/mod.rs:942-973`. -/
def dbgArg (cx : Cx) (i : Nat) (d : Dbg) (s : FS) (vp : VReg × Option VReg) : Dbg :=
  if (cx.f.operands i).any (fun o => o.vreg = vp.1 ∧ o.kind = .Def) ∨ s.alloc vp.1.vreg ≠ Allocation.none then d
  else set1 d vp.1.vreg ((d vp.1.vreg).1, some (ptBefore i), (d vp.1.vreg).2.2)

/-- One block parameter, `/repo/src/fastalloc/mod.rs:1346-1356`. Its slot is there after the
step. -/
def dbgParam (cx : Cx) (b : Nat) (d : Dbg) (s s' : FS) (v : VReg) : Dbg :=
  if s.alloc v.vreg = Allocation.none then d
  else set1 d v.vreg (some (ptBefore (cx.f.insns b).1), (d v.vreg).2.1,
    match s'.slot v.vreg with
    | some n => stk n
    | none => (d v.vreg).2.2)

/-- A step together with its bookkeeping. -/
def stepD {α : Type} (f : FS → α → R FS) (g : Dbg → FS → FS → α → Dbg) (st : FS × Dbg) (x : α) : R (FS × Dbg) :=
  match f st.1 x with
  | .error e => .error e
  | .ok s => .ok (s, g st.2 st.1 s x)

/-- `instOps` with bookkeeping. -/
def instOpsD (cx : Cx) (st : FS × Dbg) (b i : Nat) : R (FS × Dbg) :=
  match (opsAt cx i .Late).foldlM (stepD (allocOp cx b i) (dbgOp i)) st with
  | .error e => .error e
  | .ok st => (opsAt cx i .Early).foldlM (stepD (allocOp cx b i) (dbgOp i)) st

/-- `branchArg` with bookkeeping. -/
def branchArgD (cx : Cx) (i : Nat) (st : (FS × PMoves) × Dbg) (vp : VReg × Option VReg) : R ((FS × PMoves) × Dbg) :=
  match branchArg cx i st.1 vp with
  | .error e => .error e
  | .ok s => .ok (s, dbgArg cx i st.2 st.1.1 vp)

/-- `processBranch` with bookkeeping. -/
def processBranchD (cx : Cx) (st : FS × Dbg) (b i : Nat) : R (FS × Dbg) :=
  match (branchPairs cx.f b i).foldlM (branchArgD cx i) ((st.1, fun _ => []), st.2) with
  | .error e => .error e
  | .ok (_, d) =>
    match processBranch cx st.1 b i with
    | .error e => .error e
    | .ok s => .ok (s, d)

/-- `allocInst` with bookkeeping. -/
def allocInstD (cx : Cx) (b : Nat) (st : FS × Dbg) (i : Nat) : R (FS × Dbg) :=
  match instSetup cx st.1 i with
  | .error e => .error e
  | .ok (s, nc) =>
    match instEvict cx s nc i with
    | .error e => .error e
    | .ok s =>
      match instOpsD cx (s, st.2) b i with
      | .error e => .error e
      | .ok (s, d) =>
        match (cx.opsOf i).foldlM (useMove cx i) s with
        | .error e => .error e
        | .ok s =>
          match (if cx.f.isBranch i then processBranchD cx (s, d) b i else .ok (s, d)) with
          | .error e => .error e
          | .ok (s, d) => .ok ({ s with reused := fun _ => none }, d)

/-- `reloadAtBegin` with bookkeeping. -/
def reloadAtBeginD (cx : Cx) (st : FS × Dbg) (b : Nat) : R (FS × Dbg) :=
  match (cx.f.params b).foldlM (stepD (reloadParam cx b) (dbgParam cx b)) (reset cx st.1, st.2) with
  | .error e => .error e
  | .ok (_, d) =>
    match reloadAtBegin cx st.1 b with
    | .error e => .error e
    | .ok s => .ok (s, d)

/-- `allocBlock` with bookkeeping. -/
def allocBlockD (cx : Cx) (st : FS × Dbg) (b : Nat) : R (FS × Dbg) :=
  match (cx.f.blockInsts b).reverse.foldlM (allocInstD cx b) st with
  | .error e => .error e
  | .ok st => reloadAtBeginD cx st b

/-- `runEnv` with bookkeeping. -/
def runEnvD (cx : Cx) : R (FS × Dbg) := (List.range cx.f.numBlocks).reverse.foldlM (allocBlockD cx) (FS.init cx, Dbg.init)

/-- One label, `/repo/src/fastalloc/mod.rs:1546-1552`: the whole live range is reported if it
contains the label. An invalid first point compares as greater than every instruction; a register
with a valid first point has a valid end. -/
def labelLoc (d : Dbg) (l : Label) : Option Loc :=
  match d l.vreg.vreg with
  | (some s, some t, a) => if s / 2 ≤ l.fr ∧ l.to ≤ t / 2 + 1 then some (l.label, s, t, a) else none
  | _ => none

/-- `/repo/src/fastalloc/mod.rs:1544-1554` `build_debug_info`. -/
def buildDebug (d : Dbg) (labels : List Label) : List Loc :=
  isort (fun a b => decide (a.1 ≤ b.1)) (labels.filterMap (labelLoc d))

/-- `debug_locations` of the output of the single-pass allocator. -/
def debugLocations (cx : Cx) (labels : List Label) : R (List Loc) :=
  match runEnvD cx with
  | .error e => .error e
  | .ok (_, d) => .ok (buildDebug d labels)

end Fast
end Regalloc
