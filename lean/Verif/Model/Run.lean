import Verif.Model.Pipeline
import Verif.Model.Fastalloc
import Verif.Model.Ssa

/-
Model of the entry points: `/repo/src/lib.rs:1683-1717` (`run`, `run_with_ctx`), with the options
`validate_ssa` and `algorithm` of `/repo/src/lib.rs:1719-1737`. `verbose_log` only affects the log
and is left out. That `run_with_ctx` does not depend on what the context was used for before is
C36.
-/
namespace Regalloc.Api

open Pipeline (Input Fail)

/-- `/repo/src/lib.rs:1719-1724`. -/
inductive Algorithm
  | ion | fastalloc
  deriving DecidableEq, Repr

/-- `/repo/src/lib.rs:1726-1737`. -/
structure Options where
  validateSsa : Bool
  algorithm : Algorithm

/-- `CFGInfo::new(func)?` and `validate_ssa(func, &cfginfo)?`. -/
def validate (f : Func) : Except Fail Unit :=
  match Cfg.init f with
  | .panic => .error .panic
  | .err e => .error (.error e)
  | .ok info =>
    match Ssa.validate f info with
    | .panic => .error .panic
    | .err e => .error (.error e)
    | .ok _ => .ok ()

/-- The part of the input that the single-pass allocator looks at. -/
def fastCx (i : Input) : Fast.Cx := ⟨i.f, i.env, i.sizeN, i.byLast⟩

/-- `fastalloc::run` without the validation. -/
def fastRun (i : Input) : Except Fail Output :=
  match Fast.run (fastCx i) with
  | .ok out => .ok out
  | .error .tooMany => .error (.error .tooManyLiveRegs)
  | .error .panic => .error .panic

/-- `/repo/src/ion/mod.rs:108-134` `ion::run`: the control-flow graph is analysed first, which may
fail, then the function is validated if asked for, then registers are allocated. (`Pipeline.run`
repeats the analysis of the control-flow graph, with the same result.) -/
def ionRun (i : Input) (validateSsa : Bool) : Except Fail Output :=
  match Cfg.init i.f with
  | .panic => .error .panic
  | .err e => .error (.error e)
  | .ok info =>
    if validateSsa then
      match Ssa.validate i.f info with
      | .panic => .error .panic
      | .err e => .error (.error e)
      | .ok _ => Pipeline.run i
    else Pipeline.run i

/-- `/repo/src/lib.rs:1683-1698` `run`; `/repo/src/fastalloc/mod.rs:1612-1641`: the single-pass
allocator looks at the control-flow graph only in order to validate the function. -/
def run (i : Input) (o : Options) : Except Fail Output :=
  match o.algorithm with
  | .ion => ionRun i o.validateSsa
  | .fastalloc =>
    if o.validateSsa then
      match validate i.f with
      | .error e => .error e
      | .ok _ => fastRun i
    else fastRun i

end Regalloc.Api
