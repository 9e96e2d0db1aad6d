import Verif.Model.Ctx

/-
Specification vocabulary for C36: contexts that any sequence of runs, successful or not,
may leave behind.
-/
namespace Regalloc.Reuse

/-- What the passes do to the fields that the next run does not clear, beginning from `c`
and stopping, with success or an error, in `c'`: the register table keeps its size, the
work queue has been drained (or was dropped with the error) and so has the set of
registers to repair after a split, and the pool of range sets only shrinks. Everything
else is arbitrary. -/
structure Leaves {α : Type} (c c' : Ctx α) : Prop where
  pregs : c'.pregs.length = c.pregs.length
  workqueue : c'.scratchWorkqueue = []
  removed : c'.scratchRemovedLrsVregs = []
  pool : ∃ rest, c.scratchSpillsetPool = c'.scratchSpillsetPool ++ rest

/-- Contexts reachable by using one context for any number of runs. A run may fail before
its reset (`.early`, the control-flow analysis rejecting the function) or later. -/
inductive Used {α : Type} : Ctx α → Prop
  | fresh : Used (Ctx.default α)
  | early {c : Ctx α} (info : List (List α)) : Used c → Used { c with cfg := info }
  | run {c c' : Ctx α} (f : Func) (env : MachineEnv) (info : List (List α)) (annotations : Bool) (victims : List PReg) :
      Used c → Leaves (c.begin f env info annotations victims) c' → Used c'

end Regalloc.Reuse
