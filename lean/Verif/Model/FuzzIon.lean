import Verif.Model.FuzzFunc
import Verif.Model.Run
import Verif.Model.Checker

/-
Model of `/repo/src/fuzzing/ion.rs`: the fuzz target that allocates a generated function by the
backtracking allocator and has the result checked.
-/
namespace Regalloc.FuzzGen

/-- How the target panics: the allocator fails or panics itself, the checker reports errors, or it
panics itself. -/
inductive TargetFail
  | allocator (e : Pipeline.Fail)
  | checker (es : List Checker.CheckerError)
  | checkerPanic

/-- `/repo/src/fuzzing/ion.rs:48-72` `check`. `annotate` affects only what is logged, and is left out;
so is the reuse of the context (C36). -/
def ionTarget (i : Pipeline.Input) (checkSsa : Bool) : Except TargetFail Unit :=
  match Api.ionRun i checkSsa with
  | .error e => .error (.allocator e)
  | .ok out =>
    match Checker.run? i.f i.env out with
    | none => .error .checkerPanic
    | some [] => .ok ()
    | some es => .error (.checker es)

end Regalloc.FuzzGen
