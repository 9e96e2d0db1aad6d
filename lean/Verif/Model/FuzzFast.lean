import Verif.Model.FuzzIon

/-
Model of `/repo/src/fuzzing/fastalloc.rs`: the fuzz target that allocates a generated function by the
single-pass allocator and has the result checked.
-/
namespace Regalloc.FuzzGen

/-- `/repo/src/fuzzing/fastalloc.rs:7-15` `OPTIONS`. -/
def fastOptions : Options :=
  { Options.default with
    reusedInputs := true
    fixedRegs := true
    fixedNonallocatable := true
    clobbers := true
    reftypes := false
    callsiteIsh := true }

/-- `/repo/src/fuzzing/fastalloc.rs:45-61` `check`. `annotate` affects only what is logged, and is left
out. -/
def fastTarget (i : Pipeline.Input) (checkSsa : Bool) : Except TargetFail Unit :=
  match Api.run i ⟨checkSsa, .fastalloc⟩ with
  | .error e => .error (.allocator e)
  | .ok out =>
    match Checker.run? i.f i.env out with
    | none => .error .checkerPanic
    | some [] => .ok ()
    | some es => .error (.checker es)

end Regalloc.FuzzGen
