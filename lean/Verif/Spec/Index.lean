import Verif.Model.Lib

/-
Specification vocabulary for C50.
-/
namespace Regalloc.IndexSpec

/-- The instructions with numbers `a`, `a + 1`, …, `b - 1`. -/
def span (a b : Nat) : List Inst := (List.range' a (b - a)).map (fun i => ⟨UInt32.ofNat i⟩)

end Regalloc.IndexSpec
