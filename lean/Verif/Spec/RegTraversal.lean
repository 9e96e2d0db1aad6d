import Verif.Model.RegTraversal

/-
Vocabulary for C18.
-/
namespace Regalloc

/-- The encoding of `p` is below the limit, if there is one. -/
def UnderLimit (limit : Option Nat) (p : PReg) : Prop := ∀ n, limit = some n → p.hwEnc < n

/-- `l` lists `a` before `b`. -/
def Precedes {α : Type} (l : List α) (a b : α) : Prop := ∃ x y z, l = x ++ a :: y ++ b :: z

end Regalloc
