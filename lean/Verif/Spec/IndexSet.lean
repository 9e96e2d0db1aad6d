/-
Specification for C07: histories of set operations over any number of sets, and
the mathematical set each of them denotes.
-/
import Verif.Model.IndexSet

namespace Regalloc

/-- A history: how a set came about. `union a b` is `a.union_with(&b)`, with some
hash-iteration order; `assign a b` is `a.assign(&b)`. -/
inductive IdxHist
  | new
  | set (h : IdxHist) (i : Nat) (val : Bool)
  | union (a b : IdxHist) (ord : HashOrder)
  | assign (a b : IdxHist)

namespace IdxHist

/-- What the code computes. -/
def run : IdxHist → IndexSet
  | new => IndexSet.new
  | set h i v => h.run.set i v
  | union a b ord => (a.run.unionWith ord b.run).1
  | assign a b => a.run.assign b.run

/-- The mathematical set. -/
def Mem : IdxHist → Nat → Prop
  | new, _ => False
  | set h i v, j => if j = i then v = true else h.Mem j
  | union a b _, j => a.Mem j ∨ b.Mem j
  | assign _ b, j => b.Mem j

/-- All indices mentioned are below `2^38`, so that the word index fits `u32`. -/
def InRange : IdxHist → Prop
  | new => True
  | set h i _ => h.InRange ∧ i < 2 ^ 38
  | union a b _ => a.InRange ∧ b.InRange
  | assign a b => a.InRange ∧ b.InRange

end IdxHist

end Regalloc
