import Verif.Model.VRegSet

/-
Specification of the live register set (C16): a stack of distinct registers.
-/
namespace Regalloc
namespace VRegSet

/-- An operation of a history. -/
inductive SetOp
  | insert (v : VReg)
  | remove (n : Nat)
  deriving Repr

/-- Abstract effect: insert on top, remove the register numbered `n`. -/
def SetOp.abs : SetOp → List VReg → List VReg
  | .insert v, l => v :: l
  | .remove n, l => l.filter (fun v => v.vreg ≠ n)

/-- Operations a caller may make on contents `l` with capacity `n`: insert a
register in range whose number is not present, remove one that is present. -/
def SetOp.Valid (n : Nat) (l : List VReg) : SetOp → Prop
  | .insert v => v.vreg < n ∧ v ≠ VReg.invalid ∧ v.vreg ∉ l.map VReg.vreg
  | .remove k => k ∈ l.map VReg.vreg

/-- A valid history from contents `l`. -/
def ValidHist (n : Nat) : List VReg → List SetOp → Prop
  | _, [] => True
  | l, op :: ops => op.Valid n l ∧ ValidHist n (op.abs l) ops

def absRun (l : List VReg) (ops : List SetOp) : List VReg := ops.foldl (fun l op => op.abs l) l

/-- The implementation run on a history. -/
def run? : VRegSet → List SetOp → Option VRegSet
  | s, [] => some s
  | s, .insert v :: ops =>
    match s.insert? v with
    | none => none
    | some s' => run? s' ops
  | s, .remove k :: ops =>
    match s.remove? k with
    | none => none
    | some s' => run? s' ops

end VRegSet
end Regalloc
