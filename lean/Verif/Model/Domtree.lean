import Verif.Model.Postorder

/-
Model of `/repo/src/domtree.rs`. `Block` is `Nat`; `Block::invalid()` is `none`.
Results are wrapped in an outer `Option` whose `none` stands for a Rust panic
(index out of bounds, `unwrap` of `None`) or for a loop that ran out of fuel.
-/
namespace Regalloc.Domtree

/-- `/repo/src/domtree.rs:22-42` `merge_sets`. -/
def mergeSets (idom rpo : List (Option Nat)) : Nat → Option Nat → Option Nat → Option (Option Nat)
  | 0, _, _ => none
  | fuel + 1, n1, n2 =>
    if n1 = n2 then some n1
    else
      match n1, n2 with
      | some a, some b =>
        match rpo[a]?, rpo[b]? with
        | some (some r1), some (some r2) =>
          if r1 > r2 then
            match idom[a]? with
            | none => none
            | some p => mergeSets idom rpo fuel p (some b)
          else if r2 > r1 then
            match idom[b]? with
            | none => none
            | some p => mergeSets idom rpo fuel (some a) p
          else mergeSets idom rpo fuel (some a) (some b)
        | _, _ => none
      | _, _ => some none

/-- Search for an initial parent, `/repo/src/domtree.rs:73-86`. -/
def firstParent (rpo : List (Option Nat)) (rponum : Nat) : List Nat → Option (Option Nat)
  | [] => some none
  | p :: ps =>
    match rpo[p]? with
    | none => none
    | some none => firstParent rpo rponum ps
    | some (some r) => if r < rponum then some (some p) else firstParent rpo rponum ps

/-- Merging with the other predecessors, `/repo/src/domtree.rs:88-98`. -/
def mergePreds (idom rpo : List (Option Nat)) (fuel : Nat) : List Nat → Option Nat → Option (Option Nat)
  | [], parent => some parent
  | p :: ps, parent =>
    if parent = some p then mergePreds idom rpo fuel ps parent
    else
      match idom[p]? with
      | none => none
      | some none => mergePreds idom rpo fuel ps parent
      | some (some _) =>
        match mergeSets idom rpo fuel parent (some p) with
        | none => none
        | some par => mergePreds idom rpo fuel ps par

/-- Body of the `for` loop over the blocks, `/repo/src/domtree.rs:69-104`. -/
def visit (preds : Nat → List Nat) (rpo : List (Option Nat)) (fuel : Nat)
    (st : List (Option Nat) × Bool) (node : Nat) : Option (List (Option Nat) × Bool) :=
  match rpo[node]? with
  | some (some rponum) =>
    match firstParent rpo rponum (preds node) with
    | none => none
    | some none => some st
    | some (some p) =>
      match mergePreds st.1 rpo fuel (preds node) (some p), st.1[node]? with
      | some parent, some old =>
        if parent.isSome ∧ parent ≠ old then some (st.1.set node parent, true) else some st
      | _, _ => none
  | _ => none

/-- One pass over the blocks in reverse postorder. -/
def pass (preds : Nat → List Nat) (rpo : List (Option Nat)) (fuel : Nat) :
    List Nat → List (Option Nat) × Bool → Option (List (Option Nat) × Bool)
  | [], st => some st
  | x :: xs, st =>
    match visit preds rpo fuel st x with
    | none => none
    | some st' => pass preds rpo fuel xs st'

/-- The `while changed` loop, `/repo/src/domtree.rs:64-105`. -/
def loop (preds : Nat → List Nat) (rpo : List (Option Nat)) (order : List Nat) (mfuel : Nat) :
    Nat → List (Option Nat) → Option (List (Option Nat))
  | 0, _ => none
  | fuel + 1, idom =>
    match pass preds rpo mfuel order (idom, false) with
    | none => none
    | some (idom', changed) => if changed then loop preds rpo order mfuel fuel idom' else some idom'

/-- Map from block to reverse-postorder number, `/repo/src/domtree.rs:54-57`.
`i` is the number of the first block in the list. -/
def numberBlocks : List (Option Nat) → Nat → List Nat → Option (List (Option Nat))
  | rpo, _, [] => some rpo
  | rpo, i, x :: xs => if x < rpo.length then numberBlocks (rpo.set x (some i)) (i + 1) xs else none

/-- `/repo/src/domtree.rs:44-107` `calculate`. -/
def calculate? (n : Nat) (preds : Nat → List Nat) (postOrd : List Nat) (start : Nat) :
    Option (List (Option Nat)) :=
  match numberBlocks (List.replicate n none) 0 postOrd.reverse with
  | none => none
  | some rpo =>
    if start < n then
      match loop preds rpo postOrd.reverse (2 * postOrd.length + 1) (n + 3)
          ((List.replicate n none).set start (some start)) with
      | none => none
      | some idom => some (idom.set start none)
    else none

/-- `/repo/src/domtree.rs:109-119` `dominates`, with fuel. -/
def dominatesFuel (idom : List (Option Nat)) : Nat → Option Nat → Option Nat → Option Bool
  | 0, _, _ => none
  | fuel + 1, a, b =>
    if a = b then some true
    else
      match b with
      | none => some false
      | some b =>
        match idom[b]? with
        | none => none
        | some p => dominatesFuel idom fuel a p

/-- `dominates`; the tree has at most `idom.length` levels. -/
def dominates? (idom : List (Option Nat)) (a b : Option Nat) : Option Bool :=
  dominatesFuel idom (idom.length + 2) a b

end Regalloc.Domtree
