import Verif.Model.FuzzFunc
import Verif.Model.Domtree
import Verif.Model.Postorder

/-
Model of `/repo/src/fuzzing/domtree.rs`: the fuzz target for dominator trees.
-/
namespace Regalloc.FuzzDom

open Regalloc.FuzzGen (G choose intIn)

/-- `/repo/src/fuzzing/domtree.rs:8-13` `CFG`. -/
structure Cfg where
  n : Nat
  preds : List (List Nat)
  succs : List (List Nat)
  deriving DecidableEq, Repr

/-- `/repo/src/fuzzing/domtree.rs:21-23`: `k` successors. -/
def blockSuccs (n : Nat) : Nat → G (List Nat)
  | 0 => pure []
  | k + 1 => do
    let b ← intIn 0 (n - 1)
    let r ← blockSuccs n k
    pure (b :: r)

/-- `/repo/src/fuzzing/domtree.rs:18-26`: the successors of `m` blocks. -/
def allSuccs (n : Nat) : Nat → G (List (List Nat))
  | 0 => pure []
  | m + 1 => do
    let k ← intIn 0 5
    let b ← blockSuccs n k
    let r ← allSuccs n m
    pure (b :: r)

/-- `/repo/src/fuzzing/domtree.rs:31-35`: the edges, in the order in which the loops visit them. -/
def edges (succs : List (List Nat)) : List (Nat × Nat) := succs.zipIdx.flatMap (fun x => x.1.map (fun s => (x.2, s)))

/-- `/repo/src/fuzzing/domtree.rs:27-35`. `none`: an index is out of bounds. -/
def makePreds : List (Nat × Nat) → List (List Nat) → Option (List (List Nat))
  | [], ps => some ps
  | e :: es, ps =>
    match ps[e.2]? with
    | none => none
    | some l => makePreds es (ps.set e.2 (l ++ [e.1]))

/-- `/repo/src/fuzzing/domtree.rs:15-42`. -/
def genCfg : G Cfg := do
  let n ← intIn 1 1000
  let succs ← allSuccs n n
  match makePreds (edges succs) (List.replicate n []) with
  | none => .fail .panic
  | some preds => pure ⟨n, preds, succs⟩

/-- `/repo/src/fuzzing/domtree.rs:55-61`: the blocks after `b` on the path. -/
def follow (succs : List (List Nat)) : Nat → Nat → G (List Nat)
  | 0, _ => pure []
  | k + 1, b =>
    match succs[b]? with
    | none => .fail .panic
    | some [] => pure []
    | some (s :: ss) => do
      let c ← choose (s :: ss)
      let r ← follow succs k c
      pure (c :: r)

/-- `/repo/src/fuzzing/domtree.rs:49-64` `choose_from_cfg`. -/
def genPath (c : Cfg) : G (List Nat) := do
  let k ← intIn 0 (2 * c.n)
  let r ← follow c.succs k 0
  pure (0 :: r)

/-- `/repo/src/fuzzing/domtree.rs:105-118` `TestCase`. -/
structure Case where
  cfg : Cfg
  path : List Nat
  deriving DecidableEq, Repr

/-- `/repo/src/fuzzing/domtree.rs:112-118`. -/
def genCase : G Case := do
  let c ← genCfg
  let p ← genPath c
  pure ⟨c, p⟩

/-- How the target fails: an assertion does not hold, a call panics, or a loop does not end. -/
inductive Fail
  | assertion | panic | hangs
  deriving DecidableEq, Repr

/-- `/repo/src/fuzzing/domtree.rs:81-86`: up the tree. -/
def climb (idom : List (Option Nat)) (visited : List Nat) : Nat → Option Nat → List Nat → Except Fail (List Nat)
  | 0, _, _ => .error .hangs
  | _ + 1, none, D => .ok D
  | fuel + 1, some p, D =>
    if p ∈ visited then
      match idom[p]? with
      | none => .error .panic
      | some q => climb idom visited fuel q (p :: D)
    else .error .assertion

/-- `/repo/src/fuzzing/domtree.rs:90-96`: the assertion about one block of the graph. -/
def agrees (idom : List (Option Nat)) (D : List Nat) (b a : Nat) : Bool :=
  decide (Domtree.dominates? idom (some a) (some b) = some (decide (a ∈ D)))

/-- `/repo/src/fuzzing/domtree.rs:77-99`: the loop over the path. -/
def violations (idom : List (Option Nat)) : List Nat → List Nat → Except Fail Unit
  | _, [] => .ok ()
  | visited, b :: bs =>
    match idom[b]? with
    | none => .error .panic
    | some p =>
      match climb idom visited (idom.length + 1) p [b] with
      | .error e => .error e
      | .ok D => if (List.range idom.length).all (agrees idom D b) then violations idom (b :: visited) bs else .error .assertion

/-- `/repo/src/fuzzing/domtree.rs:120-143` `check`. -/
def check (t : Case) : Except Fail Unit :=
  match Postorder.calculate? t.cfg.n 0 (fun b => t.cfg.succs.getD b []) with
  | some (.ok post) =>
    match Domtree.calculate? t.cfg.n (fun b => t.cfg.preds.getD b []) post 0 with
    | none => .error .panic
    | some idom => violations idom [0] t.path
  | _ => .error .panic

end Regalloc.FuzzDom
