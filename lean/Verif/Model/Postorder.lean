/-
Model of `/repo/src/postorder.rs`. Blocks are `Nat` indices. The output vector is
built by consing, i.e. `rpo` is the output read backwards; `calculate` reverses
it at the end.
-/
namespace Regalloc.Postorder

/-- Errors, `/repo/src/lib.rs:1644-1666` (`BB` only). -/
inductive Res (α : Type)
  | ok (a : α)
  | bb (block : Nat)
  deriving Repr, DecidableEq

/-- Loop state: visited map, DFS stack (top first; block and remaining
successors), output in reverse. `/repo/src/postorder.rs:20-27`. -/
structure State where
  visited : List Bool
  stack : List (Nat × List Nat)
  rpo : List Nat
  deriving Repr

/-- The `while let` loop, `/repo/src/postorder.rs:38-55`. `none` = fuel
exhausted. -/
def loop (succs : Nat → List Nat) : Nat → State → Option (Res (List Nat))
  | 0, _ => none
  | fuel + 1, st =>
    match st.stack with
    | [] => some (.ok st.rpo)
    | (b, s :: ss) :: rest =>
      match st.visited[s]? with
      | none => some (.bb s)
      | some true => loop succs fuel { st with stack := (b, ss) :: rest }
      | some false =>
        loop succs fuel
          { st with visited := st.visited.set s true, stack := (s, succs s) :: (b, ss) :: rest }
    | (b, []) :: rest => loop succs fuel { st with stack := rest, rpo := b :: st.rpo }

/-- Enough fuel: every block is pushed and popped once, every edge followed
once. -/
def fuel (n : Nat) (succs : Nat → List Nat) : Nat :=
  ((List.range n).map (fun b => (succs b).length + 1)).sum + 1

/-- `/repo/src/postorder.rs:12-57` `calculate`. -/
def calculate? (n : Nat) (entry : Nat) (succs : Nat → List Nat) : Option (Res (List Nat)) :=
  let visited := List.replicate n false
  match visited[entry]? with
  | none => some (.bb entry)
  | some _ =>
    match loop succs (fuel n succs) ⟨visited.set entry true, [(entry, succs entry)], []⟩ with
    | none => none
    | some (.bb b) => some (.bb b)
    | some (.ok rpo) => some (.ok rpo.reverse)

end Regalloc.Postorder
