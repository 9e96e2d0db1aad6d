import Verif.Proofs.RegTraversal
import Verif.Spec.RegTraversal

/-
C18: the order in which registers are probed.
-/
namespace Regalloc
namespace RegTraversalIter

theorem within_iff (limit : Option Nat) (p : PReg) : within limit p = true ↔ UnderLimit limit p := by
  unfold within UnderLimit
  cases limit <;> simp

theorem keep_iff (hint : Option PReg) (limit : Option Nat) (p : PReg) :
    keep hint limit p = true ↔ hint ≠ some p ∧ UnderLimit limit p := by
  unfold keep
  rw [← within_iff]
  simp only [Bool.not_or, Bool.not_not, Bool.and_eq_true, Bool.not_eq_true', decide_eq_false_iff_not]
  grind

/-- C18. Without a fixed register, the traversal yields exactly the registers within
the limit that are the hint or belong to the class's preferred or non-preferred set. -/
theorem C18_yields (env : MachineEnv) (cls : RegClass) (hint : Option PReg) (off : Nat) (limit : Option Nat)
    (p : PReg) :
    p ∈ (new env cls none hint off limit).all ↔
      UnderLimit limit p ∧ (hint = some p ∨ (env.preferred cls).contains p = true ∨
        (env.nonPreferred cls).contains p = true) := by
  have c1 := cursor_items (env.preferred cls) cls off
  have c2 := cursor_items (env.nonPreferred cls) cls off
  rw [all_spec]
  simp only [List.mem_append, List.mem_filter, within_iff, keep_iff, Cursor.items, c1.1, c1.2.1, c2.1, c2.2.1,
    Option.mem_toList]
  have hcase : (PReg.new (off % PReg.MAX) cls).index ≤ p.index ∨ p.index < (PReg.new (off % PReg.MAX) cls).index := by
    omega
  grind

/-- C18. Each register is yielded once, when no register is both preferred and
non-preferred. -/
theorem C18_once (env : MachineEnv) (cls : RegClass) (hint : Option PReg) (off : Nat) (limit : Option Nat)
    (hdisj : ∀ p, ¬ ((env.preferred cls).contains p = true ∧ (env.nonPreferred cls).contains p = true)) :
    (new env cls none hint off limit).all.Nodup := by
  have c1 := cursor_items (env.preferred cls) cls off
  have c2 := cursor_items (env.nonPreferred cls) cls off
  rw [all_spec, List.nodup_append, List.nodup_append]
  refine ⟨?_, ⟨c1.2.2.1.filter _, c2.2.2.1.filter _, ?_⟩, ?_⟩
  · have : hint.toList.Nodup := by cases hint <;> simp
    exact List.Pairwise.filter _ this
  · rintro a ha b hb rfl
    simp only [List.mem_filter, Cursor.items, List.mem_append, c1.1, c1.2.1, c2.1, c2.2.1] at ha hb
    apply hdisj a
    grind
  · rintro a ha b hb rfl
    simp only [List.mem_filter, List.mem_append, keep_iff, Option.mem_toList] at ha hb
    grind

/-- C18. The hint, if within the limit, comes first. -/
theorem C18_hint_first (env : MachineEnv) (cls : RegClass) (h : PReg) (off : Nat) (limit : Option Nat)
    (hl : UnderLimit limit h) : (new env cls none (some h) off limit).all.head? = some h := by
  rw [all_spec]
  have : within limit h = true := (within_iff _ _).mpr hl
  simp [this]

theorem precedes_append {α : Type} {l m : List α} {a b : α} (ha : a ∈ l) (hb : b ∈ m) : Precedes (l ++ m) a b := by
  obtain ⟨x, y, rfl⟩ := List.append_of_mem ha
  obtain ⟨z, w, rfl⟩ := List.append_of_mem hb
  exact ⟨x, y ++ z, w, by simp⟩

theorem Precedes.app_left {α : Type} {l : List α} (k : List α) {a b : α} (h : Precedes l a b) : Precedes (k ++ l) a b := by
  obtain ⟨x, y, z, rfl⟩ := h
  exact ⟨k ++ x, y, z, by simp⟩

/-- C18. Apart from the hint, preferred registers come before non-preferred ones. -/
theorem C18_preferred_first (env : MachineEnv) (cls : RegClass) (hint : Option PReg) (off : Nat) (limit : Option Nat)
    (p q : PReg) (hp : (env.preferred cls).contains p = true) (hq : (env.nonPreferred cls).contains q = true)
    (lp : UnderLimit limit p) (lq : UnderLimit limit q) (np : hint ≠ some p) (nq : hint ≠ some q) :
    Precedes (new env cls none hint off limit).all p q := by
  have c1 := cursor_items (env.preferred cls) cls off
  have c2 := cursor_items (env.nonPreferred cls) cls off
  rw [all_spec]
  apply Precedes.app_left
  apply precedes_append
  · simp only [List.mem_filter, Cursor.items, List.mem_append, c1.1, c1.2.1, keep_iff, hp, true_and]
    exact ⟨by omega, np, lp⟩
  · simp only [List.mem_filter, Cursor.items, List.mem_append, c2.1, c2.2.1, keep_iff, hq, true_and]
    exact ⟨by omega, nq, lq⟩

/-- C18. Among preferred registers the scan starts at the offset and wraps around:
those at or above the starting register come before those below it. -/
theorem C18_rotation (env : MachineEnv) (cls : RegClass) (hint : Option PReg) (off : Nat) (limit : Option Nat)
    (p q : PReg) (hp : (env.preferred cls).contains p = true) (hq : (env.preferred cls).contains q = true)
    (hstart : (PReg.new (off % PReg.MAX) cls).index ≤ p.index) (hbelow : q.index < (PReg.new (off % PReg.MAX) cls).index)
    (lp : UnderLimit limit p) (lq : UnderLimit limit q) (np : hint ≠ some p) (nq : hint ≠ some q) :
    Precedes (new env cls none hint off limit).all p q := by
  have c1 := cursor_items (env.preferred cls) cls off
  rw [all_spec]
  apply Precedes.app_left
  unfold Cursor.items
  rw [List.filter_append, List.append_assoc]
  apply precedes_append
  · simp only [List.mem_filter, c1.1, keep_iff]
    exact ⟨⟨hp, hstart⟩, np, lp⟩
  · apply List.mem_append_left
    simp only [List.mem_filter, c1.2.1, keep_iff]
    exact ⟨⟨hq, hbelow⟩, nq, lq⟩

/-- C18. With a fixed register, that register alone is yielded, whatever the hint,
offset and limit. -/
theorem C18_fixed (env : MachineEnv) (cls : RegClass) (p : PReg) (hint : Option PReg) (off : Nat) (limit : Option Nat) :
    (new env cls (some p) hint off limit).all = [p] := by
  unfold all
  rw [show (600 : Nat) = 598 + 1 + 1 from rfl, collect]
  simp [next, new, collect]

/-- Concrete: offset 2 starts at register 2 and wraps; the hint is not repeated; the
limit hides register 9. -/
example :
    let env : MachineEnv := ⟨fun _ => PRegSet.ofList [PReg.new 0 .Int, PReg.new 2 .Int, PReg.new 3 .Int],
      fun _ => PRegSet.ofList [PReg.new 1 .Int, PReg.new 9 .Int], fun _ => none, []⟩
    (new env .Int none (some (PReg.new 3 .Int)) 2 (some 8)).all =
      [PReg.new 3 .Int, PReg.new 2 .Int, PReg.new 0 .Int, PReg.new 1 .Int] := by
  intro env
  rw [all_spec]
  decide +kernel

end RegTraversalIter
end Regalloc
