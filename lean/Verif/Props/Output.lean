import Verif.Proofs.Output

/-
C20 (iteration over a block) and C21 (operand-allocation slices).
-/
namespace Regalloc

/-- C20: iterating over a block yields exactly the specified interleaving. -/
theorem C20_block_items (out : Output) (f : Func) (b : Nat) (hs : SortedEdits out.edits) :
    out.blockInstsAndEdits f b = blockItems out.edits (f.insns b).1 (f.insns b).2 :=
  blockInstsAndEdits_spec out f b hs

/-- C20: every instruction of the block once, in order. -/
theorem C20_instructions_once (out : Output) (f : Func) (b : Nat) (hs : SortedEdits out.edits) :
    (out.blockInstsAndEdits f b).filterMap InstOrEdit.inst? = f.blockInsts b := by
  rw [C20_block_items out f b hs, blockItems_eq_items, items_insts]; rfl

/-- C20: every edit from the start of the block up to just before its last
instruction once, in list order. -/
theorem C20_edits_once (out : Output) (f : Func) (b : Nat) (hs : SortedEdits out.edits)
    (hne : (f.insns b).1 < (f.insns b).2) :
    (out.blockInstsAndEdits f b).filterMap InstOrEdit.edit? =
      (out.edits.filter (fun pe => ptBefore (f.insns b).1 ≤ pe.1 ∧ pe.1 ≤ ptBefore (f.lastInst b))).map (·.2) := by
  rw [C20_block_items out f b hs, blockItems_eq_items,
    items_edits _ _ _ _ (hs.sublist List.filter_sublist)
      (by intro pe hpe; simp at hpe; unfold ptBefore at *; omega) rfl, List.filter_filter]
  congr 1
  apply List.filter_congr
  intro a _
  simp only [← Bool.decide_and, decide_eq_decide]
  unfold Func.lastInst ptBefore
  constructor
  · rintro ⟨h1, h2⟩; omega
  · rintro ⟨h1, h2⟩; omega

/-- C20, limit: an edit placed after the last instruction of a block is never
yielded by that block (the source documents that no such edits exist). -/
theorem C20_edit_after_terminator_not_yielded :
    ∃ (out : Output) (f : Func), SortedEdits out.edits ∧ f.insns 0 = (0, 1) ∧
      out.edits = [(ptAfter 0, ⟨Allocation.none, Allocation.none⟩)] ∧
      out.blockInstsAndEdits f 0 = [.inst 0] := by
  refine ⟨⟨0, [(ptAfter 0, ⟨Allocation.none, Allocation.none⟩)], [], []⟩,
    ⟨1, 1, 0, fun _ => (0, 1), fun _ => [], fun _ => [], fun _ => [], fun _ => true, fun _ => false,
      fun _ _ _ => [], fun _ => [], fun _ => [], 0⟩, ?_, rfl, rfl, ?_⟩
  · simp [SortedEdits]
  · decide +kernel

/-- C21: after any history of in-range operand writes, the slice of every
instruction has one entry per operand and holds the last value written to it. -/
theorem C21_slices (lens : List Nat) (ws : SlotWrites) (hv : ws.Valid lens) :
    ∃ t, replayWrites ws (buildTable lens ([], [])) = some t ∧
      ∀ out : Output, out.allocs = t.1 → out.offsets = t.2 →
        ∀ i n, lens[i]? = some n → ∃ l, out.instAllocs i = some l ∧ l.length = n ∧
          ∀ s, s < n → l[s]? = some (ws.last i s) := by
  have I : TableInv lens (buildTable lens ([], [])) := by
    rw [buildTable_spec]; exact ⟨by simp, by simp⟩
  obtain ⟨t, h1, h2, h3⟩ := replay_spec lens ws _ I hv
  refine ⟨t, h1, ?_⟩
  intro out ha ho i n hi
  obtain ⟨g1, g2⟩ := instAllocs_spec h2 out ha ho hi
  refine ⟨_, g1, g2, ?_⟩
  intro s hs
  rw [List.getElem?_take_of_lt hs, List.getElem?_drop]
  apply h3 i n s hi hs
  rw [buildTable_spec]
  have := slot_lt hi hs
  simp [this]

/-- C21: the slices, in instruction order, make up the whole table. -/
theorem C21_slices_cover (lens : List Nat) (ws : SlotWrites) (hv : ws.Valid lens) :
    ∃ t, replayWrites ws (buildTable lens ([], [])) = some t ∧
      ∀ out : Output, out.allocs = t.1 → out.offsets = t.2 →
        (List.range lens.length).flatMap (fun i => (out.instAllocs i).getD []) = out.allocs := by
  have I : TableInv lens (buildTable lens ([], [])) := by
    rw [buildTable_spec]; exact ⟨by simp, by simp⟩
  obtain ⟨t, h1, h2, h3⟩ := replay_spec lens ws _ I hv
  refine ⟨t, h1, ?_⟩
  intro out ha ho
  rw [ha]
  conv => rhs; rw [← slices_cover lens t h2]
  rw [List.flatMap_def, List.flatMap_def]
  congr 1
  apply List.map_congr_left
  intro i hi
  have hn : lens[i]? = some (lens[i]'(by simpa using hi)) := List.getElem?_eq_getElem (by simpa using hi)
  rw [(instAllocs_spec h2 out ha ho hn).1, hn]
  rfl

/-- Concrete: three edits around two instructions. -/
example :
    let a := Allocation.reg (PReg.new 1 .Int)
    let b := Allocation.reg (PReg.new 2 .Int)
    let out : Output := ⟨0, [(ptBefore 3, ⟨a, b⟩), (ptAfter 3, ⟨b, a⟩), (ptBefore 4, ⟨a, a⟩)], [], []⟩
    let f : Func := ⟨5, 1, 0, fun _ => (3, 5), fun _ => [], fun _ => [], fun _ => [], fun _ => true,
      fun _ => false, fun _ _ _ => [], fun _ => [], fun _ => [], 0⟩
    SortedEdits out.edits ∧
      out.blockInstsAndEdits f 0 = [.edit ⟨a, b⟩, .inst 3, .edit ⟨b, a⟩, .edit ⟨a, a⟩, .inst 4] := by
  refine ⟨by simp [SortedEdits]; decide, by decide +kernel⟩

/-- Concrete: a table with operand counts 2, 0, 1 and two writes to one slot. -/
example :
    let a := Allocation.reg (PReg.new 1 .Int)
    let b := Allocation.reg (PReg.new 2 .Int)
    let ws : SlotWrites := [(0, 1, a), (2, 0, a), (0, 1, b)]
    ws.Valid [2, 0, 1] ∧ ws.last 0 1 = b ∧ ws.last 0 0 = Allocation.none ∧ ws.last 2 0 = a := by
  refine ⟨?_, by decide +kernel, by decide +kernel, by decide +kernel⟩
  intro w hw
  simp at hw
  rcases hw with rfl | rfl | rfl <;> simp

end Regalloc
