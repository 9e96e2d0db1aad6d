import Verif.Proofs.FuzzSsa
import Verif.Proofs.RunOk
import Verif.Spec.Accepts
import Verif.Props.Ssa

/-
C51: the functions that the fuzz targets feed to the allocators.
-/
namespace Regalloc.FuzzGen

open Debug (Label)

/-- C51. Whatever is chosen, the generator does not panic: it yields a function, or it gives up for
want of something to choose from, or because there are too many virtual registers. -/
theorem C51_no_panic {opts : Options} (ho : OptionsOk opts) (s : List Nat) : generate opts s ≠ .error .panic := by
  intro e
  have := generate_sat ho s
  rw [e] at this
  exact this rfl

theorem built {opts : Options} (ho : OptionsOk opts) {s s' : List Nat} {x : Fn} (h : generate opts s = .ok (x, s')) :
    (∃ g n es plans nv xs, Built x g n es plans nv xs ∧ opts.numBlocks.1 ≤ n ∧ n ≤ opts.numBlocks.2) ∧ x.labels.Pairwise (fun a b => labelLe a b = true) := by
  have := generate_sat ho s
  rw [h] at this
  exact this

/-- C51. Generated functions are in SSA form, without critical edges; their edges are consistent, all
blocks can be reached, and each but the entry comes after one of its predecessors. The virtual
registers are those from zero up to their number, each defined once. -/
theorem C51_ssa {opts : Options} (ho : OptionsOk opts) {s s' : List Nat} {x : Fn} (h : generate opts s = .ok (x, s')) :
    Api.InSsa x.func ∧ EdgesMatch x.func ∧ (∀ b, b < x.func.numBlocks → Reaches x.func.succs x.func.entry b) ∧ Pipeline.InOrder x.func ∧
    ((allWrites x.func).map VReg.vreg).Perm (List.range x.func.numVregs) ∧
    opts.numBlocks.1 ≤ x.func.numBlocks ∧ x.func.numBlocks ≤ opts.numBlocks.2 := by
  obtain ⟨⟨g, n, es, plans, nv, xs, hB, hn⟩, -⟩ := built ho h
  refine ⟨hB.inSsa, hB.edges, ?_, ?_, hB.allWrites_perm, by rw [hB.numBlocks]; exact hn⟩
  · intro b hb
    rw [hB.succ_eq]
    rw [hB.numBlocks] at hb
    exact hB.graph.reach hb
  · intro b hb hne
    rw [hB.numBlocks] at hb
    obtain ⟨a, h1, h2⟩ := hB.graph.order b (Nat.pos_of_ne_zero hne) hb
    exact ⟨a, h1, by rw [hB.succ_eq]; exact hB.graph.mem_succ.mpr h2⟩

/-- C51. The allocators' own validation accepts every generated function. -/
theorem C51_valid {opts : Options} (ho : OptionsOk opts) {s s' : List Nat} {x : Fn} (h : generate opts s = .ok (x, s')) :
    Api.validate x.func = .ok () := by
  obtain ⟨hs, hm, hr, -⟩ := C51_ssa ho h
  obtain ⟨⟨g, n, es, plans, nv, xs, hB, -⟩, -⟩ := built ho h
  have hn : ∀ b, b < x.func.numBlocks → (x.func.insns b).2 ≤ x.func.numInsts := by
    intro b hb
    rw [hB.numBlocks] at hb
    rw [(hB.insns hb).1, ← hB.off_end]
    exact Built.off_mono _ _ hb
  obtain ⟨info, h1⟩ := (Regalloc.C11_accepts_iff x.func hm hn).1.mpr hs.critical
  refine (Api.validate_iff _).mpr ⟨info, h1, ?_⟩
  refine C10_accepts_ssa x.func info h1 hm hr hs.single hs.range ?_ hs.reads hs.terminators hs.entry
  intro b hb i hi v hv w hw e
  refine hB.inj hw ?_ e
  unfold opReads at hv
  obtain ⟨o, ho', rfl⟩ := List.mem_map.mp hv
  rw [List.mem_filter] at ho'
  exact hB.named ho'.1 (of_decide_eq_true ho'.2).2

/-- C51. Branches pass as many arguments as their targets have parameters, of the same classes, and
on every path the arguments have been defined (which the validation does not look at). -/
theorem C51_arguments {opts : Options} (ho : OptionsOk opts) {s s' : List Nat} {x : Fn} (h : generate opts s = .ok (x, s'))
    {b k c : Nat} (hc : (x.func.succs b)[k]? = some c) :
    (x.func.args b (x.func.lastInst b) k).length = (x.func.params c).length ∧
    (∀ m ∈ (x.func.args b (x.func.lastInst b) k).zip (x.func.params c), m.1.class? = m.2.class?) ∧
    ∀ l, Walk x.func.succs x.func.entry b l → ∀ a ∈ x.func.args b (x.func.lastInst b) k, RegEvent.write a ∈ pathEvents x.func l := by
  obtain ⟨⟨g, n, es, plans, nv, xs, hB, -⟩, -⟩ := built ho h
  obtain ⟨h1, q, hq, h2⟩ := hB.argsOf hc (x.func.lastInst b)
  refine ⟨h1, fun m hm => (h2 m hm).1, ?_⟩
  intro l hw a ha
  obtain ⟨j, hj⟩ := List.mem_iff_getElem?.mp ha
  have hlt : j < (x.func.params c).length := by rw [← h1]; exact (List.getElem?_eq_some_iff.mp hj).1
  have hz : (a, (x.func.params c)[j]) ∈ (x.func.args b (x.func.lastInst b) k).zip (x.func.params c) := by
    refine List.mem_iff_getElem?.mpr ⟨j, ?_⟩
    rw [List.getElem?_zip_eq_some]
    exact ⟨hj, List.getElem?_eq_getElem hlt⟩
  obtain ⟨l', rfl⟩ := Built.walk_cons hw
  rw [Ssa.pathEvents_cons]
  rcases (h2 _ hz).2 with hv | hv
  · exact List.mem_append_right _ ((Ssa.write_mem_block _ _ _).mpr (hB.mem_writes hq hv))
  · exact List.mem_append_left _ (hB.far_path hv hw)

/-- C51. The operands and clobbers of each instruction do not contradict each other. -/
theorem C51_operands {opts : Options} (ho : OptionsOk opts) {s s' : List Nat} {x : Fn} (h : generate opts s = .ok (x, s')) (j : Nat) :
    OperandsOk (x.func.operands j) (x.func.clobbers j) := by
  obtain ⟨⟨g, n, es, plans, nv, xs, hB, -⟩, -⟩ := built ho h
  exact hB.operandsOk j

/-- C51. Debug labels are sorted, as the interface requires. -/
theorem C51_labels_sorted {opts : Options} (ho : OptionsOk opts) {s s' : List Nat} {x : Fn} (h : generate opts s = .ok (x, s')) :
    x.labels.Pairwise (fun a b => a.vreg.bits ≤ b.vreg.bits ∧ (a.vreg = b.vreg → a.fr ≤ b.fr)) := by
  refine (built ho h).2.imp ?_
  intro a b hab
  rw [labelLe_iff] at hab
  constructor
  · rw [UInt32.le_iff_toNat_le]; omega
  · intro e
    rw [e] at hab
    omega

/-! ### A concrete case -/

section Example

/-- Some choices. -/
def demoChoices : Nat → Nat → List Nat
  | 0, _ => []
  | k + 1, s => let s' := (s * 1103515245 + 12345) % 2147483648; (s' / 65536) :: demoChoices k s'

def demoOptions : Options where
  reusedInputs := true
  fixedRegs := true
  fixedNonallocatable := true
  clobbers := true
  reftypes := true
  callsiteIsh := true
  numBlocks := (1, 6)
  numVregs := (2, 4)
  numUses := (0, 3)
  numCallsite := (0, 2)
  numClobbers := (0, 3)

example : OptionsOk demoOptions := ⟨by decide, by decide, by decide, by decide, by decide, by decide⟩

private def instsWith (x : Fn) (p : InstData → Bool) : Nat := (x.insts.filter p).length
private def isReuse : OperandConstraint → Bool | .Reuse _ => true | _ => false
private def isFixed : OperandConstraint → Bool | .FixedReg p => decide (p.hwEnc ≤ 62) | _ => false
private def isNamed : OperandConstraint → Bool | .FixedReg p => decide (p.hwEnc = 63) | _ => false

/-- The numbers of blocks, instructions, registers, forks, instructions with reuse, with fixed registers,
with named registers and with clobbers, blocks with parameters, and labels. -/
def features (x : Fn) : List Nat :=
  [x.blocks.length, x.insts.length, x.numVregs, (x.succs.filter (fun l => decide (1 < l.length))).length,
    instsWith x (fun d => d.operands.any (fun o => isReuse o.constraint)), instsWith x (fun d => d.operands.any (fun o => isFixed o.constraint)),
    instsWith x (fun d => d.operands.any (fun o => isNamed o.constraint)), instsWith x (fun d => decide (d.clobbers ≠ [])),
    (x.paramsIn.filter (fun l => decide (l ≠ []))).length, x.labels.length]

example : ∃ x s', generate demoOptions (demoChoices 400 562250) = .ok (x, s') ∧ features x = [4, 16, 19, 1, 2, 1, 1, 3, 3, 11] := by
  have h : (match generate demoOptions (demoChoices 400 562250) with | .ok (x, _) => some (features x) | .error _ => none) =
      some [4, 16, 19, 1, 2, 1, 1, 3, 3, 11] := by decide +kernel
  cases hg : generate demoOptions (demoChoices 400 562250) with
  | error e => rw [hg] at h; cases h
  | ok r =>
    rw [hg] at h
    exact ⟨r.1, r.2, rfl, Option.some.inj h⟩

/-- The generator does give up: there is nothing to pass for a parameter. -/
example : ∃ s, generate demoOptions s = .error .emptyChoose := by
  have h : (match generate demoOptions (demoChoices 400 31677) with | .ok _ => none | .error e => some e) = some .emptyChoose := by decide +kernel
  refine ⟨demoChoices 400 31677, ?_⟩
  cases hg : generate demoOptions (demoChoices 400 31677) with
  | error e => rw [hg] at h; rw [Option.some.inj h]
  | ok r => rw [hg] at h; cases h

end Example

end Regalloc.FuzzGen
