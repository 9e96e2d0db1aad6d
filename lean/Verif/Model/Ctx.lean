import Verif.Model.Function

/-
Model of the reusable allocation context: `/repo/src/ion/data_structures.rs:512-634`
(`Ctx`), its reset at the start of a run (`/repo/src/ion/mod.rs:39-81`,
`/repo/src/ion/liveranges.rs:104-143`) and the first thing each pass does to the scratch
field it takes. What the containers hold does not matter here: it has an arbitrary type
`α`. Container capacities and the arena (`scratch_bump`) are not modelled.
-/
namespace Regalloc.Reuse

/-- `/repo/src/ion/data_structures.rs:478-483` `PRegData`. -/
structure PRegData (α : Type) where
  isStack : Bool
  allocations : List α

/-- `/repo/src/lib.rs:1577-1605` `Output`. -/
structure Out (α : Type) where
  numSpillslots : Nat
  edits : List α
  allocs : List Allocation
  instAllocOffsets : List Nat
  debugLocations : List α
  stats : List (Nat × Nat)

/-- `/repo/src/ion/data_structures.rs:512-571` `Ctx`; `cfginfo` and `cfginfo_ctx` together
are `cfg`. -/
structure Ctx (α : Type) where
  cfg : List (List α)
  liveins : List α
  liveouts : List α
  blockparamOuts : List α
  blockparamIns : List α
  ranges : List α
  bundles : List α
  spillsets : List α
  vregs : List (VReg × List α)
  pregs : List (PRegData α)
  allocationQueue : List α
  spilledBundles : List α
  spillslots : List (List α)
  slotsByClass : List (List α × Nat)
  extraSpillslots : List (List α)
  preferredVictim : List PReg
  multiFixedFixups : List α
  allocatedBundleCount : Nat
  debugAnnotations : List α
  annotationsEnabled : Bool
  conflictSet : List α
  output : Out α
  scratchConflicts : List α
  scratchBundle : List α
  scratchVregRanges : List α
  scratchSpillsetPool : List (List α)
  scratchWorkqueue : List α
  scratchOperandRewrites : List α
  scratchRemovedLrs : List α
  scratchRemovedLrsVregs : List α
  scratchWorkqueueSet : List α

/-- `/repo/src/ion/data_structures.rs:578-634` `Default for Ctx`. -/
def Ctx.default (α : Type) : Ctx α where
  cfg := []
  liveins := []
  liveouts := []
  blockparamOuts := []
  blockparamIns := []
  ranges := []
  bundles := []
  spillsets := []
  vregs := []
  pregs := []
  allocationQueue := []
  spilledBundles := []
  spillslots := []
  slotsByClass := [([], 0), ([], 0), ([], 0)]
  extraSpillslots := [[], [], []]
  preferredVictim := [PReg.invalid, PReg.invalid, PReg.invalid]
  multiFixedFixups := []
  allocatedBundleCount := 0
  debugAnnotations := []
  annotationsEnabled := false
  conflictSet := []
  output := ⟨0, [], [], [], [], []⟩
  scratchConflicts := []
  scratchBundle := []
  scratchVregRanges := []
  scratchSpillsetPool := []
  scratchWorkqueue := []
  scratchOperandRewrites := []
  scratchRemovedLrs := []
  scratchRemovedLrsVregs := []
  scratchWorkqueueSet := []

/-- `/repo/src/ion/mod.rs:115` (`cfginfo.init`: every vector is cleared or repopulated,
`/repo/src/cfg.rs:51-77,128`, `/repo/src/postorder.rs:25-27`, `/repo/src/domtree.rs:54-59`)
and `:121`; `info` is what the analyses compute from the function. -/
def Ctx.analyse {α : Type} (c : Ctx α) (info : List (List α)) (annotations : Bool) : Ctx α :=
  { c with cfg := info, annotationsEnabled := annotations }

/-- `/repo/src/ion/mod.rs:39-81` `Env::new`. -/
def Ctx.reset {α : Type} (c : Ctx α) : Ctx α :=
  { c with
    liveins := []
    liveouts := []
    blockparamIns := []
    blockparamOuts := []
    ranges := []
    bundles := []
    spillsets := []
    vregs := []
    pregs := c.pregs.map (fun _ => ⟨false, []⟩)
    allocationQueue := []
    spilledBundles := []
    scratchSpillsetPool := c.scratchSpillsetPool ++ c.spillslots.map (fun _ => [])
    spillslots := []
    slotsByClass := [([], 0), ([], 0), ([], 0)]
    extraSpillslots := [[], [], []]
    preferredVictim := [PReg.invalid, PReg.invalid, PReg.invalid]
    multiFixedFixups := []
    allocatedBundleCount := 0
    debugAnnotations := []
    output := { c.output with
      allocs := []
      instAllocOffsets := []
      numSpillslots := 0
      debugLocations := []
      edits := []
      stats := [] } }

/-- `Vec::resize`. -/
def resize {β : Type} (l : List β) (n : Nat) (x : β) : List β :=
  l.take n ++ List.replicate (n - l.length) x

/-- `/repo/src/ion/liveranges.rs:104-143` `create_pregs_and_vregs`; `victims` stands for the
three registers computed from the environment. -/
def Ctx.create {α : Type} (c : Ctx α) (f : Func) (env : MachineEnv) (victims : List PReg) : Ctx α :=
  let pregs := resize c.pregs 256 ⟨false, []⟩
  let pregs := env.fixedStackSlots.foldl (fun ps p => ps.modify p.index (fun d => { d with isStack := true })) pregs
  let (allocs, offsets) := (List.range f.numInsts).foldl
    (fun (st : List Allocation × List Nat) i =>
      (st.1 ++ (f.operands i).map (fun _ => Allocation.none), st.2 ++ [st.1.length]))
    (c.output.allocs, c.output.instAllocOffsets)
  { c with
    pregs := pregs
    preferredVictim := victims
    vregs := c.vregs ++ (List.range f.numVregs).map (fun i => (VReg.new i .Int, []))
    output := { c.output with allocs := allocs, instAllocOffsets := offsets } }

/-- First actions on the scratch fields: `/repo/src/ion/liveranges.rs:287,384,485`,
`/repo/src/ion/process.rs:64-65,825,1064`. (`scratch_workqueue` and
`scratch_removed_lrs_vregs` are not cleared.) -/
def Ctx.takeScratch {α : Type} (c : Ctx α) : Ctx α :=
  { c with
    scratchWorkqueueSet := []
    scratchVregRanges := []
    scratchOperandRewrites := []
    scratchConflicts := []
    conflictSet := []
    scratchRemovedLrs := []
    scratchBundle := [] }

/-- Everything a run starts from. -/
def Ctx.begin {α : Type} (c : Ctx α) (f : Func) (env : MachineEnv) (info : List (List α)) (annotations : Bool)
    (victims : List PReg) : Ctx α :=
  (((c.analyse info annotations).reset).create f env victims).takeScratch

/-- `/repo/src/ion/spill.rs:139`: the ranges of a new spill slot, and the rest of the pool
(`pop` takes the last element). -/
def popPool {α : Type} (pool : List (List α)) : List α × List (List α) := (pool.getLast?.getD [], pool.dropLast)

end Regalloc.Reuse
