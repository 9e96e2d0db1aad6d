import Verif.Props.Accepts
import Verif.Props.ApplyMoves
import Verif.Props.Cfg
import Verif.Props.Checker
import Verif.Props.Complete
import Verif.Props.Ctx
import Verif.Props.DebugInfo
import Verif.Props.Domtree
import Verif.Props.Encodings
import Verif.Props.FastDebug
import Verif.Props.FastFit
import Verif.Props.FastOutput
import Verif.Props.FastTotal
import Verif.Props.Fastalloc
import Verif.Props.FastallocBugs
import Verif.Props.FastallocExample
import Verif.Props.FixMulti
import Verif.Props.FuzzFast
import Verif.Props.FuzzFunc
import Verif.Props.FuzzIon
import Verif.Props.FuzzUnits
import Verif.Props.Index
import Verif.Props.IndexSet
import Verif.Props.InsertedMoves
import Verif.Props.LiveRanges
import Verif.Props.Liveness
import Verif.Props.Lru
import Verif.Props.Merge
import Verif.Props.Moves
import Verif.Props.Output
import Verif.Props.PRegSet
import Verif.Props.Pipeline
import Verif.Props.Postorder
import Verif.Props.Process
import Verif.Props.RangeMap
import Verif.Props.RedundantMoves
import Verif.Props.RegTraversal
import Verif.Props.Requirement
import Verif.Props.Run
import Verif.Props.Serialize
import Verif.Props.SpillSlots
import Verif.Props.Split
import Verif.Props.Ssa
import Verif.Props.VRegSet
import Verif.Props.Weights
import Verif.Proofs.AcceptFlow
import Verif.Proofs.AcceptItems
import Verif.Proofs.AcceptRun
import Verif.Proofs.ApplyAll
import Verif.Proofs.ApplyExec
import Verif.Proofs.ApplyFinite
import Verif.Proofs.ApplyFlow
import Verif.Proofs.ApplyGroups
import Verif.Proofs.ApplyRun
import Verif.Proofs.ApplyScan
import Verif.Proofs.ApplySem
import Verif.Proofs.ApplyTop
import Verif.Proofs.ApplyTotal
import Verif.Proofs.ApplyVreg
import Verif.Proofs.Bits
import Verif.Proofs.Cfg
import Verif.Proofs.CheckerComplete
import Verif.Proofs.CheckerFix
import Verif.Proofs.CheckerInv
import Verif.Proofs.CheckerMap
import Verif.Proofs.CheckerSound
import Verif.Proofs.CheckerTotal
import Verif.Proofs.DebugFlow
import Verif.Proofs.DebugPipe
import Verif.Proofs.DebugRun
import Verif.Proofs.Domtree
import Verif.Proofs.Encodings
import Verif.Proofs.FastBasic
import Verif.Proofs.FastBlock
import Verif.Proofs.FastBody
import Verif.Proofs.FastBranch
import Verif.Proofs.FastDead
import Verif.Proofs.FastDebug
import Verif.Proofs.FastDebugEnd
import Verif.Proofs.FastDebugEndRun
import Verif.Proofs.FastDebugRun
import Verif.Proofs.FastDebugSim
import Verif.Proofs.FastDef
import Verif.Proofs.FastFit
import Verif.Proofs.FastFitRun
import Verif.Proofs.FastGlobal
import Verif.Proofs.FastInst
import Verif.Proofs.FastLocal
import Verif.Proofs.FastLocalRun
import Verif.Proofs.FastMem
import Verif.Proofs.FastMove
import Verif.Proofs.FastOp
import Verif.Proofs.FastPath
import Verif.Proofs.FastProc
import Verif.Proofs.FastReload
import Verif.Proofs.FastResolve
import Verif.Proofs.FastRun
import Verif.Proofs.FastSafe
import Verif.Proofs.FastSafeInst
import Verif.Proofs.FastSafeOps
import Verif.Proofs.FastSafeRun
import Verif.Proofs.FastSetup
import Verif.Proofs.FastSlots
import Verif.Proofs.FastSorted
import Verif.Proofs.FixMulti
import Verif.Proofs.FixTotal
import Verif.Proofs.FuzzAssemble
import Verif.Proofs.FuzzBlocks
import Verif.Proofs.FuzzDomtree
import Verif.Proofs.FuzzFast
import Verif.Proofs.FuzzGraph
import Verif.Proofs.FuzzInsts
import Verif.Proofs.FuzzIon
import Verif.Proofs.FuzzMachine
import Verif.Proofs.FuzzMoves
import Verif.Proofs.FuzzShape
import Verif.Proofs.FuzzSize
import Verif.Proofs.FuzzSsa
import Verif.Proofs.IndexSet
import Verif.Proofs.InsertedMoves
import Verif.Proofs.LiveRanges
import Verif.Proofs.LiveRangesAllocs
import Verif.Proofs.LiveRangesBlock
import Verif.Proofs.LiveRangesFunc
import Verif.Proofs.LiveRangesInst
import Verif.Proofs.LiveRangesPregs
import Verif.Proofs.Liveness
import Verif.Proofs.Lru
import Verif.Proofs.Merge
import Verif.Proofs.Moves
import Verif.Proofs.MovesResolve
import Verif.Proofs.MovesScratch
import Verif.Proofs.Output
import Verif.Proofs.PRegSet
import Verif.Proofs.PipeBuild
import Verif.Proofs.PipeFinite
import Verif.Proofs.PipeFix
import Verif.Proofs.PipeFront
import Verif.Proofs.PipeGrant
import Verif.Proofs.PipeIon
import Verif.Proofs.PipeLoc
import Verif.Proofs.PipeMerge
import Verif.Proofs.PipeParts
import Verif.Proofs.PipeReady
import Verif.Proofs.PipeRun
import Verif.Proofs.PipeShape
import Verif.Proofs.PipeSlots
import Verif.Proofs.PipeStuck
import Verif.Proofs.PipeTotal
import Verif.Proofs.PipeValid
import Verif.Proofs.Postorder
import Verif.Proofs.PregMap
import Verif.Proofs.ProcessCore
import Verif.Proofs.ProcessInv
import Verif.Proofs.ProcessLoop
import Verif.Proofs.ProcessReady
import Verif.Proofs.ProcessReq
import Verif.Proofs.ProcessSpilled
import Verif.Proofs.ProcessSplit
import Verif.Proofs.ProcessStuck
import Verif.Proofs.ProcessTerm
import Verif.Proofs.RangeMap
import Verif.Proofs.Recut
import Verif.Proofs.RecutHalves
import Verif.Proofs.RecutMin
import Verif.Proofs.RecutSpill
import Verif.Proofs.RedundantMoves
import Verif.Proofs.RegTraversal
import Verif.Proofs.Ring
import Verif.Proofs.RunOk
import Verif.Proofs.SpillSlots
import Verif.Proofs.Split
import Verif.Proofs.SplitFrame
import Verif.Proofs.SplitMin
import Verif.Proofs.SplitReg
import Verif.Proofs.Ssa
import Verif.Proofs.VRegSet
import Verif.Proofs.Weights
