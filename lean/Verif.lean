import Verif.Bytes
import Verif.Packer
import Verif.PackerSpec
import Verif.PackerLemmas
import Verif.Props.Packing
import Verif.Args
import Verif.ArgsSpec
import Verif.ArgsLemmas
import Verif.Entries
import Verif.FmtParse
import Verif.FmtSpec
import Verif.FmtLemmas
import Verif.FmtText
import Verif.Decode
import Verif.HdrLemmas
import Verif.Props.Args
import Verif.Props.Format
import Verif.Props.Header
import Verif.Encode
import Verif.EncodeSpec
import Verif.EncLemmas
import Verif.DecLemmas
import Verif.File
import Verif.FileSpec
import Verif.FileLemmas
import Verif.OpsLemmas
import Verif.IterLemmas
import Verif.Example
import Verif.Props.Encode
import Verif.CutLemmas
import Verif.TermLemmas
import Verif.FileProps
import Verif.Props.File
import Verif.Staging
import Verif.StagingSpec
import Verif.StagingInv
import Verif.StagingSteps
import Verif.Props.Staging
import Verif.Props.StagingLive
import Verif.Props.StagingBound
import Verif.Ordered
import Verif.OrderedSpec
import Verif.OrderedAbs
import Verif.OrderedTerm
import Verif.OrderedSim
import Verif.OrderedFile
import Verif.Props.Ordered
import Verif.Runtime
import Verif.RuntimeSpec
import Verif.RuntimeInv
import Verif.RuntimeFile
import Verif.RuntimeTrace
import Verif.RuntimeDecode
import Verif.RuntimeExample
import Verif.Props.Runtime
import Verif.Props.RuntimeFiles
import Verif.RuntimeScan
import Verif.Props.RuntimeSync
import Verif.LogMessage
import Verif.Props.LogMessage
import Verif.Aggregate
import Verif.Props.Aggregate
import Verif.Time
import Verif.Props.Time
import Verif.TimeTrace
import Verif.Props.TimeTrace
import Verif.PreId
import Verif.PreParse
import Verif.Props.PreId
import Verif.Props.PreLiteral
import Verif.Props.PreArgs
import Verif.FmtRegex
import Verif.PreFmt
import Verif.Props.PreFmt
import Verif.GenCode
import Verif.GenSpec
import Verif.Props.GenCode
import Verif.PreMode
import Verif.PreDict
import Verif.PreSpec
import Verif.PreEnc
import Verif.PreDec
import Verif.PreText
import Verif.Props.PreMode
import Verif.PreFile
import Verif.PreFileSpec
import Verif.PreFileLemmas
import Verif.PreFileParse
import Verif.PreFileStep
import Verif.PreFileScan
import Verif.Props.PreFile
import Verif.RuntimeLive
import Verif.RuntimeSteady
import Verif.RuntimeRun
import Verif.RuntimeLasso
import Verif.RuntimeStarve
import Verif.Props.RuntimeLive
import Verif.RuntimeBusy
import Verif.RuntimeSwitch
import Verif.Props.RuntimeBusy
import Verif.RuntimeNew
import Verif.Props.RuntimeNew
import Verif.MicroMem
import Verif.MicroMemLemmas
import Verif.MicroMemSim
import Verif.Props.MicroMem
import Verif.MemTerm
import Verif.Props.MemTerm
import Verif.Output
import Verif.OutputLemmas
import Verif.Props.Output
import Verif.Stats
import Verif.StatsLemmas
import Verif.Props.Stats
import Verif.StagingStats
import Verif.Props.StagingStats
import Verif.Destroy
import Verif.Props.Destroy
import Verif.Rcdf
import Verif.Props.Rcdf
import Verif.Tool
import Verif.Props.Tool
import Verif.Cycles
import Verif.Props.Cycles
import Verif.MemIter
import Verif.MemIterLemmas
import Verif.MemOrdered
import Verif.MemOrderedTerm
import Verif.Props.MemIter
import Verif.DecodeAppend
import Verif.MemOrderedSim
import Verif.MemOrderedFile
import Verif.Props.MemOrdered
import Verif.StagingQueue
import Verif.Props.StagingQueue
import Verif.HexDump
import Verif.Props.HexDump
import Verif.ArgScript
import Verif.Props.ArgScript
import Verif.ArgProgram
import Verif.Props.ArgProgram
import Verif.Composed
import Verif.ComposedRel
import Verif.ComposedObs
import Verif.ComposedSim
import Verif.ComposedStep
import Verif.ComposedBg
import Verif.Props.Composed
import Verif.Props.ComposedLive
import Verif.ComposedRun
import Verif.ComposedFair
import Verif.ComposedDrain
import Verif.ComposedLasso
import Verif.Props.ComposedBusy
import Verif.ComposedReturn
import Verif.Props.ComposedReturn
import Verif.Props.ComposedQuiet
import Verif.StdHeap
import Verif.DecHeap
import Verif.DecHeapLemmas
import Verif.Props.DecHeap
import Verif.OrderedCut
import Verif.Props.OrderedCut
import Verif.Props.Damage
import Verif.OrderedThread
import Verif.Props.EndToEnd
import Verif.Props.EndToEndLive
import Verif.FileGrowth
import Verif.Props.EndToEndOrder
import Verif.ComposedDestroy
import Verif.Props.ComposedDestroy
import Verif.Props.ComposedDestroyLive
import Verif.Props.Restarts
import Verif.Props.RestartsEnd
import Verif.ComposedCut
import Verif.Props.ComposedCut
import Verif.Props.ComposedCutLive
import Verif.Props.ComposedCutOrder
import Verif.Props.RestartsOrder
import Verif.Props.Cases
