import Verif.AbiData
import Verif.Base
import Verif.Bitmap
import Verif.BitmapConc
import Verif.BitmapConcLemmas
import Verif.BitmapLemmas
import Verif.Branch
import Verif.Build
import Verif.BuildCmd
import Verif.BuildFacts
import Verif.BuildNames
import Verif.Bytes
import Verif.CavityLemmas
import Verif.CfCost
import Verif.CfLemmas
import Verif.CfLog
import Verif.CfLogLemmas
import Verif.CfPass
import Verif.CfPassSim
import Verif.CfPassStep
import Verif.CfPassValid
import Verif.CfRun
import Verif.CopyLemmas
import Verif.CustomCmp
import Verif.CustomCmpLemmas
import Verif.Dfsan
import Verif.DupLemmas
import Verif.Encoding
import Verif.EncodingLemmas
import Verif.EndToEnd
import Verif.Examples.Conc
import Verif.Examples.Libs
import Verif.Examples.Link
import Verif.Examples.Run
import Verif.Examples.Store
import Verif.File
import Verif.FileLemmas
import Verif.Files
import Verif.FilesLemmas
import Verif.FilesSame
import Verif.FilesTrack
import Verif.FnIds
import Verif.Foreign
import Verif.ForeignSim
import Verif.ForestGraphLemmas
import Verif.ForestGraphLoop
import Verif.ForestLemmas
import Verif.Format
import Verif.FormatLemmas
import Verif.Ftrace
import Verif.FtraceCalls
import Verif.FtraceMain
import Verif.FtraceOver
import Verif.FtraceRun
import Verif.FtraceSim
import Verif.GraphLemmas
import Verif.History
import Verif.HistoryLemmas
import Verif.Ignore
import Verif.IrCheck
import Verif.IrGraph
import Verif.IrMap
import Verif.LabelDeq
import Verif.LabelDeqLemmas
import Verif.Labels
import Verif.LabelsConc
import Verif.LabelsConcLemmas
import Verif.LabelsConcStep
import Verif.LabelsConcView
import Verif.LabelsLemmas
import Verif.LabelsTso
import Verif.LabelsTsoGraph
import Verif.LabelsTsoReach
import Verif.LabelsTsoStep
import Verif.LabelsTsoView
import Verif.LabelsWeak
import Verif.LabelsWeakLemmas
import Verif.Layout
import Verif.Libs
import Verif.LibsFacts
import Verif.LibsPass
import Verif.Lifetime
import Verif.Linked
import Verif.LinkedMain
import Verif.LinkedRun
import Verif.LinkedSim
import Verif.LinkedStep
import Verif.Mapping
import Verif.MappingLemmas
import Verif.Net
import Verif.NetTrack
import Verif.NonInterf
import Verif.OutParam
import Verif.OutParamLemmas
import Verif.PassAttr
import Verif.PassIr
import Verif.PassIrCall
import Verif.PassIrMain
import Verif.PassIrMem
import Verif.PassIrRun
import Verif.PassIrSim
import Verif.PassIrStatic
import Verif.PassIrStep
import Verif.PassIrVisit
import Verif.PassMem
import Verif.PassModule
import Verif.PassModuleFacts
import Verif.PassModuleLink
import Verif.Props.C01
import Verif.Props.C02
import Verif.Props.C03
import Verif.Props.C04
import Verif.Props.C05
import Verif.Props.C06
import Verif.Props.C07
import Verif.Props.C08
import Verif.Props.C09
import Verif.Props.C10
import Verif.Props.C11
import Verif.Props.C12
import Verif.Props.C13
import Verif.Props.C14
import Verif.Props.C15
import Verif.Props.C16
import Verif.Props.C17
import Verif.Props.C18
import Verif.Props.C19
import Verif.Props.C20
import Verif.Props.C21
import Verif.Props.C22
import Verif.Props.C23
import Verif.Props.C24
import Verif.Props.C25
import Verif.Props.C26
import Verif.Props.C27
import Verif.Props.C28
import Verif.Props.C29
import Verif.Props.C30
import Verif.Props.C31
import Verif.Props.C32
import Verif.Props.C33
import Verif.Props.C34
import Verif.Props.C35
import Verif.Props.C36
import Verif.Props.C37
import Verif.Props.C38
import Verif.Props.C39
import Verif.Props.C40
import Verif.Props.C41
import Verif.Props.C42
import Verif.Props.C43
import Verif.Props.C44
import Verif.Props.C45
import Verif.Props.C46
import Verif.Props.C47
import Verif.Props.C48
import Verif.Props.C49
import Verif.Props.C50
import Verif.Props.C51
import Verif.Props.C52
import Verif.Props.C53
import Verif.Props.C54
import Verif.Props.C55
import Verif.Props.C56
import Verif.Props.C57
import Verif.Props.C58
import Verif.Props.C59
import Verif.Props.C60
import Verif.Props.C61
import Verif.Props.C62
import Verif.Props.C63
import Verif.Props.C64
import Verif.Props.C65
import Verif.Props.C66
import Verif.Props.C67
import Verif.Props.C68
import Verif.Props.C69
import Verif.Props.C70
import Verif.Props.C71
import Verif.Props.C72
import Verif.Props.C73
import Verif.Props.C74
import Verif.Props.C75
import Verif.Props.C76
import Verif.Props.C77
import Verif.Props.C78
import Verif.Props.C79
import Verif.Props.C80
import Verif.Props.C81
import Verif.Props.C82
import Verif.Props.C83
import Verif.Props.C84
import Verif.Props.C85
import Verif.Props.C86
import Verif.Props.C87
import Verif.Props.C88
import Verif.Props.C89
import Verif.Props.C90
import Verif.Props.C91
import Verif.Props.C92
import Verif.Props.C93
import Verif.Props.C94
import Verif.Props.C95
import Verif.Props.C96
import Verif.Props.C97
import Verif.PyAbiDiff
import Verif.PyCache
import Verif.PyCfLog
import Verif.PyCfg
import Verif.PyCfgSpec
import Verif.PyDatalog
import Verif.PyDatalogOk
import Verif.PyDict
import Verif.PyDiff
import Verif.PyDiffFacts
import Verif.PyDigraph
import Verif.PyDigraphMore
import Verif.PyDigraphSpec
import Verif.PyDocker
import Verif.PyEarley
import Verif.PyEarleyLemmas
import Verif.PyEarleyRun
import Verif.PyEarleySteps
import Verif.PyFile
import Verif.PyFind
import Verif.PyForest
import Verif.PyForestGraph
import Verif.PyGrammar
import Verif.PyGrammarLemmas
import Verif.PyGrammarSimp
import Verif.PyGrammarTerm
import Verif.PyGrammarTotal
import Verif.PyGraph
import Verif.PyIntervals
import Verif.PyIntervalsBlocks
import Verif.PyIntervalsInorder
import Verif.PyIntervalsLemmas
import Verif.PyIntervalsSound
import Verif.PyListDiff
import Verif.PyMapping
import Verif.PyMutate
import Verif.PyMutateFacts
import Verif.PyNav
import Verif.PyNavOk
import Verif.PyNavSpec
import Verif.PyOset
import Verif.PyOsetSpec
import Verif.PyPartial
import Verif.PyPartialEnd
import Verif.PyPartialOnce
import Verif.PyPartialSpec
import Verif.PyPlugin
import Verif.PyRegions
import Verif.PyStub
import Verif.PyTrace
import Verif.PyTraceGram
import Verif.PyTraceGramOk
import Verif.PyTree
import Verif.PyTreeLemmas
import Verif.PyTreeSimp
import Verif.PyVerify
import Verif.PyVerifySpec
import Verif.ReadBack
import Verif.RegionLemmas
import Verif.Section
import Verif.SectionLemmas
import Verif.ShadowMem
import Verif.ShadowMemLemmas
import Verif.Signal
import Verif.Spec.AbiLines
import Verif.Spec.AbiList
import Verif.Spec.Build
import Verif.Spec.Bump
import Verif.Spec.Cache
import Verif.Spec.CallLog
import Verif.Spec.Calls
import Verif.Spec.Compare
import Verif.Spec.Datalog
import Verif.Spec.Decisions
import Verif.Spec.Diff
import Verif.Spec.Digraph
import Verif.Spec.Docker
import Verif.Spec.ExtCall
import Verif.Spec.Foreign
import Verif.Spec.Format
import Verif.Spec.Grammar
import Verif.Spec.Graph
import Verif.Spec.History
import Verif.Spec.IndexSet
import Verif.Spec.Ir
import Verif.Spec.Json
import Verif.Spec.Labels
import Verif.Spec.Libs
import Verif.Spec.Life
import Verif.Spec.Link
import Verif.Spec.Mapping
import Verif.Spec.Net
import Verif.Spec.OutParam
import Verif.Spec.Partial
import Verif.Spec.Posix
import Verif.Spec.Queue
import Verif.Spec.Readelf
import Verif.Spec.Regions
import Verif.Spec.Runs
import Verif.Spec.Signal
import Verif.Spec.Stdio
import Verif.Spec.Taint
import Verif.Spec.Threads
import Verif.Spec.Told
import Verif.Spec.Trace
import Verif.Spec.Unwind
import Verif.Spec.Utf8
import Verif.Startup
import Verif.Stdio
import Verif.StdioTrack
import Verif.StreamConc
import Verif.StringTable
import Verif.StringTableLemmas
import Verif.Threads
import Verif.ThreadsForth
import Verif.ThreadsHalf
import Verif.ThreadsHalfSim
import Verif.ThreadsMain
import Verif.ThreadsPass
import Verif.ThreadsSim
import Verif.TraceLemmas
import Verif.Tracker
import Verif.TrackerHistory
import Verif.TrackerLemmas
import Verif.TrackerSim
import Verif.TwoPass
import Verif.Union
import Verif.UnionLemmas
import Verif.Unwind
import Verif.UnwindSim
import Verif.Utf8Lemmas
import Verif.WrapCall
import Verif.Wrappers
