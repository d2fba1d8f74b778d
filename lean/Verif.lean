import Verif.Props.LFSR
import Verif.Props.TwoBits
import Verif.Props.PLRU
import Verif.Props.Delayer
import Verif.Props.Triggers
import Verif.Props.Port
import Verif.Lemmas.Dict
import Verif.Props.FunCov
import Verif.Props.FunCovRaise
import Verif.Props.FunCovShare
import Verif.Props.FunCovArgs
import Verif.Props.Logger
import Verif.Props.CodeGen
import Verif.Props.CodeRun
import Verif.Props.Priority
import Verif.Props.LoopQuiet
import Verif.Props.LoopHookFail
import Verif.Props.LoopHooks
import Verif.Props.LoopClock
import Verif.Props.LoopCycles
import Verif.Props.LoopEnd
import Verif.Props.LoopFail
import Verif.Props.LoopQueue
import Verif.Props.LoopGather
import Verif.Props.BundleBind
import Verif.Props.BundleTree
import Verif.Props.BundleAgain
import Verif.Props.BundleAssign
import Verif.Props.BundleRound
import Verif.Props.BundleReports
import Verif.Props.Paths
import Verif.Props.Attach
import Verif.Props.ClearMatched
import Verif.Props.Executor
import Verif.Props.Driver
import Verif.Props.Args
import Verif.Props.ArgsFull
import Verif.Props.Monitor
import Verif.Props.Requests
import Verif.Props.RequestsFull
import Verif.Props.Instances
import Verif.Props.ExecutorFail
import Verif.Props.ExecutorGroups
import Verif.Props.Settings
import Verif.Props.DriverPorts
import Verif.Props.DriverRaise
import Verif.Props.LoggerFile
import Verif.Props.LoggerSummary
import Verif.Props.LoopOrder
import Verif.Props.LoopRuns
import Verif.Props.WriteMode
import Verif.Props.BundleStep
import Verif.Props.Agent
import Verif.Model.IntelGen
import Verif.Lemmas.IntelGen
import Verif.Lemmas.IntelClass
import Verif.Lemmas.IntelVisit
import Verif.Props.IntelGen
import Verif.Lemmas.LoopEvent
import Verif.Lemmas.LoopWait
import Verif.Props.LoopCall
import Verif.Lemmas.LoopFifo
import Verif.Props.LoopFifo
import Verif.Props.LoopIdle
import Verif.Props.LoopComponent
import Verif.Props.LoopEnv
import Verif.Props.LoopPoll
import Verif.Props.BundleWarn
import Verif.Props.RuleString
import Verif.Props.LoopAwait
import Verif.Props.LoopExecutor
import Verif.Props.LoopFirst
import Verif.Props.LoopMonitor
import Verif.Props.LoopUrgent
import Verif.Props.LoopScore
import Verif.Props.Debug
import Verif.Props.Recognise
import Verif.Props.ExecutorBody
import Verif.Props.ExecutorLife
import Verif.Props.Clocks
import Verif.Props.Config
import Verif.Props.AsyncHook
import Verif.Props.Readers
import Verif.Props.Bench
import Verif.Props.Attrs
import Verif.Props.FuncName
import Verif.Props.ClocksLoop
import Verif.Props.BenchMix
import Verif.Props.BenchMixAfter
import Verif.Props.BenchMon
import Verif.Props.BundleStr
import Verif.Props.BenchAll
import Verif.Props.LoopPort
import Verif.Props.PortBoard
import Verif.Props.OldRun
import Verif.Props.BundleItem
import Verif.Props.BindRaise
import Verif.Props.AttachAlias
import Verif.Props.MonitorLife
import Verif.Props.PathShare
import Verif.Props.HookStack
import Verif.Props.PortAlias
import Verif.Props.PortClass
