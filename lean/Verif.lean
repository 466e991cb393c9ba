import Verif.Common.AMap
import Verif.Common.ComputeCache
import Verif.Common.HCache
import Verif.Core.Arena
import Verif.Core.Sem
import Verif.Core.Rec
import Verif.Core.Gc
import Verif.Core.Memo
import Verif.Core.T3
import Verif.Core.HMemo
import Verif.Core.SemZ
import Verif.Zdd.Model
import Verif.Zdd.Ops
import Verif.Zdd.Prod
import Verif.Bdd.Model
import Verif.Bdd.Ops
import Verif.Bdd.Bool
import Verif.Bss.Roots
import Verif.Bss.Kofn
import Verif.Bss.Dual
import Verif.Bss.BddMgr
import Verif.Bss.Spec
import Verif.Bss.Refine
import Verif.Bss.Session
import Verif.Bdd.Reach
import Verif.Bss.ReachW
import Verif.Bss.Halt
import Verif.Props.C05
import Verif.Props.BddCore
import Verif.Props.BddSession
import Verif.Props.BddRpn
import Verif.Core.WSum
import Verif.Core.Fold
import Verif.Core.Enum
import Verif.Bss.Analysis
import Verif.Bss.AnalysisOk
import Verif.Bss.BmeasOk
import Verif.Bss.PathOk
import Verif.Bss.Queries
import Verif.Props.BddAnalysis
import Verif.Zdd.Mem
import Verif.Zdd.Analysis
import Verif.Zdd.AnalysisOk
import Verif.Wrap.Core
import Verif.Bss.ZddMgr
import Verif.Bss.ZRefine
import Verif.Bss.ZSession
import Verif.Bss.ZStep
import Verif.Bss.ZReads
import Verif.Props.Zdd
import Verif.Props.ZddQuot
import Verif.Bss.Minsol
import Verif.Bss.DenCases
import Verif.Bss.MinsolOk
import Verif.Bss.ConvertOk
import Verif.Bss.BssMgr
import Verif.Bss.BssStep
import Verif.Props.Bss
import Verif.Mdd.Model
import Verif.Mdd.Ops
import Verif.Mtmdd.Model
import Verif.Mtmdd.Ops
import Verif.Mtmdd2.Model
import Verif.Mtmdd2.Ops
import Verif.Mdd.Reach
import Verif.Mtmdd.Reach
import Verif.Mtmdd2.Reach
import Verif.Props.MddCore
import Verif.Props.MddLte
import Verif.Zmdd.Model
import Verif.Zmdd.Ops
import Verif.Zmdd.Reach
import Verif.Props.ZmddCore
import Verif.Mss.MddMgr
import Verif.Mss.Refine
import Verif.Mss.Session
import Verif.Mss.Step
import Verif.Mss.Halt
import Verif.Mss.Rpn
import Verif.Props.MssSession
import Verif.Core.Support
import Verif.Mss.Analysis
import Verif.Mss.ProbLaws
import Verif.Mss.ProbOk
import Verif.Mss.BmeasOk
import Verif.Mss.CountOk
import Verif.Mss.CountGap
import Verif.Props.MssAnalysis
import Verif.Core.SemC
import Verif.Mss.Minsol
import Verif.Mss.WithoutOk
import Verif.Mss.SolOk
import Verif.Mss.SolInst
import Verif.Mss.SolMdd
import Verif.Mss.Convert
import Verif.Mss.ConvertOk
import Verif.Mss.ZmddMgr
import Verif.Mss.ZmddEnum
import Verif.Mss.ZmddRead
import Verif.Mss.ZmddStep
import Verif.Mss.MssMgr
import Verif.Mss.MssStep
import Verif.Mss.States
import Verif.Props.Mss
import Verif.Wrap.Pace
import Verif.Wrap.Amortize
import Verif.Wrap.Borrow
import Verif.Wrap.BorrowCalls
import Verif.Bss.Pace
import Verif.Mss.Pace
import Verif.Props.GcPolicy
import Verif.Bss.Stats
import Verif.Props.Stats
import Verif.Common.Text
import Verif.Bss.Text
import Verif.Mss.Text
import Verif.Props.RpnText
import Verif.Core.Dot
import Verif.Core.DotRead
import Verif.Common.DotText
import Verif.Bss.Dot
import Verif.Mss.Dot
import Verif.Props.Dot
import Verif.Core.FoldRel
import Verif.Bss.ProbRel
import Verif.Mss.ProbRel
import Verif.Props.Interval
import Verif.Core.Work
import Verif.Bss.KofnWork
import Verif.Bss.DualWork
import Verif.Props.Work
import Verif.Ev.Model
import Verif.Ev.Sem
import Verif.Ev.Apply
import Verif.Ev.Canon
import Verif.Props.Evmdd
import Verif.Common.CacheGrow
import Verif.Props.CacheSize
import Verif.Props.Again
import Verif.Core.Weave
import Verif.Core.Shape
import Verif.Bss.Stable
import Verif.Bss.ZStable
import Verif.Bss.BssStable
import Verif.Mss.Stable
import Verif.Mss.ZmStable
import Verif.Props.Iter
import Verif.Props.IterMss
import Verif.Core.Width
import Verif.Bss.Width
import Verif.Mss.Width
import Verif.Props.Width
import Verif.Core.PRec
import Verif.Core.Pres
import Verif.Mtmdd.Machine
import Verif.Mss.Fit
import Verif.Mss.Machine
import Verif.Props.Machine
import Verif.Core.Float
import Verif.Bss.FloatProb
import Verif.Mss.FloatProb
import Verif.Props.Float
import Verif.Core.Clean
import Verif.Core.Product
import Verif.Bdd.Clean
import Verif.Bdd.Size
import Verif.Props.Size
import Verif.Mdd.Clean
import Verif.Mtmdd.Clean
import Verif.Mtmdd2.Clean
import Verif.Mtmdd2.Size
import Verif.Props.SizeMss
import Verif.Core.Depth
import Verif.Bdd.Depth
import Verif.Mdd.Depth
import Verif.Mtmdd.Depth
import Verif.Mtmdd2.Depth
import Verif.Zdd.Depth
import Verif.Zmdd.Depth
import Verif.Ev.Depth
import Verif.Props.Depth
import Verif.Bss.ProbLaws
import Verif.Props.Laws
import Verif.Props.LawsMss
import Verif.Props.VarOrder
import Verif.Core.SubFn
import Verif.Props.Subfunctions
import Verif.Props.SubfamiliesZ
import Verif.Props.KofN
import Verif.Props.Decide
import Verif.Props.FamilyLaws
import Verif.Props.Walk
import Verif.Props.Expect
import Verif.Props.Modules
import Verif.Props.FamilyEq
import Verif.Props.Bounds
import Verif.Props.Importance
import Verif.Props.Rebuild
import Verif.Props.Amortize
import Verif.Props.Borrow
import Verif.Props.Caught
import Verif.Tests.Engines
import Verif.Tests.Bss
import Verif.Tests.Mss
