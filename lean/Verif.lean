import Verif.Basic.Literal
import Verif.Basic.LiteralProps
import Verif.Basic.Packed
import Verif.Basic.PackedProps
import Verif.Util.Heap
import Verif.Util.HeapProps
import Verif.Util.LeftRight
import Verif.Util.LeftRightProps
import Verif.Strat.Schedule
import Verif.Strat.ScheduleProps
import Verif.Conc.MultiQueue
import Verif.Conc.MultiQueueInv
import Verif.Conc.MultiQueueSteps
import Verif.Conc.MultiQueueProps
import Verif.Core.Trail
import Verif.Core.TrailWF
import Verif.Core.TrailProps
import Verif.Core.Sem
import Verif.Core.Analyze
import Verif.Core.AnalyzeUip
import Verif.Core.AnalyzeMin
import Verif.Core.AnalyzeLem
import Verif.Core.AnalyzeProps
import Verif.Core.Propagate
import Verif.Core.State
import Verif.Core.StateInv
import Verif.Core.StateOps
import Verif.Core.StateBack
import Verif.Core.Watch
import Verif.Core.WatchLoop
import Verif.Core.Create
import Verif.Core.CreateLem
import Verif.Core.CreateProps
import Verif.Core.GraphLem
import Verif.Core.CreateDb
import Verif.Core.GraphProps
import Verif.Core.Reduce
import Verif.Core.ReduceLem
import Verif.Core.ReduceLock
import Verif.Core.ReduceProps
import Verif.Core.Resolve
import Verif.Core.AnalyzeFuel
import Verif.Core.Search
import Verif.Core.SearchInv
import Verif.Core.SearchModel
import Verif.Core.SearchProps
import Verif.Core.UnsatCore
import Verif.Core.UnsatCoreProps
import Verif.Core.SplitInv
import Verif.Core.Split
import Verif.Core.SplitProps
import Verif.Enum.Cons
import Verif.Enum.ConsProps
import Verif.Conc.SharedLits
import Verif.Conc.SharedLitsProps
import Verif.Weight.Rep
import Verif.Weight.RepLem
import Verif.Weight.RepProps
import Verif.Weight.MakeProps
import Verif.Weight.EqProps
import Verif.Weight.EqExact
import Verif.Opt.Builder
import Verif.Opt.BuilderLem
import Verif.Opt.BuilderProps
import Verif.Opt.Bound
import Verif.Opt.BoundProps
import Verif.Opt.BoundEx
import Verif.Opt.Min
import Verif.Opt.MinLem
import Verif.Opt.MinInv
import Verif.Opt.MinUndo
import Verif.Opt.MinForce
import Verif.Opt.MinProp
import Verif.Opt.MinReach
import Verif.Opt.MinBuild
import Verif.Opt.MinProps
import Verif.Opt.MinEx
import Verif.Opt.Uncore
import Verif.Opt.UncoreLem
import Verif.Opt.UncoreGrow
import Verif.Opt.UncorePmr
import Verif.Opt.UncoreK
import Verif.Opt.UncoreCore
import Verif.Opt.UncoreInv
import Verif.Opt.UncoreUp
import Verif.Opt.UncoreStep
import Verif.Opt.UncorePath
import Verif.Opt.UncoreLevel
import Verif.Opt.UncoreReach
import Verif.Opt.UncoreProps
import Verif.Opt.UncoreEx
import Verif.Weight.Prop
import Verif.Weight.PropLem
import Verif.Weight.PropInv
import Verif.Weight.PropStep
import Verif.Weight.PropUndo
import Verif.Weight.PropReach
import Verif.Weight.PropProps
import Verif.Weight.PropEx
import Verif.Facade.Result
import Verif.Facade.ResultLem
import Verif.Facade.ResultProps
import Verif.Asp.Scc
import Verif.Asp.SccLem
import Verif.Asp.SccStep
import Verif.Asp.SccLoop
import Verif.Asp.SccProps
import Verif.Asp.Sem
import Verif.Asp.Completion
import Verif.Asp.CompletionLem
import Verif.Asp.CompletionVars
import Verif.Asp.CompletionProps
import Verif.Asp.Ufs
import Verif.Asp.UfsCore
import Verif.Asp.UfsAdd
import Verif.Asp.UfsRem
import Verif.Asp.UfsFind
import Verif.Asp.UfsLoop
import Verif.Asp.UfsInit
import Verif.Asp.UfsRun
import Verif.Asp.UfsReason
import Verif.Asp.UfsGraph
import Verif.Asp.UfsSem
import Verif.Asp.UfsStable
import Verif.Asp.UfsProps
import Verif.Asp.Transform
import Verif.Asp.TransformLem
import Verif.Asp.TransformSim
import Verif.Asp.TransformSelect
import Verif.Asp.TransformSplit
import Verif.Asp.TransformRule
import Verif.Asp.TransformProps
import Verif.Asp.Simp
import Verif.Asp.SimpLem
import Verif.Asp.SimpSum
import Verif.Asp.SimpRule
import Verif.Asp.SimpProps
import Verif.Sat.Elite
import Verif.Sat.EliteExt
import Verif.Sat.EliteInv
import Verif.Sat.EliteStr
import Verif.Sat.EliteSub
import Verif.Sat.EliteRes
import Verif.Sat.EliteAdd
import Verif.Sat.EliteVe
import Verif.Sat.EliteElim
import Verif.Sat.EliteLoad
import Verif.Sat.EliteProps
import Verif.Input.Db
import Verif.Input.Sat
import Verif.Input.SatLem
import Verif.Input.SatProps
import Verif.Input.Supp
import Verif.Input.SatElim
import Verif.Input.Dimacs
import Verif.Input.DimacsSpec
import Verif.Input.DimacsLem
import Verif.Input.DimacsProps
import Verif.Input.Pb
import Verif.Input.PbLem
import Verif.Input.PbProps
import Verif.Input.Opb
import Verif.Input.OpbSpec
import Verif.Input.OpbLem
import Verif.Input.OpbProps
import Verif.Enum.Query
import Verif.Enum.QueryLem
import Verif.Enum.QueryProps
import Verif.Asp.Loop
import Verif.Asp.LoopInv
import Verif.Asp.LoopStep
import Verif.Asp.LoopProp
import Verif.Asp.LoopSimp
import Verif.Asp.LoopSimpInv
import Verif.Asp.LoopReach
import Verif.Asp.LoopProps
import Verif.Ext.Clingo
import Verif.Ext.ClingoLem
import Verif.Ext.ClingoPop
import Verif.Ext.ClingoStep
import Verif.Ext.ClingoReach
import Verif.Ext.ClingoProps
import Verif.Ext.ClingoEx
import Verif.Ext.Watch
import Verif.Ext.WatchLem
import Verif.Ext.WatchProps
import Verif.Ext.DepGraph
import Verif.Ext.DepGraphLem
import Verif.Ext.DepGraphProps
import Verif.Ext.Acyc
import Verif.Ext.AcycLem
import Verif.Ext.AcycInv
import Verif.Ext.AcycStep
import Verif.Ext.AcycSearch
import Verif.Ext.AcycAttach
import Verif.Ext.AcycInit
import Verif.Ext.AcycProps
import Verif.Ext.AcycEx
import Verif.Heu.Heap
import Verif.Heu.HeapLem
import Verif.Heu.Vsids
import Verif.Heu.VsidsLem
import Verif.Heu.VsidsProps
import Verif.Heu.Pref
import Verif.Heu.Vmtf
import Verif.Heu.VmtfLem
import Verif.Heu.VmtfInv
import Verif.Heu.VmtfProps
import Verif.Heu.Dom
import Verif.Heu.DomInv
import Verif.Heu.DomTab
import Verif.Heu.DomProps
import Verif.Asp.Min
import Verif.Asp.MinSem
import Verif.Asp.MinLem
import Verif.Asp.MinExact
import Verif.Asp.MinRun
import Verif.Asp.MinReason
import Verif.Asp.MinProps
import Verif.Asp.Shift
import Verif.Asp.ShiftRep
import Verif.Asp.ShiftLem
import Verif.Asp.ShiftSem
import Verif.Asp.ShiftComp
import Verif.Asp.ShiftProps
import Verif.Core.Look
import Verif.Core.LookLem
import Verif.Core.LookInv
import Verif.Core.LookSem
import Verif.Core.LookReach
import Verif.Core.LookProps
import Verif.Conc.Par
import Verif.Conc.ParInv
import Verif.Conc.ParStep
import Verif.Conc.ParProps
import Verif.Conc.ParOnce
import Verif.Heu.Berk
import Verif.Heu.BerkLem
import Verif.Heu.BerkProps
import Verif.Conc.Imp
import Verif.Conc.ImpInv
import Verif.Conc.ImpStep
import Verif.Conc.ImpProps
import Verif.Strat.Dyn
import Verif.Strat.DynProps
import Verif.Strat.Limits
import Verif.Strat.LimitsProps
import Verif.Strat.Branch
