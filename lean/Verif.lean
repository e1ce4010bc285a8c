import Verif.Core.Alias
import Verif.Core.AliasLemmas
import Verif.Core.Convert
import Verif.Core.Debug
import Verif.Core.DebugCalls
import Verif.Core.Dict
import Verif.Core.DictLemmas
import Verif.Core.Dtype
import Verif.Core.Err
import Verif.Core.EvalLemmas
import Verif.Core.Expr
import Verif.Core.ExprAssign
import Verif.Core.ExprChains
import Verif.Core.ExprGroup
import Verif.Core.ExprLemmas
import Verif.Core.ExprNames
import Verif.Core.ExprNeeds
import Verif.Core.ExprSound
import Verif.Core.GroupHeap
import Verif.Core.GroupHeapInv
import Verif.Core.GroupHistory
import Verif.Core.Handles
import Verif.Core.Heap
import Verif.Core.HeapLemmas
import Verif.Core.HeapNew
import Verif.Core.HeapRun
import Verif.Core.HeapSteps
import Verif.Core.Ldf
import Verif.Core.LdfAgg
import Verif.Core.LdfAttr
import Verif.Core.LdfCalls
import Verif.Core.LdfChange
import Verif.Core.LdfDerive
import Verif.Core.LdfEager
import Verif.Core.LdfEval
import Verif.Core.LdfEvalLemmas
import Verif.Core.LdfEvalSound
import Verif.Core.LdfGood
import Verif.Core.LdfHistory
import Verif.Core.LdfInfo
import Verif.Core.LdfKeeps
import Verif.Core.LdfLemmas
import Verif.Core.LdfLookup
import Verif.Core.LdfOut
import Verif.Core.LdfPivot
import Verif.Core.LdfQuiet
import Verif.Core.LdfSlice
import Verif.Core.LdfTable
import Verif.Core.Logit
import Verif.Core.Model
import Verif.Core.ModelHistory
import Verif.Core.ModelLemmas
import Verif.Core.NestedExact
import Verif.Core.NestedLaws
import Verif.Core.NestedLemmas
import Verif.Core.NestedSpecLemmas
import Verif.Core.OutFree
import Verif.Core.Parallel
import Verif.Core.PartialCall
import Verif.Core.Precision
import Verif.Core.Reads
import Verif.Core.Results
import Verif.Core.Rows
import Verif.Core.RunCalls
import Verif.Core.Sampling
import Verif.Core.SamplingLemmas
import Verif.Core.Surplus
import Verif.Core.Tree
import Verif.Core.TreeLemmas
import Verif.Core.TreeObs
import Verif.Num.Basic
import Verif.Num.Binary32
import Verif.Num.Binary64
import Verif.Num.Error64
import Verif.Num.FloatTest
import Verif.Num.LogError
import Verif.Num.Rounded
import Verif.Num.SignedSum
import Verif.Num.SumError
import Verif.Num.XRLemmas
import Verif.Props.AccurateRuns
import Verif.Props.Assign
import Verif.Props.AssignDefects
import Verif.Props.Boundaries
import Verif.Props.Cases
import Verif.Props.Cases2
import Verif.Props.Cases3
import Verif.Props.ChoiceData
import Verif.Props.ChoiceUtilities
import Verif.Props.ColumnTypes
import Verif.Props.Columns
import Verif.Props.Copies
import Verif.Props.Debug
import Verif.Props.DebugCalls
import Verif.Props.DebugShape
import Verif.Props.DictLiteral
import Verif.Props.DrawRuns
import Verif.Props.Draws
import Verif.Props.EndToEnd
import Verif.Props.ExampleModel
import Verif.Props.Expr
import Verif.Props.ExprAssign
import Verif.Props.ExprGroup
import Verif.Props.Filter
import Verif.Props.FitHistory
import Verif.Props.Grammar
import Verif.Props.GroupSums
import Verif.Props.Handles
import Verif.Props.Labels
import Verif.Props.LargeRuns
import Verif.Props.LargeUtilities
import Verif.Props.LawRunCases
import Verif.Props.LawRuns
import Verif.Props.LdfAggregates
import Verif.Props.LdfAttributes
import Verif.Props.LdfCases
import Verif.Props.LdfDisplaced
import Verif.Props.LdfEvalSlice
import Verif.Props.LdfEvaluate
import Verif.Props.LdfExample
import Verif.Props.LdfFills
import Verif.Props.LdfFinalize
import Verif.Props.LdfFlag
import Verif.Props.LdfGroups
import Verif.Props.LdfInfo
import Verif.Props.LdfLazy
import Verif.Props.LdfLinkTo
import Verif.Props.LdfLookups
import Verif.Props.LdfOut
import Verif.Props.LdfPivot
import Verif.Props.LdfRefresh
import Verif.Props.LdfSlices
import Verif.Props.LdfStale
import Verif.Props.LdfTables
import Verif.Props.LdfUngrouped
import Verif.Props.LeftPrefix
import Verif.Props.Leftovers
import Verif.Props.ModelTexts
import Verif.Props.ModelTrees
import Verif.Props.Multinomial
import Verif.Props.NanUtil
import Verif.Props.Nested
import Verif.Props.NestedAccuracy
import Verif.Props.NestedLawRuns
import Verif.Props.NestedLaws
import Verif.Props.NestedOverflow
import Verif.Props.NestedRange
import Verif.Props.NestedRuns
import Verif.Props.Parallel
import Verif.Props.PartialRun
import Verif.Props.PartialUtil
import Verif.Props.Precision
import Verif.Props.Preval
import Verif.Props.PrevalCopies
import Verif.Props.PrevalScope
import Verif.Props.Reachable
import Verif.Props.Reserved
import Verif.Props.Results
import Verif.Props.RoundedDraws
import Verif.Props.RoundedMnl
import Verif.Props.RoundedNested
import Verif.Props.RoundedRuns
import Verif.Props.RoundedUtilities
import Verif.Props.RowRuns
import Verif.Props.RunDiscrete
import Verif.Props.Runs
import Verif.Props.Sampling
import Verif.Props.Scope
import Verif.Props.Sensitivity
import Verif.Props.SinglePrecision
import Verif.Props.SingleSums
import Verif.Props.Snapshot
import Verif.Props.StaleSubset
import Verif.Props.StaleUtilities
import Verif.Props.Subset
import Verif.Props.SubsetCalls
import Verif.Props.SubsetExamples
import Verif.Props.SubsetRuns
import Verif.Props.Surplus
import Verif.Props.SurplusGain
import Verif.Props.SurplusNested
import Verif.Props.SurplusRuns
import Verif.Props.Tree
import Verif.Props.TreeHistory
import Verif.Props.TreeOrphans
import Verif.Props.TreeReplace
import Verif.Props.Unchecked
import Verif.Props.UpstreamTests
import Verif.Props.Utilities
import Verif.Props.Weighted
import Verif.Props.WholeRuns
import Verif.Props.ZeroProb
import Verif.Spec.Assign
import Verif.Spec.ChoiceTree
import Verif.Spec.Choices
import Verif.Spec.ColumnTypes
import Verif.Spec.Columns
import Verif.Spec.Draws
import Verif.Spec.Expr
import Verif.Spec.ExprMentions
import Verif.Spec.ExprNames
import Verif.Spec.ExprPlain
import Verif.Spec.ExprSupported
import Verif.Spec.Handles
import Verif.Spec.Ldf
import Verif.Spec.LdfEval
import Verif.Spec.LdfFill
import Verif.Spec.LdfGroups
import Verif.Spec.LinkBook
import Verif.Spec.Logit
import Verif.Spec.Pivot
import Verif.Spec.Snapshot
import Verif.Spec.Utilities
