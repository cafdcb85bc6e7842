import Verif.Text
import Verif.Res
import Verif.Spec.Tree
import Verif.Green
import Verif.Builder
import Verif.Spec.Builder
import Verif.BuilderLemmas
import Verif.Props.Builder
import Verif.Props.Green
import Verif.Props.Green32
import Verif.Cursor
import Verif.Spec.Nav
import Verif.Spec.Handles
import Verif.CursorLemmas
import Verif.Examples
import Verif.Props.Cursor
import Verif.Spec.Walk
import Verif.WalkLemmas
import Verif.Props.Walk
import Verif.Position
import Verif.Spec.Position
import Verif.PositionLemmas
import Verif.Props.Position
import Verif.Props.TokenOrder
import Verif.Props.Edit
import Verif.Debug
import Verif.Spec.Debug
import Verif.Props.Debug
import Verif.SyntaxText
import Verif.Spec.SyntaxText
import Verif.SyntaxTextLemmas
import Verif.Props.SyntaxText
import Verif.Ast
import Verif.Spec.Ast
import Verif.Props.Ast
import Verif.Serde
import Verif.Spec.Serde
import Verif.Props.Serde
import Verif.Arc
import Verif.ArcLemmas
import Verif.Props.Arc
import Verif.Spec.Layout
import Verif.ThinArc
import Verif.ThinArcLemmas
import Verif.Spec.ThinArc
import Verif.Props.ThinArc
import Verif.HeapState
import Verif.Sll
import Verif.HLemmas
import Verif.SllLemmas
import Verif.Spec.Sll
import Verif.Props.Sll
import Verif.Heap
import Verif.HeapInv
import Verif.HeapNav
import Verif.Spec.Heap
import Verif.HeapNav2
import Verif.HeapNav3
import Verif.HeapOps
import Verif.HeapRespine
import Verif.Spec.Edit
import Verif.EditLemmas
import Verif.Spec.View
import Verif.HeapEdit
import Verif.HeapCounted
import Verif.HeapCycle
import Verif.HeapView
import Verif.HeapSplice
import Verif.HeapSplice2
import Verif.HeapByKind
import Verif.HeapApi
import Verif.Spec.Api
import Verif.ViewLemmas
import Verif.HeapApiLemmas
import Verif.HeapReach
import Verif.EditContent
import Verif.HeapShows
import Verif.HeapContent
import Verif.HeapCount
import Verif.EditCycle
import Verif.HeapRoom
import Verif.HeapDemo
import Verif.Props.Detach
import Verif.Props.Splice
import Verif.HeapHistory
import Verif.HeapStill
import Verif.HeapStill2
import Verif.Props.Handles
import Verif.Props.Memory
import Verif.Program
import Verif.Spec.Program
import Verif.ProgramLemmas
import Verif.ProgramSteps
import Verif.ProgramRun
import Verif.Traverse
import Verif.ProgramComp
import Verif.TraverseLemmas
import Verif.TraverseKids
import Verif.TraversePos
import Verif.TraverseText
import Verif.Spec.Traverse
import Verif.ProgramHeap
import Verif.TraverseAll
import Verif.TraverseTree
import Verif.Props.Program
import Verif.Props.Traverse
import Verif.GreenMem
import Verif.GreenMemLemmas
import Verif.Spec.GreenMem
import Verif.Props.GreenMem
import Verif.GreenWeak
import Verif.Spec.GreenWeak
import Verif.GreenWeakLemmas
import Verif.Props.GreenWeak
import Verif.Api
import Verif.Props.Api
import Verif.GreenApi
import Verif.Spec.GreenApi
import Verif.Props.GreenApi
import Verif.HeapBorrow
import Verif.Spec.Borrow
import Verif.Props.Borrow
import Verif.Spec.Reenter
import Verif.HeapReenter
import Verif.HeapReenterLemmas
import Verif.Props.Reenter
import Verif.Spec.Lazy
import Verif.Props.Lazy
import Verif.Text32
import Verif.Text32Lemmas
import Verif.Props.Text32
import Verif.HeapChecked
import Verif.HeapCheckedLemmas
import Verif.HeapChecked2
import Verif.Props.Checked
import Verif.BProg
import Verif.SExpr
import Verif.Spec.SExpr
import Verif.SExprLemmas
import Verif.SExprLemmas2
import Verif.Props.SExpr
import Verif.Spec.Leaves
import Verif.Math
import Verif.Spec.Math
import Verif.MathLemmas
import Verif.MathLemmas2
import Verif.Props.Math
import Verif.SExprEval
import Verif.Spec.SExprEval
import Verif.SExprEvalLemmas
import Verif.SExprEvalLemmas2
import Verif.Props.SExprEval
import Verif.EditProg
import Verif.Spec.Forest
import Verif.ForestLemmas
import Verif.ForestSteps
import Verif.ForestRun
import Verif.ForestReq
import Verif.ForestMain
import Verif.ForestFrozen
import Verif.Props.Forest
import Verif.Props.AstExact
import Verif.Spec.Dump
import Verif.DumpLemmas
import Verif.Props.Dump
import Verif.MathPrint
import Verif.Spec.MathPrint
import Verif.MathPrintLemmas
import Verif.Props.MathPrint
import Verif.Props.TokenEdge
import Verif.Props.Unwind
import Verif.Cost
import Verif.Spec.Cost
import Verif.Props.Cost
import Verif.Props.CostHeap
import Verif.Fmt
import Verif.Spec.Fmt
import Verif.Props.Fmt
import Verif.EditWalk
import Verif.Spec.EditWalk
import Verif.EditWalkTree
import Verif.EditWalkRun
import Verif.EditWalkPrune
import Verif.EditWalkLoop
import Verif.Props.EditWalk
import Verif.DetachAll
import Verif.Spec.Detach
import Verif.CutOrder
import Verif.DetachOrder
import Verif.DetachRun
import Verif.DetachContent
import Verif.DetachKids
import Verif.Props.DetachAll
import Verif.Typed
import Verif.Spec.Typed
import Verif.Props.Typed
import Verif.EditLaws
import Verif.Spec.EditLaws
import Verif.Twin
import Verif.EditLawsRun
import Verif.JoinOrder
import Verif.EditLawsMore
import Verif.Props.EditLaws
import Verif.Spec.Frame
import Verif.Frame
import Verif.TwinRun
import Verif.FrameAfter
import Verif.Props.Frame
import Verif.PtrStable
import Verif.Spec.PtrStable
import Verif.Props.PtrStable
import Verif.Spec.PtrSplice
import Verif.PtrSplice
import Verif.Props.PtrSplice
import Verif.Spec.Nest
import Verif.Nest
import Verif.NestDeep
import Verif.Props.Nest
import Verif.BuildCost
import Verif.Spec.BuildCost
import Verif.BuildCostLemmas
import Verif.Props.BuildCost
import Verif.WalkCost
import Verif.Spec.WalkCost
import Verif.WalkCostLemmas
import Verif.Props.WalkCost
import Verif.Spec.Ranges
import Verif.Props.Ranges
import Verif.GreenPanic
import Verif.Spec.GreenPanic
import Verif.GreenPanicLemmas
import Verif.Props.GreenPanic
import Verif.Spec.TextEdit
import Verif.TextEditLemmas
import Verif.Props.TextEdit
import Verif.StaleText
import Verif.Spec.StaleText
import Verif.StaleTextLemmas
import Verif.Props.StaleText
import Verif.TextSpliceLemmas
import Verif.Props.TextSplice
import Verif.TextEq
import Verif.TextEqLemmas
import Verif.Props.TextEq
import Verif.TextRead
import Verif.Props.TextRead
import Verif.TextSlice
import Verif.Props.TextSlice
import Verif.Spec.TextKeep
import Verif.TextKeepLemmas
import Verif.Props.TextKeep
import Verif.Props.PtrKeep
