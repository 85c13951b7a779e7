import Verif.Model.Basic
import Verif.Model.Notation
import Verif.Model.Validate
import Verif.Model.Doc
import Verif.Model.Consolidated
import Verif.Model.Printer
import Verif.Model.Tree
import Verif.Spec.NTree
import Verif.Spec.Layout
import Verif.Spec.Denote
import Verif.Spec.Output
import Verif.Proofs.Main
import Verif.Proofs.Tree
import Verif.Proofs.Toks
import Verif.Props.Example
import Verif.Props.Printing
import Verif.Props.Focus
import Verif.Spec.Greedy
import Verif.Proofs.Greedy
import Verif.Proofs.GreedyLines
import Verif.Props.Safety
import Verif.Spec.Flat
import Verif.Proofs.ErrKind
import Verif.Props.Layout
import Verif.Props.Choices
import Verif.Spec.Shows
import Verif.Proofs.Shows
import Verif.Proofs.Stuck
import Verif.Props.Meaning
import Verif.Spec.Equiv
import Verif.Proofs.Equiv
import Verif.Props.Equiv
import Verif.Spec.Flaws
import Verif.Proofs.EolSafe
import Verif.Props.Validation
import Verif.Props.EolValid
import Verif.Model.Divvy
import Verif.Spec.Divvy
import Verif.Props.Divvy
import Verif.Model.Pane
import Verif.Spec.Pane
import Verif.Proofs.Pane
import Verif.Proofs.PaneCells
import Verif.Proofs.PaneDraws
import Verif.Proofs.Round
import Verif.Proofs.PaneDoc
import Verif.Proofs.PaneOk
import Verif.Props.Pane
import Verif.Props.PaneDoc
import Verif.Model.PlainText
import Verif.Spec.PlainText
import Verif.Props.PlainText
import Verif.Props.PaneText
import Verif.Model.Style
import Verif.Props.TreeStyle
import Verif.Model.Json
import Verif.Spec.Json
import Verif.Proofs.Json
import Verif.Proofs.JsonTree
import Verif.Proofs.JsonDoc
import Verif.Proofs.JsonMain
import Verif.Proofs.Reach
import Verif.Proofs.JsonRoots
import Verif.Props.Json
import Verif.Model.Oracle
import Verif.Spec.Oracle
import Verif.Proofs.Oracle
import Verif.Proofs.OraclePp
import Verif.Proofs.OracleSound
import Verif.Props.Oracle
import Verif.Spec.Extend
import Verif.Proofs.Extend
import Verif.Proofs.ExtendPane
import Verif.Props.Extend
import Verif.Spec.View
import Verif.Proofs.View
import Verif.Proofs.ViewExpand
import Verif.Proofs.ViewPrint
import Verif.Proofs.ViewSeek
import Verif.Proofs.ViewFocus
import Verif.Proofs.ViewMain
import Verif.Proofs.ViewRows
import Verif.Proofs.ViewRowsOf
import Verif.Props.Peephole
import Verif.Props.Rows
import Verif.Spec.Tiles
import Verif.Proofs.Tiles
import Verif.Proofs.TilesUnique
import Verif.Proofs.PaneFails
import Verif.Proofs.PaneEnds
import Verif.Props.Tiles
import Verif.Model.Resume
import Verif.Spec.Resume
import Verif.Proofs.Resume
import Verif.Proofs.ResumeMain
import Verif.Proofs.ResumeFrame
import Verif.Proofs.ResumeParts
import Verif.Proofs.ResumeGives
import Verif.Proofs.ResumeTwo
import Verif.Props.Resume
import Verif.Spec.Modular
import Verif.Proofs.Modular
import Verif.Proofs.OwnFlag
import Verif.Props.Modular
import Verif.Spec.Morph
import Verif.Proofs.Morph
import Verif.Props.Morph
import Verif.Spec.Widths
import Verif.Props.Widths
import Verif.Spec.JsonRead
import Verif.Props.JsonRead
import Verif.Props.JsonRoots
import Verif.Proofs.EolRun
import Verif.Spec.Rewrite
import Verif.Props.Laws
import Verif.Spec.Origin
import Verif.Proofs.Origin
import Verif.Props.Origin
import Verif.Model.Demo
import Verif.Spec.Terminal
import Verif.Proofs.Demo
import Verif.Proofs.DemoInk
import Verif.Props.Demo
import Verif.Props.DemoFormat
import Verif.Model.Work
import Verif.Spec.Work
import Verif.Spec.Session
import Verif.Proofs.Erase
import Verif.Proofs.WorkShape
import Verif.Proofs.WorkPays
import Verif.Proofs.WorkLoops
import Verif.Proofs.WorkSession
import Verif.Props.Work
import Verif.Proofs.ExtendC
import Verif.Spec.Closed
import Verif.Props.Window
import Verif.Proofs.WorkLeast
import Verif.Spec.JsonWork
import Verif.Proofs.JsonWork
import Verif.Props.JsonWork
import Verif.Tests.Basics
import Verif.Tests.Json
import Verif.Tests.Panes
import Verif.Spec.Contract
import Verif.Props.Contract
import Verif.Spec.Dim
import Verif.Proofs.Dim
import Verif.Proofs.DimTree
import Verif.Proofs.PlanView
import Verif.Spec.Nested
import Verif.Proofs.PlanTree
import Verif.Props.Nested
import Verif.Proofs.OwnLeast
import Verif.Props.NestedLeast
import Verif.Model.Geometry
import Verif.Spec.Measure
import Verif.Proofs.Measure
import Verif.Props.Measure
import Verif.Proofs.GroupView
import Verif.Proofs.GroupTree
import Verif.Spec.JsonWindow
import Verif.Proofs.JsonPlan
import Verif.Proofs.JsonTall
import Verif.Proofs.JsonDim
import Verif.Proofs.JsonCount
import Verif.Props.JsonWindow
import Verif.Model.Generate
import Verif.Spec.Generate
import Verif.Proofs.Generate
import Verif.Proofs.GenerateTree
import Verif.Props.Generate
import Verif.Model.OracleTest
import Verif.Proofs.OracleTest
import Verif.Props.OracleTest
import Verif.Spec.Ideal
import Verif.Spec.Reference
import Verif.Model.Reference
import Verif.Proofs.Ideal
import Verif.Proofs.Reference
import Verif.Props.Ideal
import Verif.Spec.RefLaws
import Verif.Proofs.RefLaws
import Verif.Props.RefLaws
import Verif.Spec.Marks
import Verif.Proofs.Marks
import Verif.Props.Marks
import Verif.Model.FocusTest
import Verif.Spec.FocusTest
import Verif.Proofs.FocusTest
import Verif.Props.FocusTest
import Verif.Spec.Wrap
import Verif.Model.FlowWrap
import Verif.Proofs.Wrap
import Verif.Proofs.FlowWrap
import Verif.Proofs.CommentWrap
import Verif.Proofs.Fill
import Verif.Props.Wrap
import Verif.Spec.JsonOracle
import Verif.Proofs.JsonOracle
import Verif.Props.JsonOracle
import Verif.Model.Display
import Verif.Spec.Display
import Verif.Proofs.Display
import Verif.Props.Display
import Verif.Spec.Ink
import Verif.Proofs.Ink
import Verif.Props.Ink
import Verif.Proofs.FirstOptions
import Verif.Props.FirstOptions
import Verif.Model.Programs
import Verif.Spec.Programs
import Verif.Proofs.Sane
import Verif.Proofs.Programs
import Verif.Proofs.ProgramTree
import Verif.Props.Programs
import Verif.Model.Depth
import Verif.Spec.Depth
import Verif.Proofs.Depth
import Verif.Props.Depth
import Verif.Model.Stack
import Verif.Spec.Stack
import Verif.Proofs.Stack
import Verif.Props.Stack
import Verif.Spec.Reformat
import Verif.Proofs.Reformat
import Verif.Props.Reformat
import Verif.Proofs.Width
import Verif.Props.Width
import Verif.Spec.JsonFormat
import Verif.Spec.JsonFocus
import Verif.Proofs.JsonFormat
import Verif.Proofs.JsonLines
import Verif.Proofs.FocusAt
import Verif.Proofs.JsonFocus
import Verif.Props.JsonFormat
import Verif.Props.JsonFocus
import Verif.Props.JsonPane
import Verif.Proofs.JsonWider
import Verif.Props.JsonWider
import Verif.Model.PosOrder
import Verif.Spec.Geometry
import Verif.Props.Geometry
import Verif.Spec.ProgramFormat
import Verif.Proofs.ProgramFormat
import Verif.Props.ProgramFormat
import Verif.Spec.OnePass
import Verif.Proofs.OnePass
import Verif.Props.OnePass
import Verif.Spec.Reworded
import Verif.Proofs.Reworded
import Verif.Props.Reworded
