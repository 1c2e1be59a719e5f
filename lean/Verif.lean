import Verif.Graph.Model
import Verif.Graph.Spec
import Verif.Graph.Draw
import Verif.Graph.Labels
import Verif.Graph.TextSpec
import Verif.Graph.Text
import Verif.Props.ConstraintText
import Verif.Props.ConstraintBuild
import Verif.Props.StepFunction
import Verif.Props.Configuration
import Verif.Props.SourceRange
import Verif.Props.FeatureTree
import Verif.Props.Transactions
import Verif.Props.CopyTransactions
import Verif.Props.TransactionEffects
import Verif.Props.Build
import Verif.Props.Clone
import Verif.Props.Iteration
import Verif.Props.BulkRemoval
import Verif.Props.Solver
import Verif.Props.Enumeration
import Verif.Props.Sxfm
import Verif.Props.Xml
import Verif.Props.XmlRoundTrip
import Verif.Props.XmlLayout
import Verif.Xml.Layout
import Verif.Xml.LayoutSpec
import Verif.Props.Sampling
import Verif.Props.Merge
import Verif.Props.ConstraintClone
import Verif.Props.Graph
import Verif.Props.Generator
import Verif.Props.Viewer
import Verif.Props.FeatureEquality
import Verif.Props.Life
import Verif.Props.Python
import Verif.Props.SxfmMeaning
import Verif.Props.KeptConfigurations
import Verif.Props.WriterCalls
import Verif.Props.Verify
import Verif.Props.Edits
import Verif.Props.Session
import Verif.Props.Scientific
import Verif.Props.XmlNumbers
import Verif.Props.Script
import Verif.Props.XmlOptional
import Verif.Props.RangeSteps
import Verif.Props.ResultCopies
import Verif.Props.StepText
import Verif.Props.SteppedDocuments
import Verif.Props.SxfmSafe
import Verif.Props.Lazy
import Verif.Props.EditWhileIterating
import Verif.Props.Dangling
import Verif.Props.HeldLocations
import Verif.Props.LocationText
import Verif.Props.Walk
import Verif.Props.Visitor
import Verif.Props.Hand
import Verif.Props.HandWhole
import Verif.Props.MoveWhileIterating
import Verif.Props.PythonLifetimes
import Verif.Props.OpenTransactions
import Verif.Props.SideBySide
import Verif.Props.CopyEdits
import Verif.Props.CopyTxLife
import Verif.Props.Undo
import Verif.Props.Memory
import Verif.Props.DefaultSolver
import Verif.Props.MergedConfigurations
import Verif.Props.MergeLaws
import Verif.Props.SavedDocuments
import Verif.Props.Reparse
import Verif.Props.NormalForm
import Verif.Props.MergeThree
import Verif.Props.KeptOptions
import Verif.Props.XmlRespell
import Verif.Props.BulkTwice
import Verif.Props.SxfmNames
import Verif.Props.ConstraintRebuild
import Verif.Props.SignedLiterals
import Verif.Props.PrintedResults
import Verif.Props.Cycles
import Verif.Props.CloneRoot
import Verif.Props.BulkNested
import Verif.Props.PyLocations
import Verif.Props.BulkChains
import Verif.Props.Layout
import Verif.Props.SavedLayout
import Verif.Props.Twins
import Verif.Props.SolverOptions
import Verif.Props.AnyEdit
import Verif.Props.AnyEdges
import Verif.Props.CycleDocs
import Verif.Props.SameObject
import Verif.Props.CloneExact
import Verif.Props.BuildInOrder
import Verif.Props.CloneLoses
import Verif.Props.SxfmTwice
import Verif.Props.SxfmLines
import Verif.Props.XmlConstraints
import Verif.Props.ConstraintsAdded
