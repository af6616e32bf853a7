import Verif.Model.BinaryHeap
import Verif.Model.Checked
import Verif.Model.Columns
import Verif.Model.Decimal
import Verif.Model.Dijkstra
import Verif.Model.Display
import Verif.Model.Fields
import Verif.Model.Float64
import Verif.Model.GrPPH
import Verif.Model.GrPPHMain
import Verif.Model.GrPPHText
import Verif.Model.Lazy
import Verif.Model.LazyExpr
import Verif.Model.Matrices
import Verif.Model.Q64
import Verif.Model.Q64Build
import Verif.Model.Reduction
import Verif.Model.Rips
import Verif.Model.Rips64
import Verif.Model.RipsMain
import Verif.Model.RipsProgram
import Verif.Model.RipsText
import Verif.Proofs.BinaryHeap
import Verif.Proofs.CellSplit
import Verif.Proofs.Checked
import Verif.Proofs.Clearing
import Verif.Proofs.ClearingAny
import Verif.Proofs.ClearingFirst
import Verif.Proofs.ClearingPanics
import Verif.Proofs.ClearingReads
import Verif.Proofs.ClearingStored
import Verif.Proofs.Columns
import Verif.Proofs.Decimal
import Verif.Proofs.DecimalText
import Verif.Proofs.Dijkstra
import Verif.Proofs.DijkstraAny
import Verif.Proofs.Display
import Verif.Proofs.Fields
import Verif.Proofs.Float64
import Verif.Proofs.GrPPHCoboundary
import Verif.Proofs.GrPPHColumns
import Verif.Proofs.GrPPHComplete
import Verif.Proofs.GrPPHComplex
import Verif.Proofs.GrPPHEnd
import Verif.Proofs.GrPPHHomology
import Verif.Proofs.Involution
import Verif.Proofs.Lazy
import Verif.Proofs.LazyExpr
import Verif.Proofs.LazyExprCache
import Verif.Proofs.LazyPanics
import Verif.Proofs.LazyPlain
import Verif.Proofs.LazyReduction
import Verif.Proofs.ListHeap
import Verif.Proofs.Matrices
import Verif.Proofs.Mono
import Verif.Proofs.Reduction
import Verif.Proofs.Reverse
import Verif.Proofs.Rips64
import Verif.Proofs.RipsBases
import Verif.Proofs.RipsColumns
import Verif.Proofs.RipsComplex
import Verif.Proofs.RipsIndex
import Verif.Proofs.Standard
import Verif.Props.Bottleneck
import Verif.Props.Bounds
import Verif.Props.Cache
import Verif.Props.Checked
import Verif.Props.Circle
import Verif.Props.Clearing
import Verif.Props.ClearingAny
import Verif.Props.ClearingOrder
import Verif.Props.ClearingSkips
import Verif.Props.Columns
import Verif.Props.Conformance
import Verif.Props.Decimal
import Verif.Props.Display
import Verif.Props.Explicit
import Verif.Props.Fields
import Verif.Props.Float64
import Verif.Props.GrPPH
import Verif.Props.GrPPHAny
import Verif.Props.GrPPHBottleneck
import Verif.Props.GrPPHEdges
import Verif.Props.GrPPHEdgesShape
import Verif.Props.GrPPHEnclosing
import Verif.Props.GrPPHEnd
import Verif.Props.GrPPHGluing
import Verif.Props.GrPPHGraphs
import Verif.Props.GrPPHHanging
import Verif.Props.GrPPHInvariance
import Verif.Props.GrPPHMain
import Verif.Props.GrPPHPanics
import Verif.Props.GrPPHReverse
import Verif.Props.GrPPHShape
import Verif.Props.GrPPHText
import Verif.Props.GrPPHTree
import Verif.Props.Heap
import Verif.Props.Homology
import Verif.Props.Intervals
import Verif.Props.Lazy
import Verif.Props.LazyExpr
import Verif.Props.Matrices
import Verif.Props.QBuilds
import Verif.Props.Reps
import Verif.Props.Rips
import Verif.Props.Rips64
import Verif.Props.Rips64Any
import Verif.Props.RipsAny
import Verif.Props.RipsClusters
import Verif.Props.RipsCorrespondence
import Verif.Props.RipsEnclosing
import Verif.Props.RipsEuler
import Verif.Props.RipsFew
import Verif.Props.RipsInvariance
import Verif.Props.RipsProgram
import Verif.Props.RipsRemove
import Verif.Props.RipsReport
import Verif.Props.RipsShape
import Verif.Props.RipsStandard
import Verif.Props.RipsSuspension
import Verif.Props.RipsText
import Verif.Props.RipsText64
import Verif.Props.RipsTree
import Verif.Props.RipsUpper
import Verif.Props.Standard
import Verif.Spec.Barcode
import Verif.Spec.Basis
import Verif.Spec.Bottleneck
import Verif.Spec.Circle
import Verif.Spec.Column
import Verif.Spec.Digraph
import Verif.Spec.Display
import Verif.Spec.Field
import Verif.Spec.Gluing
import Verif.Spec.GrPPH
import Verif.Spec.GrPPHReport
import Verif.Spec.GrPPHText
import Verif.Spec.Graph
import Verif.Spec.Intervals
import Verif.Spec.LazyExpr
import Verif.Spec.Persistence
import Verif.Spec.Reduction
import Verif.Spec.Reps
import Verif.Spec.Rips
import Verif.Spec.RipsProgram
import Verif.Spec.RipsReport
import Verif.Spec.RipsText
import Verif.Spec.SpanningTree
import Verif.Theory.Barcode
import Verif.Theory.Betti
import Verif.Theory.Bottleneck
import Verif.Theory.Circle
import Verif.Theory.Clusters
import Verif.Theory.Complex
import Verif.Theory.Components
import Verif.Theory.Cone
import Verif.Theory.Cross
import Verif.Theory.CycleGraph
import Verif.Theory.Digraph
import Verif.Theory.Dominated
import Verif.Theory.Duality
import Verif.Theory.Enclosing
import Verif.Theory.EnclosingDigraph
import Verif.Theory.Euler
import Verif.Theory.Flag
import Verif.Theory.Gluing
import Verif.Theory.GrPPHBottleneck
import Verif.Theory.GrPPHInvariance
import Verif.Theory.Interval
import Verif.Theory.PairOfLead
import Verif.Theory.Rank
import Verif.Theory.Relabel
import Verif.Theory.Reps
import Verif.Theory.Restrict
import Verif.Theory.Reversal
import Verif.Theory.RipsBottleneck
import Verif.Theory.RipsInvariance
import Verif.Theory.ShortestPaths
import Verif.Theory.Simplex
import Verif.Theory.SpanningTree
import Verif.Theory.Suspension
import Verif.Theory.TreeDigraph
import Verif.Theory.Twin
import Verif.Theory.Unique
