import Verif.Spec
import Verif.Model.Trail
import Verif.Model.Database
import Verif.Model.Propagate
import Verif.Model.Analyze
import Verif.Model.Search
import Verif.Model.Simplify
import Verif.Model.Solve
import Verif.Proofs.Basic
import Verif.Proofs.Trail
import Verif.Proofs.Propagate
import Verif.Proofs.Analyze
import Verif.Proofs.Database
import Verif.Proofs.Search
import Verif.Proofs.Simplify
import Verif.Proofs.Elim
import Verif.Proofs.Asym
import Verif.Proofs.Materialize
import Verif.Proofs.Solve
import Verif.Proofs.SatSide
import Verif.Model.History
import Verif.Proofs.History
import Verif.Proofs.Examples
import Verif.Props.Answers
import Verif.Props.Findings
import Verif.Proofs.Complete
import Verif.Props.Trail
import Verif.Props.Search
import Verif.Model.Allocator
import Verif.Proofs.Allocator
import Verif.Proofs.Live
import Verif.Proofs.Recon
import Verif.Proofs.Preproc
import Verif.Proofs.FirstSolve
import Verif.Props.Reduce
import Verif.Props.Memory
import Verif.Props.FirstSolve
import Verif.Props.Simplify
import Verif.Model.LitBits
import Verif.Model.Problem
import Verif.Model.Dimacs
import Verif.SpecDimacs
import Verif.Proofs.Problem
import Verif.Proofs.Dimacs
import Verif.Proofs.DimacsText
import Verif.Props.Literals
import Verif.Props.Problem
import Verif.Props.Dimacs
import Verif.Model.Stamp
import Verif.Model.BoundedQueue
import Verif.Model.Heap
import Verif.Model.Branching
import Verif.Proofs.Heap
import Verif.Proofs.Branching
import Verif.Props.Stamp
import Verif.Props.Restart
import Verif.Props.Heap
import Verif.Model.BranchHistory
import Verif.Proofs.BranchSearch
import Verif.Props.Branching
import Verif.Model.Drat
import Verif.Proofs.DratProp
import Verif.Proofs.Drat
import Verif.Proofs.DratInv
import Verif.Proofs.DratRun
import Verif.Proofs.DratText
import Verif.Props.Drat
import Verif.Model.Lbd
import Verif.Props.Lbd
import Verif.Model.Ipasir
import Verif.Props.Ipasir
import Verif.Model.Main
import Verif.Props.Main
import Verif.Model.Gates
import Verif.Proofs.Gates
import Verif.Props.Gates
import Verif.Proofs.GateAnalysis
import Verif.Props.GateAnalysis
import Verif.Model.Traversal
import Verif.Proofs.Traversal
import Verif.Props.Traversal
import Verif.Model.Simulation
import Verif.Proofs.Simulation
import Verif.Props.Simulation
import Verif.Model.Partition
import Verif.Proofs.Partition
import Verif.Props.Partition
import Verif.Model.Approximation
import Verif.Proofs.Approximation
import Verif.Props.Approximation
import Verif.Model.Refinement
import Verif.Proofs.Refinement
import Verif.Props.Refinement
import Verif.Model.Minimizer
import Verif.Proofs.Minimizer
import Verif.Props.Minimizer
import Verif.Proofs.Pruning
import Verif.Props.Pruning
import Verif.SpecMd5
import Verif.Model.Hash
import Verif.Proofs.Md5
import Verif.Proofs.Md5Stream
import Verif.Proofs.Hash
import Verif.Props.Hash
import Verif.Proofs.Termination
import Verif.Proofs.SimplifyTotal
import Verif.Proofs.SolveTotal
import Verif.Props.Termination
import Verif.Model.TrailArrays
import Verif.Model.ArraySearch
import Verif.Proofs.TrailArrays
import Verif.Proofs.ArrayPropagate
import Verif.Proofs.ArrayAnalyze
import Verif.Proofs.ArraySearch
import Verif.Proofs.LevelBound
import Verif.Proofs.Attached
import Verif.Model.ArraySolve
import Verif.Proofs.ArraySolve
import Verif.Proofs.ArrayRound
import Verif.Proofs.ArrayExamples
import Verif.Props.Bounds
import Verif.Props.Inprocessing
import Verif.Model.Clear
import Verif.Proofs.Clear
import Verif.Props.Clear
import Verif.Props.Tidy
import Verif.Model.Static
import Verif.Proofs.Static
import Verif.Proofs.StaticSearch
import Verif.Proofs.StaticSolve
import Verif.Props.Static
import Verif.Model.StaticSimplify
import Verif.Proofs.StaticSimplify
import Verif.Proofs.StaticSat
import Verif.Props.StaticSimplify
import Verif.Proofs.StaticTermination
import Verif.Proofs.StaticTotal
import Verif.Props.StaticTermination
import Verif.SpecAiger
import Verif.Model.Aig
import Verif.Proofs.Aig
import Verif.Proofs.AigSat
import Verif.Props.Aig
import Verif.Model.Portfolio
import Verif.Proofs.Portfolio
import Verif.Props.Portfolio
import Verif.Model.FastRand
import Verif.Model.Rsil
import Verif.Proofs.Rsil
import Verif.Proofs.RsilRun
import Verif.Props.Rsil
import Verif.Model.Centrality
import Verif.Proofs.Centrality
import Verif.Proofs.CentralitySearch
import Verif.Proofs.CentralityRun
import Verif.Props.Centrality
import Verif.SpecRup
import Verif.Proofs.Rup
import Verif.Proofs.RupRun
import Verif.Proofs.RupSolve
import Verif.Props.Rup
import Verif.Model.Options
import Verif.SpecOptions
import Verif.Proofs.Options
import Verif.Props.Options
import Verif.Model.SharedMemory
import Verif.SpecShared
import Verif.Proofs.SharedMemory
import Verif.Proofs.SharedInv
import Verif.Proofs.SharedStep
import Verif.Proofs.SharedContent
import Verif.Proofs.SharedRun
import Verif.Props.SharedMemory
import Verif.SpecBuilder
import Verif.Model.Builder
import Verif.Proofs.Builder
import Verif.Props.Builder
import Verif.Proofs.SharedOwn
import Verif.SpecInputDeps
import Verif.Model.InputDeps
import Verif.Proofs.InputDeps
import Verif.Proofs.InputDepsMarks
import Verif.Props.InputDeps
import Verif.SpecRandomization
import Verif.Model.Randomization
import Verif.Model.RandomSimulator
import Verif.Proofs.Randomization
import Verif.Props.Randomization
import Verif.Props.RandomSimulator
import Verif.Model.Miter
import Verif.Proofs.Miter
import Verif.Props.Miter
import Verif.Model.AdviceFilter
import Verif.Model.RecursiveOrder
import Verif.Proofs.RecursiveOrder
import Verif.Props.RecursiveOrder
import Verif.Props.AdviceFilter
import Verif.Model.Betweenness
import Verif.SpecBetweenness
import Verif.Proofs.Bfs
import Verif.Proofs.Brandes
import Verif.Proofs.Betweenness
import Verif.Proofs.Wcc
import Verif.Props.Betweenness
import Verif.Props.Components
import Verif.Props.TidyUse
import Verif.Model.ProcessLoop
import Verif.Proofs.ProcessLoop
import Verif.Props.ProcessLoop
import Verif.Model.PagedMemory
import Verif.SpecPaged
import Verif.Proofs.PagedMemory
import Verif.Props.PagedMemory
import Verif.Model.ArraySimplify
import Verif.Proofs.ArraySimplify
import Verif.Proofs.ArraySubsume
import Verif.Proofs.ArrayElim
import Verif.Proofs.ArrayAsym
import Verif.Proofs.ArrayProcess
import Verif.Proofs.ArrayInpRound
import Verif.Props.BoundsSimplify
import Verif.Props.BoundsInprocessing
import Verif.SpecDistance
import Verif.Model.Bounding
import Verif.Proofs.Bounding
import Verif.Proofs.Distances
import Verif.Proofs.PrunedLeaves
import Verif.Proofs.Extremes
import Verif.Proofs.ExtremesLargest
import Verif.Props.Extremes
import Verif.Model.StaticProcessLoop
import Verif.Proofs.StaticProcessLoop
import Verif.Props.StaticProcessLoop
import Verif.SpecScc
import Verif.Model.Scc
import Verif.Proofs.SccVisit
import Verif.Proofs.SccMark
import Verif.Proofs.SccGraph
import Verif.Proofs.SccAll
import Verif.Props.Scc
import Verif.SpecDistances
import Verif.Model.Distance
import Verif.Proofs.DistSearch
import Verif.Proofs.DistAll
import Verif.Props.Distances
import Verif.SpecEdges
import Verif.Model.EdgeList
import Verif.Proofs.EdgeList
import Verif.Proofs.EdgeCount
import Verif.Props.EdgeList
import Verif.Model.Closeness
import Verif.Proofs.Closeness
import Verif.Props.Closeness
import Verif.SpecTriangles
import Verif.Model.Clustering
import Verif.Proofs.Triangles
import Verif.Proofs.Clustering
import Verif.Props.Clustering
import Verif.SpecPageRank
import Verif.Model.PageRank
import Verif.Proofs.PageRank
import Verif.Props.PageRank
import Verif.Model.EccCentrality
import Verif.Props.EccCentrality
import Verif.Model.Density
import Verif.Props.Density
