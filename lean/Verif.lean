import Verif.Problem.Props
import Verif.OrderedGroups.Props
import Verif.Partition.Props
import Verif.Util.Props
import Verif.Parallel.Props
import Verif.Parallel.Weighted
import Verif.Queue.Props
import Verif.Queue.Tokens
import Verif.Queue.Pool
import Verif.Program.Props
import Verif.TrustRegion.Witness
import Verif.Strategy.LMStep
import Verif.Strategy.Subspace
import Verif.LineSearch.Interpolate
import Verif.LineSearch.Minimizer
import Verif.Evaluator.Model
import Verif.Evaluator.Layout
import Verif.Evaluator.BlockLayout
import Verif.Evaluator.DynamicThreads
import Verif.Evaluator.EvalModel
import Verif.Evaluator.Evaluate
import Verif.Evaluator.EvalProps
import Verif.Robust.Model
import Verif.Robust.Loss
import Verif.Robust.LossProps
import Verif.Robust.Corrector
import Verif.Robust.Block
import Verif.Robust.Gradient
import Verif.Sparse.Model
import Verif.Sparse.Spec
import Verif.Sparse.Products
import Verif.Sparse.Transpose
import Verif.Sparse.Rows
import Verif.Sparse.Convert
import Verif.Sparse.Dynamic
import Verif.Sparse.Triangular
import Verif.Sparse.BlockPattern
import Verif.Sparse.Examples
import Verif.Graph.Model
import Verif.Graph.Indep
import Verif.Graph.Hessian
import Verif.Graph.UnionFind
import Verif.Graph.Forest
import Verif.Graph.Groups
import Verif.Graph.Reorder
import Verif.Rotation.Model
import Verif.Rotation.Quat
import Verif.Rotation.AngleAxis
import Verif.Rotation.FromMatrix
import Verif.Rotation.Euler
import Verif.Rotation.Zero
import Verif.Manifold.Model
import Verif.Manifold.Householder
import Verif.Manifold.Sphere
import Verif.Manifold.Line
import Verif.Manifold.Quaternion
import Verif.Manifold.Subset
import Verif.Manifold.Product
import Verif.Jet.Model
import Verif.Jet.Ops
import Verif.Jet.Kinks
import Verif.Jet.Functor
import Verif.Jet.AutoDiff
import Verif.Jet.Dynamic
import Verif.Jet.Passes
import Verif.NumericDiff.Model
import Verif.NumericDiff.Spec
import Verif.NumericDiff.Blocks
import Verif.NumericDiff.Exact
import Verif.Cubic.Model
import Verif.Cubic.Kernel
import Verif.Cubic.Interp
import Verif.Cubic.Props
import Verif.TinySolver.Model
import Verif.TinySolver.Spec
import Verif.TinySolver.Props
import Verif.TinySolver.Findings
import Verif.CG.Model
import Verif.CG.Theory
import Verif.CG.Krylov
import Verif.CG.Props
import Verif.CG.Cgnr
import Verif.Schur.Model
import Verif.Schur.Spec
import Verif.Schur.Elim
import Verif.Schur.Solve
import Verif.Schur.Props
import Verif.Schur.OneF
import Verif.Schur.Examples
import Verif.Schur.ImplicitModel
import Verif.Schur.Implicit
import Verif.Detect.Model
import Verif.Detect.Props
import Verif.Driver.Model
import Verif.Driver.Props
import Verif.Driver.Memory
import Verif.Driver.Solve
import Verif.Driver.TrRun
import Verif.Driver.TrSolve
import Verif.Driver.LsRun
import Verif.Driver.LsSolve
import Verif.Driver.Witness
import Verif.Options.Model
import Verif.Options.Spec
import Verif.Options.Props
import Verif.Options.Create
import Verif.Options.Witness
import Verif.Inner.Model
import Verif.Inner.Spec
import Verif.Inner.Local
import Verif.Inner.Sweep
import Verif.Inner.Setup
import Verif.Inner.Descent
import Verif.Inner.Witness
import Verif.Cov.Model
import Verif.Cov.Layout
import Verif.Cov.Fill
import Verif.Cov.Spec
import Verif.Cov.Lookup
import Verif.Cov.Whole
import Verif.Cov.Values
import Verif.Cov.Witness
import Verif.Feasible.Model
import Verif.Feasible.Plus
import Verif.Feasible.Minimize
import Verif.Feasible.Inner
import Verif.Feasible.Solve
import Verif.Feasible.Witness
import Verif.SmallBlas.Model
import Verif.SmallBlas.Spec
import Verif.SmallBlas.Loops
import Verif.SmallBlas.Writes
import Verif.SmallBlas.Kernels
import Verif.SmallBlas.Correct
import Verif.SmallBlas.Witness
import Verif.EvalCallback.Model
import Verif.EvalCallback.Spec
import Verif.EvalCallback.Rules
import Verif.EvalCallback.Search
import Verif.EvalCallback.LineMin
import Verif.EvalCallback.TrustMin
import Verif.EvalCallback.TrustAsks
import Verif.EvalCallback.Wolfe
import Verif.EvalCallback.Props
import Verif.EvalCallback.Witness
import Verif.Session.Model
import Verif.Session.Spec
import Verif.Session.Basic
import Verif.Session.Calls
import Verif.Session.Solve
import Verif.Session.Props
import Verif.Session.Witness
import Verif.Tasks.Model
import Verif.Tasks.Discipline
import Verif.Tasks.Inv
import Verif.Tasks.Step
import Verif.Tasks.Props
import Verif.Tasks.Blocks
import Verif.Tasks.Term
import Verif.SchurThreads.Model
import Verif.SchurThreads.Layout
import Verif.SchurThreads.Ops
import Verif.SchurThreads.Body
import Verif.SchurThreads.Loops
import Verif.SchurThreads.Props
import Verif.SchurThreads.Witness
import Verif.Tasks.MinBlock
import Verif.Tasks.Weighted
import Verif.BlockSparse.Model
import Verif.BlockSparse.Spec
import Verif.BlockSparse.Transpose
import Verif.BlockSparse.Loops
import Verif.BlockSparse.Products
import Verif.BlockSparse.Scale
import Verif.BlockSparse.Races
import Verif.BlockSparse.Edit
import Verif.BlockSparse.Delete
import Verif.BlockSparse.Convert
import Verif.BlockSparse.Crs
import Verif.BlockSparse.Witness
import Verif.InnerProduct.Model
import Verif.InnerProduct.Layout
import Verif.InnerProduct.Terms
import Verif.InnerProduct.Values
import Verif.InnerProduct.Algebra
import Verif.InnerProduct.Product
import Verif.InnerProduct.Witness
import Verif.Direct.Model
import Verif.Direct.Spec
import Verif.Direct.Algebra
import Verif.Direct.Sparse
import Verif.Direct.Dense
import Verif.Direct.Qr
import Verif.Direct.Exact
import Verif.Direct.Witness
import Verif.Adapters.Model
import Verif.Adapters.Spec
import Verif.Adapters.Conditioned
import Verif.Adapters.Functor
import Verif.Adapters.Checker
import Verif.Adapters.Witness
import Verif.SchurDirect.Model
import Verif.SchurDirect.Spec
import Verif.SchurDirect.Flat
import Verif.SchurDirect.Layout
import Verif.SchurDirect.Core
import Verif.SchurDirect.Dense
import Verif.SchurDirect.SparseStore
import Verif.SchurDirect.Convert
import Verif.SchurDirect.Sparse
import Verif.SchurDirect.Witness
import Verif.GradientProblem.Model
import Verif.GradientProblem.Spec
import Verif.GradientProblem.Solve
import Verif.GradientProblem.Main
import Verif.GradientProblem.Gradient
import Verif.GradientProblem.Witness
import Verif.PartitionedView.Model
import Verif.PartitionedView.Spec
import Verif.PartitionedView.Parts
import Verif.PartitionedView.Loops
import Verif.PartitionedView.Cells
import Verif.PartitionedView.Products
import Verif.PartitionedView.Left
import Verif.PartitionedView.Layout
import Verif.PartitionedView.Gram
import Verif.PartitionedView.GramRun
import Verif.PartitionedView.Main
import Verif.PartitionedView.Witness
import Verif.PartitionedView.Calls
import Verif.PartitionedView.Invert
import Verif.PartitionedView.Inverse
import Verif.PartitionedView.Implicit
import Verif.PartitionedView.ImplicitMain
import Verif.PartitionedView.ImplicitWitness
import Verif.SchurMatrix.Spec
import Verif.SchurMatrix.Eliminated
import Verif.Visibility.Model
import Verif.Visibility.Spec
import Verif.Visibility.Points
import Verif.Visibility.CameraGraph
import Verif.Visibility.Views
import Verif.Visibility.Clusters
import Verif.Visibility.Store
import Verif.Visibility.MatrixSpec
import Verif.Visibility.Algebra
import Verif.Visibility.Scale
import Verif.Visibility.Update
import Verif.Visibility.Props
import Verif.Visibility.Witness
import Verif.SchurMatrix.Reduced
import Verif.SchurJacobi.Model
import Verif.SchurJacobi.Spec
import Verif.SchurJacobi.Diagonal
import Verif.SchurJacobi.Props
import Verif.SchurJacobi.Witness
import Verif.CG.Early
import Verif.SchurJacobi.Multiply
import Verif.SchurJacobi.ExplicitSpec
import Verif.SchurJacobi.Explicit
import Verif.SchurJacobi.ExplicitMain
import Verif.SchurJacobi.ExplicitWitness
import Verif.Cgnr.Model
import Verif.Cgnr.Spec
import Verif.Cgnr.Jacobi
import Verif.Cgnr.Subset
import Verif.Cgnr.Main
import Verif.Cgnr.Witness
import Verif.Reorder.Model
import Verif.Reorder.Sparsity
import Verif.Reorder.Structure
import Verif.Reorder.Spec
import Verif.Reorder.Groups
import Verif.Reorder.Schur
import Verif.Reorder.Lex
import Verif.Reorder.Main
import Verif.Reorder.Step
import Verif.Reorder.Witness
import Verif.Reorder.Hessian
import Verif.IterSchur.Model
import Verif.IterSchur.Power
import Verif.IterSchur.Spec
import Verif.IterSchur.Main
import Verif.IterSchur.Witness
import Verif.Reorder.Iterative
import Verif.Reorder.IterativeWitness
import Verif.CudaCgnr.Model
import Verif.CudaCgnr.Spec
import Verif.CudaCgnr.Build
import Verif.CudaCgnr.Jacobi
import Verif.CudaCgnr.Device
import Verif.CudaCgnr.Main
import Verif.CudaCgnr.Evaluator
import Verif.CudaCgnr.Witness
import Verif.CrsView.Buffer
import Verif.CrsView.Protocol
import Verif.CrsView.Copy
import Verif.CrsView.Model
import Verif.CrsView.Layout
import Verif.CrsView.Arrays
import Verif.CrsView.Permute
import Verif.CrsView.Main
import Verif.CrsView.Partitioned
import Verif.CrsView.Empty
import Verif.CrsView.Witness
import Verif.Summary.Model
import Verif.Summary.Spec
import Verif.Summary.Props
import Verif.Summary.Schur
import Verif.Summary.Stats
import Verif.Summary.Witness
import Verif.Names.Model
import Verif.Names.Spec
import Verif.Names.Props
import Verif.Names.Witness
import Verif.Overflow.Model
import Verif.Overflow.Block
import Verif.Overflow.Rows
import Verif.Overflow.Witness
import Verif.Sparse.Dense
import Verif.Bounds.Model
import Verif.Bounds.Props
import Verif.Bounds.History
import Verif.Bounds.Witness
import Verif.CApi.Model
import Verif.CApi.Spec
import Verif.CApi.Props
import Verif.CApi.Witness
