import Verif.Options.Model
import Mathlib.Order.WithBot

/-! # What valid options are

The documented conditions (solver.h:60-700, docs/source/nnls_solving.rst), written as
mathematics on extended rationals instead of as a sequence of tests, and arranged by feature
instead of by solver. -/

namespace Ceres.Options

/-- The extended number a double denotes; NaN denotes none. -/
def Dbl.val : Dbl → Option (WithBot (WithTop ℚ))
  | .nan => none
  | .ninf => some ⊥
  | .fin q => some ((q : WithTop ℚ) : WithBot (WithTop ℚ))
  | .pinf => some ((⊤ : WithTop ℚ) : WithBot (WithTop ℚ))

/-- Both are numbers and the first is at most the second. -/
def Dbl.Le (x y : Dbl) : Prop := ∃ a ∈ x.val, ∃ b ∈ y.val, a ≤ b

/-- Both are numbers and the first is less than the second. -/
def Dbl.Lt (x y : Dbl) : Prop := ∃ a ∈ x.val, ∃ b ∈ y.val, a < b

/-- Options common to all minimizers. -/
structure CommonValid (o : Opts) : Prop where
  iterations : 0 ≤ o.maxNumIterations
  time : (Dbl.fin 0).Le o.maxSolverTime
  function : (Dbl.fin 0).Le o.functionTolerance
  gradient : (Dbl.fin 0).Le o.gradientTolerance
  parameter : (Dbl.fin 0).Le o.parameterTolerance
  threads : 1 ≤ o.numThreads
  gradientCheck : o.checkGradients = true →
    (Dbl.fin 0).Lt o.gradientCheckRelativePrecision ∧
      (Dbl.fin 0).Lt o.gradientCheckRelativeStepSize

/-- The sparse matrix library can factorize matrices in this build. -/
def CanFactor (b : Build) : SparseLib → Prop
  | .SUITE_SPARSE => b.suiteSparse = true
  | .EIGEN_SPARSE => b.eigenSparse = true
  | .ACCELERATE_SPARSE => b.accelerate = true
  | .CUDA_SPARSE => b.cuda = true ∧ b.cudss = true
  | .NO_SPARSE => False

/-- The sparse matrix library can do nested dissection in this build. -/
def CanNesdis (b : Build) : SparseLib → Prop
  | .SUITE_SPARSE => b.suiteSparse = true ∧ b.suiteSparseNesdis = true
  | .EIGEN_SPARSE => b.eigenSparse = true ∧ b.eigenMetis = true
  | .ACCELERATE_SPARSE => True
  | _ => False

/-- The dense library is part of this build. -/
def HasDense (b : Build) : DenseLib → Prop
  | .EIGEN => True
  | .LAPACK => b.lapack = true
  | .CUDA => b.cuda = true

/-- The combinations which factorize a dense matrix. -/
def UsesDense (o : Opts) : Prop :=
  o.linearSolver = .DENSE_NORMAL_CHOLESKY ∨ o.linearSolver = .DENSE_QR ∨
    o.linearSolver = .DENSE_SCHUR

/-- The combinations which factorize a sparse matrix. -/
def UsesSparseCholesky (o : Opts) : Prop :=
  o.linearSolver = .SPARSE_NORMAL_CHOLESKY ∨ o.linearSolver = .SPARSE_SCHUR ∨
    (o.linearSolver = .ITERATIVE_SCHUR ∧
      (o.preconditioner = .CLUSTER_JACOBI ∨ o.preconditioner = .CLUSTER_TRIDIAGONAL)) ∨
    (o.linearSolver = .CGNR ∧ o.preconditioner = .SUBSET)

/-- The solver, its preconditioner and the libraries fit together. -/
structure LinearSolverValid (b : Build) (o : Opts) : Prop where
  dense : UsesDense o → HasDense b o.denseLib
  sparse : UsesSparseCholesky o → CanFactor b o.sparseLib
  nesdis : UsesSparseCholesky o → o.ordering = .NESDIS → CanNesdis b o.sparseLib
  /-- mixed precision is for Cholesky factorizations of the (reduced) normal equations … -/
  mixed : o.mixedPrecision = true →
    o.linearSolver = .DENSE_NORMAL_CHOLESKY ∨ o.linearSolver = .SPARSE_NORMAL_CHOLESKY ∨
      o.linearSolver = .DENSE_SCHUR ∨ o.linearSolver = .SPARSE_SCHUR
  /-- … and needs the single precision routines of SuiteSparse if that is used -/
  mixedSuite : o.mixedPrecision = true → UsesSparseCholesky o →
    o.sparseLib = .SUITE_SPARSE → b.cholmodFloat = true
  /-- dynamic sparsity is for SPARSE_NORMAL_CHOLESKY; the solvers with dense Jacobians ignore
  it -/
  dynamic : o.dynamicSparsity = true →
    o.linearSolver = .SPARSE_NORMAL_CHOLESKY ∧ o.sparseLib ≠ .ACCELERATE_SPARSE ∨
      o.linearSolver = .DENSE_QR ∨ o.linearSolver = .DENSE_NORMAL_CHOLESKY
  explicitSchur : o.linearSolver = .ITERATIVE_SCHUR → o.explicitSchur = true →
    o.preconditioner = .SCHUR_JACOBI ∧ o.spseInitialization = false
  spse : o.linearSolver = .ITERATIVE_SCHUR →
    (o.spseInitialization = true ∨ o.preconditioner = .SCHUR_POWER_SERIES_EXPANSION) →
    1 ≤ o.maxSpseIterations ∧ (Dbl.fin 0).Le o.spseTolerance
  schurPreconditioner : o.linearSolver = .ITERATIVE_SCHUR → o.preconditioner ≠ .SUBSET
  cgnrPreconditioner : o.linearSolver = .CGNR →
    o.preconditioner = .IDENTITY ∨ o.preconditioner = .JACOBI ∨ o.preconditioner = .SUBSET
  subset : o.linearSolver = .CGNR → o.preconditioner = .SUBSET →
    o.subsetResidualBlocks ≠ [] ∧ o.sparseLib ≠ .CUDA_SPARSE
  cgnrCuda : o.linearSolver = .CGNR → o.sparseLib = .CUDA_SPARSE → b.cuda = true
  dogleg : o.strategy = .DOGLEG → o.linearSolver ≠ .CGNR ∧ o.linearSolver ≠ .ITERATIVE_SCHUR

/-- Options of the trust region minimizer. -/
structure TrustRegionValid (b : Build) (o : Opts) : Prop where
  minRadius : (Dbl.fin 0).Lt o.minRadius
  minInitial : o.minRadius.Le o.initialRadius
  initialMax : o.initialRadius.Le o.maxRadius
  relativeDecrease : (Dbl.fin 0).Le o.minRelativeDecrease
  minDiagonal : (Dbl.fin 0).Le o.minLmDiagonal
  minMaxDiagonal : o.minLmDiagonal.Le o.maxLmDiagonal
  invalidSteps : 0 ≤ o.maxConsecutiveInvalidSteps
  eta : (Dbl.fin 0).Lt o.eta
  minIterations : 0 ≤ o.minLinearSolverIterations
  minMaxIterations : o.minLinearSolverIterations ≤ o.maxLinearSolverIterations
  inner : o.useInnerIterations = true → (Dbl.fin 0).Le o.innerIterationTolerance
  nonmonotonic : o.useNonmonotonicSteps = true → 1 ≤ o.maxConsecutiveNonmonotonicSteps
  solver : LinearSolverValid b o
  dump : o.iterationsToDump ≠ [] → o.dumpFormat ≠ .CONSOLE → o.dumpDirectory ≠ ""

/-- Options of the line search. -/
structure LineSearchValid (o : Opts) : Prop where
  rank : 1 ≤ o.maxLbfgsRank
  minStep : (Dbl.fin 0).Lt o.minStepSize
  maxContraction : (Dbl.fin 0).Lt o.maxStepContraction
  contraction : o.maxStepContraction.Lt o.minStepContraction
  /-- documented as `< 1` (solver.h:174-188), tested as `≤ 1` (solver.cc:462) -/
  minContraction : o.minStepContraction.Le (.fin 1)
  iterations : 0 ≤ o.maxStepSizeIterations
  iterationsLineSearch : o.minimizerType = .LINE_SEARCH → 1 ≤ o.maxStepSizeIterations
  decrease : (Dbl.fin 0).Lt o.sufficientFunctionDecrease
  decreaseCurvature : o.sufficientFunctionDecrease.Lt o.sufficientCurvatureDecrease
  curvature : o.sufficientCurvatureDecrease.Lt (.fin 1)
  expansion : (Dbl.fin 1).Lt o.maxStepExpansion
  wolfe : o.direction = .BFGS ∨ o.direction = .LBFGS → o.lineSearch = .WOLFE

/-- Valid options. -/
structure Valid (b : Build) (o : Opts) : Prop where
  common : CommonValid o
  trustRegion : o.minimizerType = .TRUST_REGION → TrustRegionValid b o
  lineSearch : LineSearchValid o

/-- The comparison an error message quotes, on extended numbers. -/
def Op.Holds : Op → Dbl → Dbl → Prop
  | .ge, x, y => y.Le x
  | .gt, x, y => y.Lt x
  | .le, x, y => x.Le y
  | .lt, x, y => x.Lt y

/-- What an error message says about the options. -/
def Err.Says (b : Build) (o : Opts) : Err → Prop
  | .range x op y => ¬op.Holds (x.value o) (y.value o)
  | .noDenseLibrary => UsesDense o ∧ ¬HasDense b o.denseLib
  | .noSparse => UsesSparseCholesky o ∧ o.sparseLib = .NO_SPARSE
  | .noSparseLibrary => UsesSparseCholesky o ∧ ¬CanFactor b o.sparseLib
  | .noNesdis => UsesSparseCholesky o ∧ o.ordering = .NESDIS ∧ ¬CanNesdis b o.sparseLib
  | .noCholmodFloat => UsesSparseCholesky o ∧ o.mixedPrecision = true ∧
      o.sparseLib = .SUITE_SPARSE ∧ b.cholmodFloat = false
  | .accelerateDynamicSparsity => o.dynamicSparsity = true ∧ o.sparseLib = .ACCELERATE_SPARSE
  | .noMixedPrecision => o.mixedPrecision = true ∧
      (o.linearSolver = .DENSE_QR ∨ o.linearSolver = .ITERATIVE_SCHUR ∨ o.linearSolver = .CGNR)
  | .noDynamicSparsity => o.dynamicSparsity = true ∧ o.linearSolver ≠ .SPARSE_NORMAL_CHOLESKY
  | .explicitSchurPreconditioner => o.explicitSchur = true ∧ o.preconditioner ≠ .SCHUR_JACOBI
  | .explicitSchurSpse => o.explicitSchur = true ∧ o.spseInitialization = true
  | .subsetWithIterativeSchur => o.linearSolver = .ITERATIVE_SCHUR ∧ o.preconditioner = .SUBSET
  | .cgnrPreconditioner => o.linearSolver = .CGNR ∧
      ¬(o.preconditioner = .IDENTITY ∨ o.preconditioner = .JACOBI ∨ o.preconditioner = .SUBSET)
  | .subsetWithCuda => o.preconditioner = .SUBSET ∧ o.sparseLib = .CUDA_SPARSE
  | .subsetEmpty => o.preconditioner = .SUBSET ∧ o.subsetResidualBlocks = []
  | .cgnrNoCuda => o.linearSolver = .CGNR ∧ o.sparseLib = .CUDA_SPARSE ∧ b.cuda = false
  | .doglegIterative => o.strategy = .DOGLEG ∧
      (o.linearSolver = .CGNR ∨ o.linearSolver = .ITERATIVE_SCHUR)
  | .noDumpDirectory => o.iterationsToDump ≠ [] ∧ o.dumpDirectory = ""
  | .bfgsNeedsWolfe => (o.direction = .BFGS ∨ o.direction = .LBFGS) ∧ o.lineSearch ≠ .WOLFE

/-- The options with which an accepted configuration is not carried out: the lower end of the
range for the trust region strategies, and two combinations of `ITERATIVE_SCHUR` when no e block
is left. -/
def Unsupported (o : Opts) (noE : Bool) : Prop :=
  o.minLmDiagonal = .fin 0 ∨
    (noE = true ∧ o.linearSolver = .ITERATIVE_SCHUR ∧
      (o.preconditioner = .SCHUR_POWER_SERIES_EXPANSION ∨
        (o.sparseLib = .CUDA_SPARSE ∧
          o.preconditioner ≠ .CLUSTER_JACOBI ∧ o.preconditioner ≠ .CLUSTER_TRIDIAGONAL)))

end Ceres.Options
