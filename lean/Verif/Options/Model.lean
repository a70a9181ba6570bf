import Mathlib.Data.Rat.Defs
import Mathlib.Algebra.Order.Ring.Rat

/-! # Validation of `Solver::Options` and what is built from accepted options

Models `Solver::Options::IsValid` (solver.cc:68-501, 714-730), the library availability
functions (types.cc:398-464), `IsCudaRequired` (solver.cc:694-709) and the code which turns
accepted options into objects: the switch of solver when no e block is left
(trust_region_preprocessor.cc:79-111), the choice of ordering and the solver factory
(trust_region_preprocessor.cc:157-261, linear_solver.cc:51-128), the factories of the
factorizations (sparse_cholesky.cc:46-119, dense_cholesky.cc:84-137, dense_qr.cc:118-148), the
preconditioners (cgnr_solver.cc:125-173, iterative_schur_complement_solver.cc:159-199), the
evaluator's Jacobian type (evaluator.cc:53-99) and the constructors of the trust region
strategies (levenberg_marquardt_strategy.cc:50-65, dogleg_strategy.cc:54-73).

Simplifications: a `double` is a rational number, an infinity or NaN (every finite double is a
rational; comparison of doubles is exact); an option of type `int` is compared as a rational.
Enumerations hold one of their declared values.  The text of an error is replaced by a value
which carries the same information. -/

namespace Ceres.Options

/-- A `double`. -/
inductive Dbl where
  | nan
  | ninf
  | fin (q : ℚ)
  | pinf
deriving DecidableEq

/-- `x <= y` on doubles: false if one of them is NaN. -/
def Dbl.le : Dbl → Dbl → Bool
  | .nan, _ => false
  | _, .nan => false
  | .ninf, _ => true
  | _, .pinf => true
  | .fin a, .fin b => decide (a ≤ b)
  | _, _ => false

/-- `x < y` on doubles: false if one of them is NaN. -/
def Dbl.lt : Dbl → Dbl → Bool
  | .nan, _ => false
  | _, .nan => false
  | .ninf, .ninf => false
  | .ninf, _ => true
  | .pinf, _ => false
  | _, .pinf => true
  | .fin a, .fin b => decide (a < b)
  | _, _ => false

/-- `LinearSolverType` (types.h:57-91). -/
inductive LinearSolverType where
  | DENSE_NORMAL_CHOLESKY | DENSE_QR | SPARSE_NORMAL_CHOLESKY | DENSE_SCHUR | SPARSE_SCHUR
  | ITERATIVE_SCHUR | CGNR
deriving DecidableEq

/-- `PreconditionerType` (types.h:93-141). -/
inductive PreconditionerType where
  | IDENTITY | JACOBI | SCHUR_JACOBI | SCHUR_POWER_SERIES_EXPANSION | CLUSTER_JACOBI
  | CLUSTER_TRIDIAGONAL | SUBSET
deriving DecidableEq

/-- `SparseLinearAlgebraLibraryType` (types.h:166-185). -/
inductive SparseLib where
  | SUITE_SPARSE | EIGEN_SPARSE | ACCELERATE_SPARSE | CUDA_SPARSE | NO_SPARSE
deriving DecidableEq

/-- `DenseLinearAlgebraLibraryType` (types.h:211-215). -/
inductive DenseLib where
  | EIGEN | LAPACK | CUDA
deriving DecidableEq

/-- `LinearSolverOrderingType` (types.h:204-209). -/
inductive OrderingType where
  | AMD | NESDIS
deriving DecidableEq

/-- `MinimizerType` (types.h:224-227). -/
inductive MinimizerType where
  | LINE_SEARCH | TRUST_REGION
deriving DecidableEq

/-- `LineSearchDirectionType` (types.h:229-301). -/
inductive DirectionType where
  | STEEPEST_DESCENT | NONLINEAR_CONJUGATE_GRADIENT | LBFGS | BFGS
deriving DecidableEq

/-- `LineSearchType` (types.h:309-316). -/
inductive LineSearchType where
  | ARMIJO | WOLFE
deriving DecidableEq

/-- `TrustRegionStrategyType` (types.h:318-346). -/
inductive StrategyType where
  | LEVENBERG_MARQUARDT | DOGLEG
deriving DecidableEq

/-- `DumpFormatType` (types.h:419-438). -/
inductive DumpFormat where
  | CONSOLE | TEXTFILE
deriving DecidableEq

/-- How the library was built: the macros tested by the code
(cmake/config.h.in:36-68). -/
structure Build where
  /-- not `CERES_NO_SUITESPARSE` -/
  suiteSparse : Bool
  /-- `SuiteSparse::IsNestedDissectionAvailable()` (suitesparse.h:211) -/
  suiteSparseNesdis : Bool
  /-- not `CERES_NO_CHOLMOD_FLOAT` -/
  cholmodFloat : Bool
  /-- not `CERES_NO_ACCELERATE_SPARSE` -/
  accelerate : Bool
  /-- `CERES_USE_EIGEN_SPARSE` -/
  eigenSparse : Bool
  /-- not `CERES_NO_EIGEN_METIS` -/
  eigenMetis : Bool
  /-- not `CERES_NO_LAPACK` -/
  lapack : Bool
  /-- not `CERES_NO_CUDA` -/
  cuda : Bool
  /-- not `CERES_NO_CUDSS` -/
  cudss : Bool
deriving DecidableEq

/-- `Solver::Options` (solver.h:60-700), the fields which `IsValid` looks at. -/
structure Opts where
  minimizerType : MinimizerType
  -- common
  maxNumIterations : ℤ
  maxSolverTime : Dbl
  functionTolerance : Dbl
  gradientTolerance : Dbl
  parameterTolerance : Dbl
  numThreads : ℤ
  checkGradients : Bool
  gradientCheckRelativePrecision : Dbl
  gradientCheckRelativeStepSize : Dbl
  -- trust region
  strategy : StrategyType
  initialRadius : Dbl
  minRadius : Dbl
  maxRadius : Dbl
  minRelativeDecrease : Dbl
  minLmDiagonal : Dbl
  maxLmDiagonal : Dbl
  maxConsecutiveInvalidSteps : ℤ
  eta : Dbl
  minLinearSolverIterations : ℤ
  maxLinearSolverIterations : ℤ
  useInnerIterations : Bool
  innerIterationTolerance : Dbl
  useNonmonotonicSteps : Bool
  maxConsecutiveNonmonotonicSteps : ℤ
  /-- `trust_region_minimizer_iterations_to_dump` -/
  iterationsToDump : List ℤ
  dumpFormat : DumpFormat
  dumpDirectory : String
  -- linear solver
  linearSolver : LinearSolverType
  preconditioner : PreconditionerType
  sparseLib : SparseLib
  denseLib : DenseLib
  ordering : OrderingType
  dynamicSparsity : Bool
  mixedPrecision : Bool
  explicitSchur : Bool
  spseInitialization : Bool
  maxSpseIterations : ℤ
  spseTolerance : Dbl
  /-- `residual_blocks_for_subset_preconditioner` -/
  subsetResidualBlocks : List ℕ
  -- line search
  direction : DirectionType
  lineSearch : LineSearchType
  maxLbfgsRank : ℤ
  minStepSize : Dbl
  maxStepContraction : Dbl
  minStepContraction : Dbl
  maxStepSizeIterations : ℤ
  sufficientFunctionDecrease : Dbl
  sufficientCurvatureDecrease : Dbl
  maxStepExpansion : Dbl

/-- `CERES_NO_SPARSE` (cmake/config.h.in:62-68). -/
def Build.noSparse (b : Build) : Bool :=
  !b.suiteSparse && !b.accelerate && !b.cudss && !b.eigenSparse

/-- A default-constructed `Solver::Options` (solver.h:90-784). -/
def defaults (b : Build) : Opts where
  minimizerType := .TRUST_REGION
  maxNumIterations := 50
  maxSolverTime := .fin (10 ^ 9)
  functionTolerance := .fin (1 / 10 ^ 6)
  gradientTolerance := .fin (1 / 10 ^ 10)
  parameterTolerance := .fin (1 / 10 ^ 8)
  numThreads := 1
  checkGradients := false
  gradientCheckRelativePrecision := .fin (1 / 10 ^ 8)
  gradientCheckRelativeStepSize := .fin (1 / 10 ^ 6)
  strategy := .LEVENBERG_MARQUARDT
  initialRadius := .fin (10 ^ 4)
  minRadius := .fin (1 / 10 ^ 32)
  maxRadius := .fin (10 ^ 16)
  minRelativeDecrease := .fin (1 / 10 ^ 3)
  minLmDiagonal := .fin (1 / 10 ^ 6)
  maxLmDiagonal := .fin (10 ^ 32)
  maxConsecutiveInvalidSteps := 5
  eta := .fin (1 / 10)
  minLinearSolverIterations := 0
  maxLinearSolverIterations := 500
  useInnerIterations := false
  innerIterationTolerance := .fin (1 / 10 ^ 3)
  useNonmonotonicSteps := false
  maxConsecutiveNonmonotonicSteps := 5
  iterationsToDump := []
  dumpFormat := .TEXTFILE
  dumpDirectory := "/tmp"
  linearSolver := if b.noSparse then .DENSE_QR else .SPARSE_NORMAL_CHOLESKY
  preconditioner := .JACOBI
  sparseLib :=
    if b.suiteSparse then .SUITE_SPARSE
    else if b.accelerate then .ACCELERATE_SPARSE
    else if b.eigenSparse then .EIGEN_SPARSE
    else .NO_SPARSE
  denseLib := .EIGEN
  ordering := .AMD
  dynamicSparsity := false
  mixedPrecision := false
  explicitSchur := false
  spseInitialization := false
  maxSpseIterations := 5
  spseTolerance := .fin (1 / 10)
  subsetResidualBlocks := []
  direction := .LBFGS
  lineSearch := .WOLFE
  maxLbfgsRank := 20
  minStepSize := .fin (1 / 10 ^ 9)
  maxStepContraction := .fin (1 / 10 ^ 3)
  minStepContraction := .fin (6 / 10)
  maxStepSizeIterations := 20
  sufficientFunctionDecrease := .fin (1 / 10 ^ 4)
  sufficientCurvatureDecrease := .fin (9 / 10)
  maxStepExpansion := .fin 10

/-! ### Errors -/

/-- The options which appear in a range check. -/
inductive Field where
  | maxNumIterations | maxSolverTime | functionTolerance | gradientTolerance
  | parameterTolerance | numThreads | gradientCheckRelativePrecision
  | gradientCheckRelativeStepSize | initialRadius | minRadius | maxRadius
  | minRelativeDecrease | minLmDiagonal | maxLmDiagonal | maxConsecutiveInvalidSteps | eta
  | minLinearSolverIterations | maxLinearSolverIterations | innerIterationTolerance
  | maxConsecutiveNonmonotonicSteps | maxSpseIterations | spseTolerance | maxLbfgsRank
  | minStepSize | maxStepContraction | minStepContraction | maxStepSizeIterations
  | sufficientFunctionDecrease | sufficientCurvatureDecrease | maxStepExpansion
deriving DecidableEq

/-- The value of an option. -/
def Field.value (o : Opts) : Field → Dbl
  | .maxNumIterations => .fin o.maxNumIterations
  | .maxSolverTime => o.maxSolverTime
  | .functionTolerance => o.functionTolerance
  | .gradientTolerance => o.gradientTolerance
  | .parameterTolerance => o.parameterTolerance
  | .numThreads => .fin o.numThreads
  | .gradientCheckRelativePrecision => o.gradientCheckRelativePrecision
  | .gradientCheckRelativeStepSize => o.gradientCheckRelativeStepSize
  | .initialRadius => o.initialRadius
  | .minRadius => o.minRadius
  | .maxRadius => o.maxRadius
  | .minRelativeDecrease => o.minRelativeDecrease
  | .minLmDiagonal => o.minLmDiagonal
  | .maxLmDiagonal => o.maxLmDiagonal
  | .maxConsecutiveInvalidSteps => .fin o.maxConsecutiveInvalidSteps
  | .eta => o.eta
  | .minLinearSolverIterations => .fin o.minLinearSolverIterations
  | .maxLinearSolverIterations => .fin o.maxLinearSolverIterations
  | .innerIterationTolerance => o.innerIterationTolerance
  | .maxConsecutiveNonmonotonicSteps => .fin o.maxConsecutiveNonmonotonicSteps
  | .maxSpseIterations => .fin o.maxSpseIterations
  | .spseTolerance => o.spseTolerance
  | .maxLbfgsRank => .fin o.maxLbfgsRank
  | .minStepSize => o.minStepSize
  | .maxStepContraction => o.maxStepContraction
  | .minStepContraction => o.minStepContraction
  | .maxStepSizeIterations => .fin o.maxStepSizeIterations
  | .sufficientFunctionDecrease => o.sufficientFunctionDecrease
  | .sufficientCurvatureDecrease => o.sufficientCurvatureDecrease
  | .maxStepExpansion => o.maxStepExpansion

/-- The comparison operators of the macros (solver.cc:92-97). -/
inductive Op where
  | ge | gt | le | lt
deriving DecidableEq

/-- The right hand side of a check: a literal or another option. -/
inductive Rhs where
  | lit (q : ℚ)
  | field (f : Field)
deriving DecidableEq

/-- Why options are refused. -/
inductive Err where
  /-- "Violated constraint: Solver::Options::x OP y" (solver.cc:68-90) -/
  | range (x : Field) (op : Op) (y : Rhs)
  /-- dense library not built in (solver.cc:136-144) -/
  | noDenseLibrary
  /-- NO_SPARSE with something that factorizes sparse matrices (solver.cc:170-173) -/
  | noSparse
  /-- sparse library not built in (solver.cc:175-186) -/
  | noSparseLibrary
  /-- NESDIS not available (solver.cc:188-193) -/
  | noNesdis
  /-- no single precision SuiteSparse (solver.cc:195-204) -/
  | noCholmodFloat
  /-- ACCELERATE_SPARSE cannot do dynamic sparsity (solver.cc:206-210) -/
  | accelerateDynamicSparsity
  /-- mixed precision with a solver that has none (solver.cc:229-232, 298-301, 336-339) -/
  | noMixedPrecision
  /-- dynamic sparsity with another solver (solver.cc:247-250, 262-265, 272-275, 341-344) -/
  | noDynamicSparsity
  /-- explicit Schur complement without SCHUR_JACOBI (solver.cc:278-283) -/
  | explicitSchurPreconditioner
  /-- explicit Schur complement with power series initialization (solver.cc:284-289) -/
  | explicitSchurSpse
  /-- SUBSET with ITERATIVE_SCHUR (solver.cc:308-311) -/
  | subsetWithIterativeSchur
  /-- preconditioner not supported by CGNR (solver.cc:327-334) -/
  | cgnrPreconditioner
  /-- SUBSET with CUDA_SPARSE (solver.cc:347-352) -/
  | subsetWithCuda
  /-- SUBSET without residual blocks (solver.cc:354-359) -/
  | subsetEmpty
  /-- CGNR on a GPU without CUDA (solver.cc:368-375) -/
  | cgnrNoCuda
  /-- DOGLEG with an iterative solver (solver.cc:431-438) -/
  | doglegIterative
  /-- nowhere to dump to (solver.cc:444-449) -/
  | noDumpDirectory
  /-- (L)BFGS without WOLFE (solver.cc:471-482) -/
  | bfgsNeedsWolfe
deriving DecidableEq

def Rhs.value (o : Opts) : Rhs → Dbl
  | .lit q => .fin q
  | .field f => f.value o

def Op.holds : Op → Dbl → Dbl → Bool
  | .ge, x, y => y.le x
  | .gt, x, y => y.lt x
  | .le, x, y => x.le y
  | .lt, x, y => x.lt y

/-- `OPTION_OP` and `OPTION_OP_OPTION` (solver.cc:68-90): `if (!(x OP y)) return false`. -/
def check (o : Opts) (x : Field) (op : Op) (y : Rhs) : Except Err Unit :=
  if op.holds (x.value o) (y.value o) then .ok () else .error (.range x op y)

/-- `if (cond) { *error = …; return false; }`. -/
def refuse (cond : Bool) (e : Err) : Except Err Unit :=
  if cond then .error e else .ok ()

/-- `if (cond) { checks }`. -/
def onlyIf (cond : Bool) (c : Except Err Unit) : Except Err Unit :=
  if cond then c else .ok ()

/-! ### Availability -/

/-- `IsSparseLinearAlgebraLibraryTypeAvailable` (types.cc:398-438). -/
def sparseAvailable (b : Build) : SparseLib → Bool
  | .SUITE_SPARSE => b.suiteSparse
  | .ACCELERATE_SPARSE => b.accelerate
  | .EIGEN_SPARSE => b.eigenSparse
  | .CUDA_SPARSE => b.cuda
  | .NO_SPARSE => true

/-- `IsDenseLinearAlgebraLibraryTypeAvailable` (types.cc:440-464). -/
def denseAvailable (b : Build) : DenseLib → Bool
  | .EIGEN => true
  | .LAPACK => b.lapack
  | .CUDA => b.cuda

/-- `IsNestedDissectionAvailable` (solver.cc:113-124): cuDSS answers false
(cuda_sparse_cholesky.h:56); without the library the stub class answers false
(suitesparse.h:310, eigensparse.h:104). -/
def nesdisAvailable (b : Build) : SparseLib → Bool
  | .SUITE_SPARSE => b.suiteSparse && b.suiteSparseNesdis
  | .ACCELERATE_SPARSE => true
  | .EIGEN_SPARSE => b.eigenSparse && b.eigenMetis
  | .CUDA_SPARSE => false
  | .NO_SPARSE => false

/-- `IsIterativeSolver` (solver.cc:126-128). -/
def isIterative (t : LinearSolverType) : Bool :=
  t == .CGNR || t == .ITERATIVE_SCHUR

/-! ### The checks -/

/-- `CommonOptionsAreValid` (solver.cc:99-111). -/
def commonValid (o : Opts) : Except Err Unit := do
  check o .maxNumIterations .ge (.lit 0)
  check o .maxSolverTime .ge (.lit 0)
  check o .functionTolerance .ge (.lit 0)
  check o .gradientTolerance .ge (.lit 0)
  check o .parameterTolerance .ge (.lit 0)
  check o .numThreads .gt (.lit 0)
  onlyIf o.checkGradients do
    check o .gradientCheckRelativePrecision .gt (.lit 0)
    check o .gradientCheckRelativeStepSize .gt (.lit 0)

/-- `OptionsAreValidForDenseSolver` (solver.cc:130-146). -/
def denseSolverValid (b : Build) (o : Opts) : Except Err Unit :=
  refuse (!denseAvailable b o.denseLib) .noDenseLibrary

/-- The part of the next function about the library (solver.cc:175-186). -/
def sparseLibraryValid (b : Build) (o : Opts) : Except Err Unit :=
  if sparseAvailable b o.sparseLib then
    refuse (o.sparseLib == .CUDA_SPARSE && !b.cudss) .noSparseLibrary
  else
    .error .noSparseLibrary

/-- `OptionsAreValidForSparseCholeskyBasedSolver` (solver.cc:148-213). -/
def sparseCholeskyValid (b : Build) (o : Opts) : Except Err Unit := do
  refuse (o.sparseLib == .NO_SPARSE) .noSparse
  sparseLibraryValid b o
  refuse (o.ordering == .NESDIS && !nesdisAvailable b o.sparseLib) .noNesdis
  refuse (!b.cholmodFloat && o.mixedPrecision && o.sparseLib == .SUITE_SPARSE) .noCholmodFloat
  refuse (o.dynamicSparsity && o.sparseLib == .ACCELERATE_SPARSE) .accelerateDynamicSparsity

/-- `OptionsAreValidForDenseQr` (solver.cc:221-235). -/
def denseQrValid (b : Build) (o : Opts) : Except Err Unit := do
  denseSolverValid b o
  refuse o.mixedPrecision .noMixedPrecision

/-- `OptionsAreValidForDenseSchur` (solver.cc:243-257). -/
def denseSchurValid (b : Build) (o : Opts) : Except Err Unit := do
  refuse o.dynamicSparsity .noDynamicSparsity
  denseSolverValid b o

/-- `OptionsAreValidForSparseSchur` (solver.cc:259-267). -/
def sparseSchurValid (b : Build) (o : Opts) : Except Err Unit := do
  refuse o.dynamicSparsity .noDynamicSparsity
  sparseCholeskyValid b o

/-- `OptionsAreValidForIterativeSchur` (solver.cc:269-321).  The second check of
`dynamic_sparsity` (303-306) is kept. -/
def iterativeSchurValid (b : Build) (o : Opts) : Except Err Unit := do
  refuse o.dynamicSparsity .noDynamicSparsity
  onlyIf o.explicitSchur do
    refuse (o.preconditioner != .SCHUR_JACOBI) .explicitSchurPreconditioner
    refuse o.spseInitialization .explicitSchurSpse
  onlyIf (o.spseInitialization || o.preconditioner == .SCHUR_POWER_SERIES_EXPANSION) do
    check o .maxSpseIterations .ge (.lit 1)
    check o .spseTolerance .ge (.lit 0)
  refuse o.mixedPrecision .noMixedPrecision
  refuse o.dynamicSparsity .noDynamicSparsity
  refuse (o.preconditioner == .SUBSET) .subsetWithIterativeSchur
  onlyIf (o.preconditioner == .CLUSTER_JACOBI || o.preconditioner == .CLUSTER_TRIDIAGONAL)
    (sparseCholeskyValid b o)

/-- `OptionsAreValidForCgnr` (solver.cc:323-377). -/
def cgnrValid (b : Build) (o : Opts) : Except Err Unit := do
  refuse (o.preconditioner != .IDENTITY && o.preconditioner != .JACOBI &&
    o.preconditioner != .SUBSET) .cgnrPreconditioner
  refuse o.mixedPrecision .noMixedPrecision
  refuse o.dynamicSparsity .noDynamicSparsity
  onlyIf (o.preconditioner == .SUBSET) do
    refuse (o.sparseLib == .CUDA_SPARSE) .subsetWithCuda
    refuse o.subsetResidualBlocks.isEmpty .subsetEmpty
    sparseCholeskyValid b o
  onlyIf (o.sparseLib == .CUDA_SPARSE) do
    refuse (!sparseAvailable b .CUDA_SPARSE) .cgnrNoCuda

/-- `OptionsAreValidForLinearSolver` (solver.cc:215-219, 237-241, 379-403). -/
def linearSolverValid (b : Build) (o : Opts) : Except Err Unit :=
  match o.linearSolver with
  | .DENSE_NORMAL_CHOLESKY => denseSolverValid b o
  | .DENSE_QR => denseQrValid b o
  | .SPARSE_NORMAL_CHOLESKY => sparseCholeskyValid b o
  | .DENSE_SCHUR => denseSchurValid b o
  | .SPARSE_SCHUR => sparseSchurValid b o
  | .ITERATIVE_SCHUR => iterativeSchurValid b o
  | .CGNR => cgnrValid b o

/-- `TrustRegionOptionsAreValid` (solver.cc:405-452). -/
def trustRegionValid (b : Build) (o : Opts) : Except Err Unit := do
  check o .initialRadius .gt (.lit 0)
  check o .minRadius .gt (.lit 0)
  check o .maxRadius .gt (.lit 0)
  check o .minRadius .le (.field .maxRadius)
  check o .minRadius .le (.field .initialRadius)
  check o .initialRadius .le (.field .maxRadius)
  check o .minRelativeDecrease .ge (.lit 0)
  check o .minLmDiagonal .ge (.lit 0)
  check o .maxLmDiagonal .ge (.lit 0)
  check o .minLmDiagonal .le (.field .maxLmDiagonal)
  check o .maxConsecutiveInvalidSteps .ge (.lit 0)
  check o .eta .gt (.lit 0)
  check o .minLinearSolverIterations .ge (.lit 0)
  check o .maxLinearSolverIterations .ge (.lit 0)
  check o .minLinearSolverIterations .le (.field .maxLinearSolverIterations)
  onlyIf o.useInnerIterations (check o .innerIterationTolerance .ge (.lit 0))
  onlyIf o.useNonmonotonicSteps (check o .maxConsecutiveNonmonotonicSteps .gt (.lit 0))
  refuse (o.strategy == .DOGLEG && isIterative o.linearSolver) .doglegIterative
  linearSolverValid b o
  refuse (!o.iterationsToDump.isEmpty && o.dumpFormat != .CONSOLE && o.dumpDirectory.isEmpty)
    .noDumpDirectory

/-- `LineSearchOptionsAreValid` (solver.cc:454-501), without the warning about bisection. -/
def lineSearchValid (o : Opts) : Except Err Unit := do
  check o .maxLbfgsRank .gt (.lit 0)
  check o .minStepSize .gt (.lit 0)
  check o .maxStepContraction .gt (.lit 0)
  check o .maxStepContraction .lt (.lit 1)
  check o .maxStepContraction .lt (.field .minStepContraction)
  check o .minStepContraction .le (.lit 1)
  check o .maxStepSizeIterations .ge (.lit (if o.minimizerType = .TRUST_REGION then 0 else 1))
  check o .sufficientFunctionDecrease .gt (.lit 0)
  check o .sufficientFunctionDecrease .lt (.field .sufficientCurvatureDecrease)
  check o .sufficientCurvatureDecrease .lt (.lit 1)
  check o .maxStepExpansion .gt (.lit 1)
  refuse ((o.direction == .BFGS || o.direction == .LBFGS) && o.lineSearch != .WOLFE)
    .bfgsNeedsWolfe

/-- `Solver::Options::IsValid` (solver.cc:714-730). -/
def isValid (b : Build) (o : Opts) : Except Err Unit := do
  commonValid o
  onlyIf (o.minimizerType == .TRUST_REGION) (trustRegionValid b o)
  lineSearchValid o

/-! ### What is built from the options -/

/-- Why the process is aborted (`LOG(FATAL)` or a failed `CHECK`), or undefined behaviour is
entered. -/
inductive Abort where
  /-- a factory is asked for a library that is not built in, or for no library -/
  | missingLibrary
  /-- a GPU object is made without initialised CUDA context -/
  | cudaNotInitialized
  /-- nested dissection where there is none -/
  | nesdis
  /-- an unsupported preconditioner -/
  | preconditioner
  /-- the factory returns no object -/
  | noObject
  /-- the constructor of the trust region strategy refuses its options -/
  | strategyOptions
  /-- dynamic sparsity with a library that has none -/
  | dynamicSparsity
  /-- the explicit Schur complement with a preconditioner other than SCHUR_JACOBI -/
  | explicitSchur
deriving DecidableEq

/-- The classes of Jacobians (`SparseMatrix` implementations). -/
inductive Matrix where
  | dense | blockSparse | compressedRow
deriving DecidableEq

/-- `IsSchurType` (types.cc:390-396). -/
def isSchurType (t : LinearSolverType) : Bool :=
  t == .SPARSE_SCHUR || t == .DENSE_SCHUR || t == .ITERATIVE_SCHUR

/-- `LinearSolver::LinearSolverForZeroEBlocks` (linear_solver.cc:51-73). -/
def solverForZeroEBlocks : LinearSolverType → LinearSolverType
  | .SPARSE_SCHUR => .SPARSE_NORMAL_CHOLESKY
  | .DENSE_SCHUR => .DENSE_QR
  | .ITERATIVE_SCHUR => .CGNR
  | t => t

/-- `Preconditioner::PreconditionerForZeroEBlocks` (preconditioner.cc:39-47). -/
def preconditionerForZeroEBlocks : PreconditionerType → PreconditionerType
  | .SCHUR_JACOBI => .JACOBI
  | .CLUSTER_JACOBI => .JACOBI
  | .CLUSTER_TRIDIAGONAL => .JACOBI
  | p => p

/-- `AlternateLinearSolverAndPreconditionerForSchurTypeLinearSolver`
(trust_region_preprocessor.cc:79-111). -/
def alternate (o : Opts) : Opts :=
  if isSchurType o.linearSolver then
    { o with
      linearSolver := solverForZeroEBlocks o.linearSolver
      preconditioner :=
        if o.linearSolver = .ITERATIVE_SCHUR then preconditionerForZeroEBlocks o.preconditioner
        else o.preconditioner }
  else o

/-- `IsCudaRequired` (solver.cc:694-709; compiled only with CUDA). -/
def isCudaRequired (b : Build) (o : Opts) : Bool :=
  b.cuda &&
    if o.linearSolver == .DENSE_NORMAL_CHOLESKY || o.linearSolver == .DENSE_SCHUR ||
        o.linearSolver == .DENSE_QR then
      o.denseLib == .CUDA
    else if o.linearSolver == .CGNR || o.linearSolver == .SPARSE_SCHUR ||
        o.linearSolver == .SPARSE_NORMAL_CHOLESKY ||
        (o.linearSolver == .ITERATIVE_SCHUR &&
          (o.preconditioner == .CLUSTER_JACOBI || o.preconditioner == .CLUSTER_TRIDIAGONAL)) then
      o.sparseLib == .CUDA_SPARSE
    else false

/-- `internal::OrderingType` (linear_solver.h:102-111). -/
inductive InternalOrdering where
  | NATURAL | AMD | NESDIS
deriving DecidableEq

/-- `AreJacobianColumnsOrdered` (reorder_program.cc:635-668). -/
def columnsOrdered (o : Opts) : Bool :=
  match o.sparseLib with
  | .SUITE_SPARSE =>
    o.linearSolver == .SPARSE_NORMAL_CHOLESKY ||
      (o.linearSolver == .CGNR && o.preconditioner == .SUBSET) ||
      (o.linearSolver == .SPARSE_SCHUR && o.ordering == .AMD)
  | .EIGEN_SPARSE =>
    o.linearSolver == .SPARSE_NORMAL_CHOLESKY || o.linearSolver == .SPARSE_SCHUR ||
      (o.linearSolver == .CGNR && o.preconditioner == .SUBSET)
  | _ => false

/-- The ordering handed to the linear solver (trust_region_preprocessor.cc:241-257). -/
def solverOrdering (o : Opts) : InternalOrdering :=
  if !o.dynamicSparsity && columnsOrdered o then .NATURAL
  else match o.ordering with
    | .AMD => .AMD
    | .NESDIS => .NESDIS

/-- `OrderingForSparseNormalCholeskyUsing…` as called by `ReorderProgramForSparseCholesky`
(reorder_program.cc:115-213, 588-611): what it can abort on.  `NO_SPARSE` leaves the order of the
blocks to chance and is listed as an abort. -/
def reorderForSparseCholesky (b : Build) (o : Opts) : Except Abort Unit :=
  match o.sparseLib with
  | .SUITE_SPARSE =>
    if !b.suiteSparse then .error .missingLibrary
    else if o.ordering == .NESDIS && !(b.suiteSparse && b.suiteSparseNesdis) then .error .nesdis
    else .ok ()
  | .EIGEN_SPARSE => if b.eigenSparse then .ok () else .error .missingLibrary
  | .ACCELERATE_SPARSE => .ok ()
  | .CUDA_SPARSE => .ok ()
  | .NO_SPARSE => .error .missingLibrary

/-- `ReorderProgram` (trust_region_preprocessor.cc:114-155), what it can abort on because of the
options. -/
def reorderProgram (b : Build) (o : Opts) : Except Abort Unit :=
  if isSchurType o.linearSolver then .ok ()
  else if o.linearSolver == .SPARSE_NORMAL_CHOLESKY && !o.dynamicSparsity then
    reorderForSparseCholesky b o
  else if o.linearSolver == .CGNR && o.preconditioner == .SUBSET then
    reorderForSparseCholesky b o
  else .ok ()

/-- `SparseCholesky::Create` (sparse_cholesky.cc:46-119) with the factories of the
implementations (eigensparse.cc:153-208, cuda_sparse_cholesky.cc:488-503; the single precision SuiteSparse class exists
only with `cholmodFloat`, suitesparse.cc:469-475).  `mixed` is `use_mixed_precision_solves`,
which the preconditioners leave at its default `false` (visibility_based_preconditioner.cc:101-107,
subset_preconditioner.cc:53-57). `ctx` tells whether the caller passes an initialised CUDA
context. -/
def sparseCholeskyCreate (b : Build) (ctx : Bool) (lib : SparseLib) (mixed : Bool)
    (ord : InternalOrdering) : Except Abort Unit :=
  match lib with
  | .SUITE_SPARSE =>
    if !b.suiteSparse then .error .missingLibrary
    else if mixed && !b.cholmodFloat then .error .missingLibrary
    else if ord == .NESDIS && !b.suiteSparseNesdis then .error .nesdis
    else .ok ()
  | .EIGEN_SPARSE =>
    if !b.eigenSparse then .error .missingLibrary
    else if ord == .NESDIS && !b.eigenMetis then .error .nesdis
    else .ok ()
  | .ACCELERATE_SPARSE => if b.accelerate then .ok () else .error .missingLibrary
  | .CUDA_SPARSE =>
    if !b.cudss then .error .missingLibrary
    else if ord == .NESDIS then .error .nesdis
    else if !ctx then .error .cudaNotInitialized
    else .ok ()
  | .NO_SPARSE => .error .missingLibrary

/-- `DenseCholesky::Create` and `DenseQR::Create` (dense_cholesky.cc:84-137, 446-466;
dense_qr.cc:118-148, 447-454).  Without CUDA context the CUDA factories return null. -/
def denseCreate (b : Build) (ctx : Bool) : DenseLib → Except Abort Unit
  | .EIGEN => .ok ()
  | .LAPACK => if b.lapack then .ok () else .error .missingLibrary
  | .CUDA =>
    if !b.cuda then .error .missingLibrary
    else if !ctx then .error .noObject
    else .ok ()

/-- The linear solver: `LinearSolver::Create` (linear_solver.cc:75-128), the constructor of the
solver and what the solver creates when it is first used.  `fBlocks` tells whether parameter
blocks are left for the Schur complement (iterative_schur_complement_solver.cc:86-95,
schur_complement_solver.cc:344).  Returns the class of matrix the solver casts its argument to
(linear_solver.h:363-382). -/
def createSolver (b : Build) (ctx : Bool) (fBlocks : Bool) (o : Opts) : Except Abort Matrix := do
  let ord := solverOrdering o
  match o.linearSolver with
  | .CGNR =>
    -- linear_solver.cc:80-88
    if b.cuda && o.sparseLib == .CUDA_SPARSE then
      -- cgnr_solver.cc:295-310
      if o.preconditioner != .IDENTITY && o.preconditioner != .JACOBI then .error .noObject
      else if !ctx then .error .cudaNotInitialized
      else .ok .compressedRow
    else if o.preconditioner != .JACOBI && o.preconditioner != .IDENTITY &&
        o.preconditioner != .SUBSET then
      -- cgnr_solver.cc:125-135
      .error .preconditioner
    else
      -- cgnr_solver.cc:163-171; the subset preconditioner passes no context
      if o.preconditioner == .SUBSET then
        sparseCholeskyCreate b false o.sparseLib false ord
      .ok .blockSparse
  | .SPARSE_NORMAL_CHOLESKY =>
    -- linear_solver.cc:90-99
    if b.noSparse then .error .noObject
    else if o.dynamicSparsity then
      -- dynamic_sparse_normal_cholesky_solver.cc:86-102
      match o.sparseLib with
      | .SUITE_SPARSE =>
        -- 205-211
        if !b.suiteSparse then .error .missingLibrary
        else if ord == .NESDIS && !b.suiteSparseNesdis then .error .nesdis
        else .ok .compressedRow
      | .EIGEN_SPARSE =>
        -- 111-150
        if b.eigenSparse then .ok .compressedRow else .error .missingLibrary
      | .CUDA_SPARSE =>
        -- 279-280
        if !b.cudss then .error .missingLibrary
        else if ord == .NESDIS then .error .nesdis
        else if !ctx then .error .cudaNotInitialized
        else .ok .compressedRow
      | _ => .error .dynamicSparsity
    else
      sparseCholeskyCreate b ctx o.sparseLib o.mixedPrecision ord
      .ok .blockSparse
  | .SPARSE_SCHUR =>
    -- linear_solver.cc:101-106, schur_complement_solver.cc:205-211
    if b.noSparse then .error .noObject
    else
      sparseCholeskyCreate b ctx o.sparseLib o.mixedPrecision ord
      .ok .blockSparse
  | .DENSE_SCHUR =>
    denseCreate b ctx o.denseLib
    .ok .blockSparse
  | .ITERATIVE_SCHUR =>
    -- linear_solver.cc:111-116
    if o.explicitSchur then
      -- schur_complement_solver.cc:337-353
      if fBlocks && o.preconditioner != .SCHUR_JACOBI then .error .explicitSchur
      else .ok .blockSparse
    else if !fBlocks then .ok .blockSparse
    else
      -- iterative_schur_complement_solver.cc:159-199
      match o.preconditioner with
      | .IDENTITY => .ok .blockSparse
      | .JACOBI => .ok .blockSparse
      | .SCHUR_POWER_SERIES_EXPANSION => .ok .blockSparse
      | .SCHUR_JACOBI => .ok .blockSparse
      | .CLUSTER_JACOBI => do
        sparseCholeskyCreate b ctx o.sparseLib false ord
        .ok .blockSparse
      | .CLUSTER_TRIDIAGONAL => do
        sparseCholeskyCreate b ctx o.sparseLib false ord
        .ok .blockSparse
      | .SUBSET => .error .preconditioner
  | .DENSE_QR =>
    denseCreate b ctx o.denseLib
    .ok .dense
  | .DENSE_NORMAL_CHOLESKY =>
    denseCreate b ctx o.denseLib
    .ok .dense

/-- `Evaluator::Create` (evaluator.cc:53-99): the class of the Jacobian. -/
def jacobianMatrix (o : Opts) : Matrix :=
  match o.linearSolver with
  | .DENSE_QR => .dense
  | .DENSE_NORMAL_CHOLESKY => .dense
  | .DENSE_SCHUR => .blockSparse
  | .SPARSE_SCHUR => .blockSparse
  | .ITERATIVE_SCHUR => .blockSparse
  | .CGNR => if o.sparseLib = .CUDA_SPARSE then .compressedRow else .blockSparse
  | .SPARSE_NORMAL_CHOLESKY => if o.dynamicSparsity then .compressedRow else .blockSparse

/-- The constructors `LevenbergMarquardtStrategy` and `DoglegStrategy`
(levenberg_marquardt_strategy.cc:61-64, dogleg_strategy.cc:69-72). -/
def createStrategy (o : Opts) : Except Abort Unit :=
  if !(Dbl.fin 0).lt o.minLmDiagonal then .error .strategyOptions
  else if !o.minLmDiagonal.le o.maxLmDiagonal then .error .strategyOptions
  else if !(Dbl.fin 0).lt o.maxRadius then .error .strategyOptions
  else .ok ()

/-- What `Solve` builds from the options for the trust region minimizer: CUDA is initialised if
it is required (solver.cc:756-763), the solver is switched if the user's first elimination group
is empty after fixed blocks are removed (`noE`, trust_region_preprocessor.cc:184-190), the
program is reordered, solver, evaluator and strategy are created.  The result is the class of
matrix the solver expects and the class the evaluator makes. -/
def build (b : Build) (noE fBlocks : Bool) (o : Opts) : Except Abort (Matrix × Matrix) := do
  let ctx := isCudaRequired b o
  let o' := if noE then alternate o else o
  reorderProgram b o'
  let m ← createSolver b ctx fBlocks o'
  createStrategy o'
  .ok (m, jacobianMatrix o')

end Ceres.Options
