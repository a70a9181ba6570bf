import Mathlib.Data.List.Forall2
import Mathlib.Data.List.Nodup
import Mathlib.Data.Int.Notation

/-!
# Options by name (types.h, types.cc)

An enumeration is the list of its enumerators with their values.  A variable of an enumerated type holds any
integer: nothing stops a program from casting one.  A `std::string` is a list of characters; its bytes above 127,
for which `::toupper` of a negative `char` is not defined in C, stand for themselves, as in the "C" locale.
-/
namespace Ceres.Names

/-- An enumeration: its enumerators and their values. -/
abbrev Enum := List (String × ℤ)

/-- `enum { ... };` without explicit values: 0, 1, 2, ... -/
def declare (names : List String) : Enum := names.zipIdx.map fun p => (p.1, (p.2 : ℤ))

/-- What an enumerator stands for; `none`: it is not one. -/
def Enum.value (e : Enum) (name : String) : Option ℤ := (e.find? fun p => p.1 == name).map (·.2)

/-- `UpperCase` (types.cc:46-48). -/
def upperCase (s : String) : String := String.ofList (s.toList.map Char.toUpper)

/-- `switch (type) { CASESTR(x); ... default: return "UNKNOWN"; }` (types.cc:42): `#x` is the name of the
enumerator `x`. -/
def switch (e : Enum) : List String → ℤ → String
  | [], _ => "UNKNOWN"
  | x :: xs, type => if e.value x = some type then x else switch e xs type

/-- `STRENUM(x); ... return false;` (types.cc:43): what is returned, and `*type` after. -/
def select (e : Enum) : List String → String → ℤ → Bool × ℤ
  | [], _, type => (false, type)
  | x :: xs, value, type => if value = x then (true, (e.value x).getD type) else select e xs value type

/-- `UpperCase(&value); STRENUM(x); ... return false;`. -/
def parse (e : Enum) (cases : List String) (value : String) (type : ℤ) : Bool × ℤ :=
  select e cases (upperCase value) type

/-- `LinearSolverType` (types.h:57-91). -/
def LinearSolverType : Enum :=
  declare
    ["DENSE_NORMAL_CHOLESKY", "DENSE_QR", "SPARSE_NORMAL_CHOLESKY", "DENSE_SCHUR", "SPARSE_SCHUR",
      "ITERATIVE_SCHUR", "CGNR"]

/-- `LinearSolverTypeToString` (types.cc:51-63). -/
def LinearSolverTypeToString : ℤ → String :=
  switch LinearSolverType
    ["DENSE_NORMAL_CHOLESKY", "DENSE_QR", "SPARSE_NORMAL_CHOLESKY", "DENSE_SCHUR", "SPARSE_SCHUR",
      "ITERATIVE_SCHUR", "CGNR"]

/-- `StringToLinearSolverType` (types.cc:65-75). -/
def StringToLinearSolverType : String → ℤ → Bool × ℤ :=
  parse LinearSolverType
    ["DENSE_NORMAL_CHOLESKY", "DENSE_QR", "SPARSE_NORMAL_CHOLESKY", "DENSE_SCHUR", "SPARSE_SCHUR",
      "ITERATIVE_SCHUR", "CGNR"]

/-- `PreconditionerType` (types.h:93-141). -/
def PreconditionerType : Enum :=
  declare
    ["IDENTITY", "JACOBI", "SCHUR_JACOBI", "SCHUR_POWER_SERIES_EXPANSION", "CLUSTER_JACOBI",
      "CLUSTER_TRIDIAGONAL", "SUBSET"]

/-- `PreconditionerTypeToString` (types.cc:77-89). -/
def PreconditionerTypeToString : ℤ → String :=
  switch PreconditionerType
    ["IDENTITY", "JACOBI", "SCHUR_JACOBI", "SCHUR_POWER_SERIES_EXPANSION", "CLUSTER_JACOBI",
      "CLUSTER_TRIDIAGONAL", "SUBSET"]

/-- `StringToPreconditionerType` (types.cc:91-101). -/
def StringToPreconditionerType : String → ℤ → Bool × ℤ :=
  parse PreconditionerType
    ["IDENTITY", "JACOBI", "SCHUR_JACOBI", "SCHUR_POWER_SERIES_EXPANSION", "CLUSTER_JACOBI",
      "CLUSTER_TRIDIAGONAL", "SUBSET"]

/-- `SparseLinearAlgebraLibraryType` (types.h:166-185). -/
def SparseLinearAlgebraLibraryType : Enum :=
  declare ["SUITE_SPARSE", "EIGEN_SPARSE", "ACCELERATE_SPARSE", "CUDA_SPARSE", "NO_SPARSE"]

/-- `SparseLinearAlgebraLibraryTypeToString` (types.cc:103-114). -/
def SparseLinearAlgebraLibraryTypeToString : ℤ → String :=
  switch SparseLinearAlgebraLibraryType ["SUITE_SPARSE", "EIGEN_SPARSE", "ACCELERATE_SPARSE", "CUDA_SPARSE", "NO_SPARSE"]

/-- `StringToSparseLinearAlgebraLibraryType` (types.cc:116-125). -/
def StringToSparseLinearAlgebraLibraryType : String → ℤ → Bool × ℤ :=
  parse SparseLinearAlgebraLibraryType ["SUITE_SPARSE", "EIGEN_SPARSE", "ACCELERATE_SPARSE", "CUDA_SPARSE", "NO_SPARSE"]

/-- `LinearSolverOrderingType` (types.h:204-209). -/
def LinearSolverOrderingType : Enum :=
  declare ["AMD", "NESDIS"]

/-- `LinearSolverOrderingTypeToString` (types.cc:127-134). -/
def LinearSolverOrderingTypeToString : ℤ → String :=
  switch LinearSolverOrderingType ["AMD", "NESDIS"]

/-- `StringToLinearSolverOrderingType` (types.cc:136-142). -/
def StringToLinearSolverOrderingType : String → ℤ → Bool × ℤ :=
  parse LinearSolverOrderingType ["AMD", "NESDIS"]

/-- `DenseLinearAlgebraLibraryType` (types.h:211-215). -/
def DenseLinearAlgebraLibraryType : Enum :=
  declare ["EIGEN", "LAPACK", "CUDA"]

/-- `DenseLinearAlgebraLibraryTypeToString` (types.cc:144-153). -/
def DenseLinearAlgebraLibraryTypeToString : ℤ → String :=
  switch DenseLinearAlgebraLibraryType ["EIGEN", "LAPACK", "CUDA"]

/-- `StringToDenseLinearAlgebraLibraryType` (types.cc:155-162). -/
def StringToDenseLinearAlgebraLibraryType : String → ℤ → Bool × ℤ :=
  parse DenseLinearAlgebraLibraryType ["EIGEN", "LAPACK", "CUDA"]

/-- `TrustRegionStrategyType` (types.h:318-339). -/
def TrustRegionStrategyType : Enum :=
  declare ["LEVENBERG_MARQUARDT", "DOGLEG"]

/-- `TrustRegionStrategyTypeToString` (types.cc:164-171). -/
def TrustRegionStrategyTypeToString : ℤ → String :=
  switch TrustRegionStrategyType ["LEVENBERG_MARQUARDT", "DOGLEG"]

/-- `StringToTrustRegionStrategyType` (types.cc:173-179). -/
def StringToTrustRegionStrategyType : String → ℤ → Bool × ℤ :=
  parse TrustRegionStrategyType ["LEVENBERG_MARQUARDT", "DOGLEG"]

/-- `DoglegType` (types.h:348-357). -/
def DoglegType : Enum :=
  declare ["TRADITIONAL_DOGLEG", "SUBSPACE_DOGLEG"]

/-- `DoglegTypeToString` (types.cc:181-188). -/
def DoglegTypeToString : ℤ → String :=
  switch DoglegType ["TRADITIONAL_DOGLEG", "SUBSPACE_DOGLEG"]

/-- `StringToDoglegType` (types.cc:190-195). -/
def StringToDoglegType : String → ℤ → Bool × ℤ :=
  parse DoglegType ["TRADITIONAL_DOGLEG", "SUBSPACE_DOGLEG"]

/-- `MinimizerType` (types.h:224-227). -/
def MinimizerType : Enum :=
  declare ["LINE_SEARCH", "TRUST_REGION"]

/-- `MinimizerTypeToString` (types.cc:197-204). -/
def MinimizerTypeToString : ℤ → String :=
  switch MinimizerType ["TRUST_REGION", "LINE_SEARCH"]

/-- `StringToMinimizerType` (types.cc:206-211). -/
def StringToMinimizerType : String → ℤ → Bool × ℤ :=
  parse MinimizerType ["TRUST_REGION", "LINE_SEARCH"]

/-- `LineSearchDirectionType` (types.h:229-295). -/
def LineSearchDirectionType : Enum :=
  declare ["STEEPEST_DESCENT", "NONLINEAR_CONJUGATE_GRADIENT", "LBFGS", "BFGS"]

/-- `LineSearchDirectionTypeToString` (types.cc:213-222). -/
def LineSearchDirectionTypeToString : ℤ → String :=
  switch LineSearchDirectionType ["STEEPEST_DESCENT", "NONLINEAR_CONJUGATE_GRADIENT", "LBFGS", "BFGS"]

/-- `StringToLineSearchDirectionType` (types.cc:224-232). -/
def StringToLineSearchDirectionType : String → ℤ → Bool × ℤ :=
  parse LineSearchDirectionType ["STEEPEST_DESCENT", "NONLINEAR_CONJUGATE_GRADIENT", "LBFGS", "BFGS"]

/-- `LineSearchType` (types.h:309-314). -/
def LineSearchType : Enum :=
  declare ["ARMIJO", "WOLFE"]

/-- `LineSearchTypeToString` (types.cc:234-241). -/
def LineSearchTypeToString : ℤ → String :=
  switch LineSearchType ["ARMIJO", "WOLFE"]

/-- `StringToLineSearchType` (types.cc:243-248). -/
def StringToLineSearchType : String → ℤ → Bool × ℤ :=
  parse LineSearchType ["ARMIJO", "WOLFE"]

/-- `LineSearchInterpolationType` (types.h:459-463). -/
def LineSearchInterpolationType : Enum :=
  declare ["BISECTION", "QUADRATIC", "CUBIC"]

/-- `LineSearchInterpolationTypeToString` (types.cc:250-259). -/
def LineSearchInterpolationTypeToString : ℤ → String :=
  switch LineSearchInterpolationType ["BISECTION", "QUADRATIC", "CUBIC"]

/-- `StringToLineSearchInterpolationType` (types.cc:261-268). -/
def StringToLineSearchInterpolationType : String → ℤ → Bool × ℤ :=
  parse LineSearchInterpolationType ["BISECTION", "QUADRATIC", "CUBIC"]

/-- `NonlinearConjugateGradientType` (types.h:303-307). -/
def NonlinearConjugateGradientType : Enum :=
  declare ["FLETCHER_REEVES", "POLAK_RIBIERE", "HESTENES_STIEFEL"]

/-- `NonlinearConjugateGradientTypeToString` (types.cc:270-279). -/
def NonlinearConjugateGradientTypeToString : ℤ → String :=
  switch NonlinearConjugateGradientType ["FLETCHER_REEVES", "POLAK_RIBIERE", "HESTENES_STIEFEL"]

/-- `StringToNonlinearConjugateGradientType` (types.cc:281-288). -/
def StringToNonlinearConjugateGradientType : String → ℤ → Bool × ℤ :=
  parse NonlinearConjugateGradientType ["FLETCHER_REEVES", "POLAK_RIBIERE", "HESTENES_STIEFEL"]

/-- `CovarianceAlgorithmType` (types.h:465-468). -/
def CovarianceAlgorithmType : Enum :=
  declare ["DENSE_SVD", "SPARSE_QR"]

/-- `CovarianceAlgorithmTypeToString` (types.cc:290-297). -/
def CovarianceAlgorithmTypeToString : ℤ → String :=
  switch CovarianceAlgorithmType ["DENSE_SVD", "SPARSE_QR"]

/-- `StringToCovarianceAlgorithmType` (types.cc:299-305). -/
def StringToCovarianceAlgorithmType : String → ℤ → Bool × ℤ :=
  parse CovarianceAlgorithmType ["DENSE_SVD", "SPARSE_QR"]

/-- `NumericDiffMethodType` (types.h:446-457). -/
def NumericDiffMethodType : Enum :=
  declare ["CENTRAL", "FORWARD", "RIDDERS"]

/-- `NumericDiffMethodTypeToString` (types.cc:307-315). -/
def NumericDiffMethodTypeToString : ℤ → String :=
  switch NumericDiffMethodType ["CENTRAL", "FORWARD", "RIDDERS"]

/-- `StringToNumericDiffMethodType` (types.cc:317-324). -/
def StringToNumericDiffMethodType : String → ℤ → Bool × ℤ :=
  parse NumericDiffMethodType ["CENTRAL", "FORWARD", "RIDDERS"]

/-- `VisibilityClusteringType` (types.h:143-164). -/
def VisibilityClusteringType : Enum :=
  declare ["CANONICAL_VIEWS", "SINGLE_LINKAGE"]

/-- `VisibilityClusteringTypeToString` (types.cc:326-333). -/
def VisibilityClusteringTypeToString : ℤ → String :=
  switch VisibilityClusteringType ["CANONICAL_VIEWS", "SINGLE_LINKAGE"]

/-- `StringToVisibilityClusteringType` (types.cc:335-341). -/
def StringToVisibilityClusteringType : String → ℤ → Bool × ℤ :=
  parse VisibilityClusteringType ["CANONICAL_VIEWS", "SINGLE_LINKAGE"]

/-- `TerminationType` (types.h:359-395). -/
def TerminationType : Enum :=
  declare ["CONVERGENCE", "NO_CONVERGENCE", "FAILURE", "USER_SUCCESS", "USER_FAILURE"]

/-- `TerminationTypeToString` (types.cc:343-353). -/
def TerminationTypeToString : ℤ → String :=
  switch TerminationType ["CONVERGENCE", "NO_CONVERGENCE", "FAILURE", "USER_SUCCESS", "USER_FAILURE"]

/-- `LoggingType` (types.h:219-222). -/
def LoggingType : Enum :=
  declare ["SILENT", "PER_MINIMIZER_ITERATION"]

/-- `LoggingTypeToString` (types.cc:355-362). -/
def LoggingTypeToString : ℤ → String :=
  switch LoggingType ["SILENT", "PER_MINIMIZER_ITERATION"]

/-- `StringToLoggingType` (types.cc:364-369). -/
def StringToLoggingType : String → ℤ → Bool × ℤ :=
  parse LoggingType ["SILENT", "PER_MINIMIZER_ITERATION"]

/-- `DumpFormatType` (types.h:419-435). -/
def DumpFormatType : Enum :=
  declare ["CONSOLE", "TEXTFILE"]

/-- `DumpFormatTypeToString` (types.cc:371-378). -/
def DumpFormatTypeToString : ℤ → String :=
  switch DumpFormatType ["CONSOLE", "TEXTFILE"]

/-- `StringToDumpFormatType` (types.cc:380-385). -/
def StringToDumpFormatType : String → ℤ → Bool × ℤ :=
  parse DumpFormatType ["CONSOLE", "TEXTFILE"]

end Ceres.Names
