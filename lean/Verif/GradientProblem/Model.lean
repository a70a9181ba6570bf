import Verif.Driver.LsSolve
import Verif.LineSearch.Interpolate
import Verif.Manifold.Product
import Verif.Options.Props

/-!
# Model of `GradientProblem` and `GradientProblemSolver`
(gradient_problem.h, gradient_problem.cc, gradient_problem_evaluator.h, gradient_problem_solver.h,
gradient_problem_solver.cc, callbacks.cc, solver_utils.h)

The minimizer is `Driver.lsMinimizer`, the model of line_search_minimizer.cc that talks to callbacks, with the line
searches of `LineSearch.Model` and the interpolation of `LineSearch.Polynomial`.  Doubles are reals, except that costs
may be infinite or NaN and that options are extended rationals.  Not modelled: times, the texts of messages and reports,
the counters of evaluations, and what the minimizer does once the initial cost is not finite.
-/
namespace Ceres.GradientProblem

open Ceres.Manifold (Vec Buf Manifold toBuf norm2 squaredNorm euclideanManifold)
open Ceres.LineSearch (Ext LSProblem LSOptions LSRecord Search NCGType Interp Numerics armijo wolfe minimizeInterpolating)
open Ceres.Driver (World Callback Call Run UserCallback userCallbacks loggingCallback writeBack exec usable
  summaryFinalCost lsMinimizer)
open Ceres.TrustRegion (CB Term)
open Ceres.Options (Dbl Build)

noncomputable section

/-- `FirstOrderFunction` (first_order_function.h:49-70): any implementation.  The flag says whether the gradient is
wanted; `none` is the return value `false`. -/
structure FirstOrderFunction where
  numParameters : ℕ
  evaluate : Vec numParameters → Bool → Option (Ext ℝ × Vec numParameters)

/-- `GradientProblem` (gradient_problem.h:83-113); the sizes agree because of the `CHECK` in the constructor. -/
structure Problem where
  function : FirstOrderFunction
  manifold : Manifold
  sizes : function.numParameters = manifold.ambientSize

/-- The constructors (gradient_problem.cc:41-58); `none`: the `CHECK` on the sizes fails. -/
def create (f : FirstOrderFunction) (manifold : Option Manifold) : Option Problem :=
  match manifold with
  | none => some ⟨f, euclideanManifold f.numParameters, rfl⟩
  | some M => if h : f.numParameters = M.ambientSize then some ⟨f, M, h⟩ else none

/-- The parameters: the content of the user's array. -/
abbrev Problem.Point (p : Problem) := Vec p.manifold.ambientSize

/-- Vectors in the tangent space. -/
abbrev Problem.Tangent (p : Problem) := EuclideanSpace ℝ (Fin p.manifold.tangentSize)

/-- `GradientProblem::Evaluate` (gradient_problem.cc:68-80): `scratch_` receives the gradient of the function, which
`RightMultiplyByPlusJacobian` (the implementation of the base class; C05 relates the others to it) turns into `gradient`.
`junk` is what `gradient` holds before.  Without a gradient the second component is arbitrary. -/
def Problem.evaluate (p : Problem) (junk : Buf) (x : p.Point) (wantGradient : Bool) : Option (Ext ℝ × p.Tangent) :=
  match p.function.evaluate (fun i => x (Fin.cast p.sizes i)) wantGradient with
  | none => none
  | some (cost, scratch) =>
    if wantGradient then
      if (p.manifold.rightMultiply x 1 (toBuf scratch) junk).1 then
        some (cost, WithLp.toLp 2 fun i => (p.manifold.rightMultiply x 1 (toBuf scratch) junk).2 i)
      else none
    else some (cost, 0)

/-- `GradientProblemEvaluator` (gradient_problem_evaluator.h:48-97) and the norms of line_search_minimizer.cc:79-81,
387-388 and line_search.cc:147-149; the norm of `Vec` is the maximum norm. -/
def Problem.evaluator (p : Problem) (junk : Buf) : LSProblem p.Point p.Tangent where
  eval := p.evaluate junk
  plus x delta := p.manifold.plus x (WithLp.ofLp delta)
  diffSq x y := squaredNorm (x - y)
  diffMax x y := ‖x - y‖
  dist x y := norm2 (x - y)
  norm x := norm2 x
  dirNorm delta := ‖WithLp.ofLp delta‖

/-- `GradientProblemSolver::Options` (gradient_problem_solver.h:53-262), without `minimizer_progress_to_stdout`.
`silent` is `logging_type == SILENT`. -/
structure Options (n : ℕ) (A : Type) where
  direction : Options.DirectionType
  lineSearch : Options.LineSearchType
  ncg : NCGType
  maxLbfgsRank : ℤ
  bfgsScaling : Bool
  interp : Interp
  minStepSize : Dbl
  sufficientFunctionDecrease : Dbl
  maxStepContraction : Dbl
  minStepContraction : Dbl
  maxStepSizeIterations : ℤ
  maxRestarts : ℤ
  sufficientCurvatureDecrease : Dbl
  maxStepExpansion : Dbl
  maxNumIterations : ℤ
  maxSolverTime : Dbl
  functionTolerance : Dbl
  gradientTolerance : Dbl
  parameterTolerance : Dbl
  silent : Bool
  updateState : Bool
  callbacks : List (UserCallback (Vec n) (LSRecord (Vec n)) A)

/-- A default-constructed `GradientProblemSolver::Options` (gradient_problem_solver.h:53-262). -/
def defaults (n : ℕ) (A : Type) : Options n A where
  direction := .LBFGS
  lineSearch := .WOLFE
  ncg := .fletcherReeves
  maxLbfgsRank := 20
  bfgsScaling := false
  interp := .cubic
  minStepSize := .fin (1 / 10 ^ 9)
  sufficientFunctionDecrease := .fin (1 / 10 ^ 4)
  maxStepContraction := .fin (1 / 10 ^ 3)
  minStepContraction := .fin (6 / 10)
  maxStepSizeIterations := 20
  maxRestarts := 5
  sufficientCurvatureDecrease := .fin (9 / 10)
  maxStepExpansion := .fin 10
  maxNumIterations := 50
  maxSolverTime := .fin (10 ^ 9)
  functionTolerance := .fin (1 / 10 ^ 6)
  gradientTolerance := .fin (1 / 10 ^ 10)
  parameterTolerance := .fin (1 / 10 ^ 8)
  silent := false
  updateState := false
  callbacks := []

variable {n : ℕ} {A : Type}

/-- `GradientProblemSolverOptionsToSolverOptions` (gradient_problem_solver.cc:57-87), the fields that `Options::IsValid`
looks at.  The others are default ones, which depend on how the library was built. -/
def toSolverOptions (b : Build) (o : Options n A) : Options.Opts :=
  { Options.defaults b with
    minimizerType := .LINE_SEARCH
    direction := o.direction
    lineSearch := o.lineSearch
    maxLbfgsRank := o.maxLbfgsRank
    minStepSize := o.minStepSize
    sufficientFunctionDecrease := o.sufficientFunctionDecrease
    maxStepContraction := o.maxStepContraction
    minStepContraction := o.minStepContraction
    maxStepSizeIterations := o.maxStepSizeIterations
    sufficientCurvatureDecrease := o.sufficientCurvatureDecrease
    maxStepExpansion := o.maxStepExpansion
    maxNumIterations := o.maxNumIterations
    maxSolverTime := o.maxSolverTime
    parameterTolerance := o.parameterTolerance
    functionTolerance := o.functionTolerance
    gradientTolerance := o.gradientTolerance }

/-- `GradientProblemSolver::Options::IsValid` (gradient_problem_solver.cc:91-95). -/
def isValid (b : Build) (o : Options n A) : Bool :=
  match Options.isValid b (toSolverOptions b o) with
  | .ok _ => true
  | .error _ => false

/-- The real number a finite double denotes (0 for the others, see `Spec.Finite`). -/
def real : Dbl → ℝ
  | .fin q => q
  | _ => 0

/-- `LineSearchDirection::Options` (line_search_minimizer.cc:168-176). -/
def directionType (s : Options.Opts) (o : Options n A) : LineSearch.DirectionType :=
  match s.direction with
  | .STEEPEST_DESCENT => .steepest
  | .NONLINEAR_CONJUGATE_GRADIENT => .ncg o.ncg
  | .BFGS => .bfgs o.bfgsScaling
  | .LBFGS => .lbfgs s.maxLbfgsRank.toNat o.bfgsScaling

/-- `Minimizer::Options` (minimizer.h:60-112) as the line search minimizer uses them. -/
def minimizerOptions (s : Options.Opts) (o : Options n A) : LSOptions where
  direction := directionType s o
  maxNumIterations := s.maxNumIterations.toNat
  maxRestarts := o.maxRestarts.toNat
  gradientTolerance := real s.gradientTolerance
  parameterTolerance := real s.parameterTolerance
  functionTolerance := real s.functionTolerance

/-- `LineSearch::Options` (line_search_minimizer.cc:182-200). -/
def searchOptions (s : Options.Opts) (o : Options n A) : LineSearch.Opts ℝ where
  interp := o.interp
  sufficientDecrease := real s.sufficientFunctionDecrease
  maxContraction := real s.maxStepContraction
  minContraction := real s.minStepContraction
  minStepSize := real s.minStepSize
  maxNumIterations := s.maxStepSizeIterations.toNat
  sufficientCurvatureDecrease := real s.sufficientCurvatureDecrease
  maxExpansion := real s.maxStepExpansion

/-- `LineSearch::Create` (line_search.cc:73-90). -/
def lineSearch {X V : Type} (N : Numerics) (s : Options.Opts) (o : Options n A) : Search X V :=
  match s.lineSearch with
  | .ARMIJO => armijo (minimizeInterpolating N) (searchOptions s o)
  | .WOLFE => wolfe (minimizeInterpolating N) (searchOptions s o)

/-- `GradientProblemSolverStateUpdatingCallback` (callbacks.cc:68-74): the array of the minimizer is copied if the step
was successful, that is in every iteration but the first (line_search_minimizer.cc:113, 241, 401).  The user's array is
block 0 of the memory. -/
def stateUpdatingCallback {X : Type} : Callback X (LSRecord X) A :=
  ⟨.stateUpdating, fun params it w =>
    (if it.iteration ≠ 0 then { w with mem := writeBack [0] params w.mem } else w, .continue)⟩

/-- The callbacks of the minimizer (gradient_problem_solver.cc:142-157). -/
def callbacks (o : Options n A) : List (Callback (Vec n) (LSRecord (Vec n)) A) :=
  let l := userCallbacks o.callbacks
  let l := if o.silent then l else loggingCallback :: l
  if o.updateState then stateUpdatingCallback :: l else l

/-- `GradientProblemSolver::Summary` (gradient_problem_solver.h:264-341); `reported` (ghost) are the iterations the
callbacks were called for.  `term = none`: the process is gone, or the run left the model because a cost was not
finite. -/
structure Summary (n : ℕ) (A : Type) where
  numParameters : ℕ
  numTangentParameters : ℕ
  term : Option Term
  initialCost : ℝ
  finalCost : ℝ
  iters : List (LSRecord (Vec n))
  calls : List (Call (Vec n) (LSRecord (Vec n)) A)
  reported : List (LSRecord (Vec n))

/-- `GradientProblemSolver::Solve` (gradient_problem_solver.cc:99-201).  `late` is the clock: whether
`max_solver_time_in_seconds` has passed at the end of an iteration; `N` are Eigen's solvers used in the
interpolation. -/
def solve (b : Build) (N : Numerics) (junk : Buf) (late : ℕ → Bool) (p : Problem)
    (o : Options p.manifold.ambientSize A) (w : World p.Point A) :
    World p.Point A × Summary p.manifold.ambientSize A :=
  let numParameters := p.function.numParameters
  let numTangent := p.manifold.tangentSize
  if isValid b o = false then (w, ⟨numParameters, numTangent, some .failure, -1, -1, [], [], []⟩)
  else
    let s := toSolverOptions b o
    let r := exec (callbacks o) (lsMinimizer (fun x => [x]) (lineSearch N s o) (p.evaluator junk) (minimizerOptions s o)
      late 0 (w.mem 0)) (-1) w
    if r.term = none then
      (r.world, ⟨numParameters, numTangent, none, r.initialCost, -1, r.iters, r.calls, r.reported⟩)
    else if usable r.term then
      ({ r.world with mem := writeBack [0] r.params r.world.mem },
        ⟨numParameters, numTangent, r.term, r.initialCost, summaryFinalCost LSRecord.cost r.initialCost r.iters, r.iters,
          r.calls, r.reported⟩)
    else
      (r.world, ⟨numParameters, numTangent, r.term, r.initialCost, -1, r.iters, r.calls, r.reported⟩)

end

end Ceres.GradientProblem
