import Verif.GradientProblem.Model

/-!
# What `GradientProblemSolver::Solve` is expected to do (C83)
-/
namespace Ceres.GradientProblem

open Ceres.Manifold (Vec)
open Ceres.LineSearch (Ext LSRecord)
open Ceres.Driver (UserCallback)
open Ceres.Options (Dbl)

variable {n : ℕ} {A : Type}

/-- The objective at `x` is `c`: the user's function, asked for value and gradient, succeeds with the finite value `c`. -/
def Problem.CostIs (p : Problem) (x : p.Point) (c : ℝ) : Prop :=
  ∃ g, p.function.evaluate (fun i => x (Fin.cast p.sizes i)) true = some (.fin c, g)

/-- The value of the function does not depend on whether the gradient is asked for. -/
def FirstOrderFunction.Consistent (f : FirstOrderFunction) : Prop :=
  ∀ x c g c' g', f.evaluate x false = some (c, g) → f.evaluate x true = some (c', g') → c' = c

/-- `Plus(x, 0) = x`, as every manifold must satisfy. -/
def Problem.ZeroStep (p : Problem) : Prop := ∀ x, p.manifold.plus x 0 = some x

/-- The documented conditions on the options (gradient_problem_solver.h:53-262), in terms of the options of this solver
only. -/
structure ValidOptions (o : Options n A) : Prop where
  iterations : 0 ≤ o.maxNumIterations
  time : (Dbl.fin 0).Le o.maxSolverTime
  function : (Dbl.fin 0).Le o.functionTolerance
  gradient : (Dbl.fin 0).Le o.gradientTolerance
  parameter : (Dbl.fin 0).Le o.parameterTolerance
  rank : 1 ≤ o.maxLbfgsRank
  minStep : (Dbl.fin 0).Lt o.minStepSize
  maxContraction : (Dbl.fin 0).Lt o.maxStepContraction
  contraction : o.maxStepContraction.Lt o.minStepContraction
  minContraction : o.minStepContraction.Le (.fin 1)
  searchIterations : 1 ≤ o.maxStepSizeIterations
  decrease : (Dbl.fin 0).Lt o.sufficientFunctionDecrease
  decreaseCurvature : o.sufficientFunctionDecrease.Lt o.sufficientCurvatureDecrease
  curvature : o.sufficientCurvatureDecrease.Lt (.fin 1)
  expansion : (Dbl.fin 1).Lt o.maxStepExpansion
  wolfe : o.direction = .BFGS ∨ o.direction = .LBFGS → o.lineSearch = .WOLFE

/-- The options that may be infinite are not. -/
def FiniteOptions (o : Options n A) : Prop :=
  ∀ d ∈ [o.functionTolerance, o.gradientTolerance, o.parameterTolerance, o.minStepSize, o.maxStepExpansion],
    ∃ q, d = .fin q

/-- No callback of the user writes the parameters. -/
def ReadOnly (o : Options n A) : Prop := ∀ f ∈ o.callbacks, ∀ it m a, (f it m a).1 = m

/-- The gradient of the function `x ↦ f x` at a point: the vector of its partial derivatives. -/
def IsGradient {n : ℕ} (f : Vec n → ℝ) (x g : Vec n) : Prop :=
  HasFDerivAt f (∑ i, g i • ContinuousLinearMap.proj (R := ℝ) (φ := fun _ : Fin n => ℝ) i) x

end Ceres.GradientProblem
