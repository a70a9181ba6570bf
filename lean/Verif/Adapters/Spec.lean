import Verif.Adapters.Model
import Mathlib.Analysis.Calculus.FDeriv.Add
import Mathlib.Analysis.Calculus.FDeriv.Pi
import Mathlib.Analysis.Calculus.FDeriv.Comp
import Mathlib.Analysis.Calculus.Deriv.Basic

/-!
# What a cost function computes
-/
namespace Ceres.Adapters

open Ceres.NumericDiff (Params)

noncomputable section

/-- The parameters agree where there are parameters. -/
def Agree (sizes : List ℕ) (p p' : Params) : Prop :=
  ∀ i < sizes.length, ∀ j < sizes.getD i 0, p i j = p' i j

/-- **The contract of `CostFunction::Evaluate`** (cost_function.h:74-119) for the function `f` and the matrices `J`
(residual, block, column): it succeeds on `dom`; then the residuals are those of `f` and every Jacobian asked for is
that of `J`, by rows; nothing else is written and nothing else is read. -/
structure Computes (c : CostFunction) (dom : Params → Prop) (f : Params → ℕ → ℝ)
    (J : Params → ℕ → ℕ → ℕ → ℝ) : Prop where
  ok : ∀ p res js, (c.evaluate p res js).ok = true ↔ dom p
  residuals : ∀ p res js, dom p → ∀ r < c.numResiduals, (c.evaluate p res js).residuals r = f p r
  beyond : ∀ p res js, ∀ r, c.numResiduals ≤ r → (c.evaluate p res js).residuals r = res r
  null : ∀ p res, (c.evaluate p res none).jacobians = none
  blocks : ∀ p res js, ∃ js', (c.evaluate p res (some js)).jacobians = some js' ∧ ∀ i,
    (js i = none → js' i = none) ∧ ∀ a, js i = some a → ∃ a', js' i = some a' ∧
      (dom p → i < c.sizes.length → ∀ r < c.numResiduals, ∀ k < c.sizes.getD i 0,
        a' (r * c.sizes.getD i 0 + k) = J p r i k) ∧
      ∀ q, (¬ i < c.sizes.length ∨ c.numResiduals * c.sizes.getD i 0 ≤ q) → a' q = a q
  reads : ∀ p p', Agree c.sizes p p' → (dom p ↔ dom p') ∧ (∀ r, f p r = f p' r) ∧ ∀ r i k, J p r i k = J p' r i k

/-- The coordinates: a block and a position in it. -/
abbrev Coord (sizes : List ℕ) := (i : Fin sizes.length) × Fin (sizes.getD i 0)

/-- The parameters with given coordinates. -/
def toParams {sizes : List ℕ} (x : Coord sizes → ℝ) : Params := fun i j =>
  if h : i < sizes.length ∧ j < sizes.getD i 0 then x ⟨⟨i, h.1⟩, ⟨j, h.2⟩⟩ else 0

/-- The coordinates of parameters. -/
def ofParams (sizes : List ℕ) (p : Params) : Coord sizes → ℝ := fun s => p s.1 s.2

/-- **`J` is the derivative of `f`** at `p`: each of the `n` residuals is differentiable as a function of all
parameters together and row `r` of `J` holds its derivative. -/
def IsJacobian (sizes : List ℕ) (n : ℕ) (f : Params → ℕ → ℝ) (J : ℕ → ℕ → ℕ → ℝ) (p : Params) : Prop :=
  ∀ r < n, HasFDerivAt (fun x : Coord sizes → ℝ => f (toParams x) r)
    (∑ s : Coord sizes, J r s.1 s.2 • (ContinuousLinearMap.proj s : (Coord sizes → ℝ) →L[ℝ] ℝ)) (ofParams sizes p)

theorem toParams_ofParams (sizes : List ℕ) (p : Params) : Agree sizes (toParams (ofParams sizes p)) p := by
  intro i hi j hj
  unfold toParams ofParams
  rw [dif_pos ⟨hi, hj⟩]

/-- A conditioner: a function `φ` of one variable, defined on `D`, with derivative `φ'`; null stands for the
identity. -/
def Conditions (g : Option CostFunction) (D : ℝ → Prop) (φ φ' : ℝ → ℝ) : Prop :=
  match g with
  | none => (∀ x, D x) ∧ (∀ x, φ x = x) ∧ ∀ x, φ' x = 1
  | some g => g.isScalar ∧ Computes g (fun p => D (p 0 0)) (fun p _ => φ (p 0 0)) (fun p _ _ _ => φ' (p 0 0))

/-- Two numbers are close as the documentation of `GradientChecker` has it (gradient_checker.h:53-57), with the
absolute difference if one of them is zero. -/
def Close (x y precision : ℝ) : Prop :=
  if x = 0 ∨ y = 0 then |x - y| < |precision| else |x - y| < |precision| * max |x| |y|

end

end Ceres.Adapters
