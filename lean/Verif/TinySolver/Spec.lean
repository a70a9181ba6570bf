import Verif.TinySolver.Model

/-! # Specification of the tiny solver -/

namespace Ceres.TinySolver

open Matrix

noncomputable section

variable {n m : ℕ}

/-- The user's function is `f` with Jacobian `J`, and always succeeds. -/
structure Computes (F : Function n m) (f : Vec n → Vec m) (J : Vec n → Mat m n) : Prop where
  withJacobian : ∀ x r j, F.evalJ x r j = (true, f x, J x)
  without : ∀ x r, F.eval x r = (true, f x)

/-- Half the sum of the squared residuals. -/
def costOf (f : Vec n → Vec m) (x : Vec n) : ℝ := (∑ i, f x i ^ 2) / 2

/-- The Jacobi scaling, computed once at the initial point. -/
def scaling (J : Vec n → Mat m n) (x₀ : Vec n) (j : Fin n) : ℝ :=
  1 / (1 + Real.sqrt (∑ i, J x₀ i j ^ 2))

/-- The gradient of the cost in scaled coordinates, component `j`. -/
def scaledGradient (f : Vec n → Vec m) (J : Vec n → Mat m n) (S : Fin n → ℝ) (x : Vec n) (j : Fin n) :
    ℝ := S j * ∑ i, J x i j * f x i

/-- The diagonal of the damping at `x`. -/
def damping (J : Vec n → Mat m n) (S : Fin n → ℝ) (x : Vec n) (j : Fin n) : ℝ :=
  max (1e-6 : ℝ) (min (∑ i, (J x i j * S j) ^ 2) (1e32 : ℝ))

/-- The damped linearised objective of Levenberg-Marquardt at `x`. -/
def lmObjective (f : Vec n → Vec m) (J : Vec n → Mat m n) (S : Fin n → ℝ) (u : ℝ) (x d : Vec n) : ℝ :=
  ∑ i, (f x i + ∑ j, J x i j * d j) ^ 2 + u * ∑ j, damping J S x j * (d j / S j) ^ 2

/-- `d` is the Levenberg-Marquardt step at `x` with damping `u`: the strict minimiser of the damped
linearised objective. -/
def IsLMStep (f : Vec n → Vec m) (J : Vec n → Mat m n) (S : Fin n → ℝ) (u : ℝ) (x d : Vec n) : Prop :=
  ∀ d', d' ≠ d → lmObjective f J S u x d < lmObjective f J S u x d'

/-- `Walk k x y`: `y` is reached from `x` by `k` Levenberg-Marquardt steps, each decreasing the cost. -/
inductive Walk (f : Vec n → Vec m) (J : Vec n → Mat m n) (S : Fin n → ℝ) : ℕ → Vec n → Vec n → Prop
  | refl (x) : Walk f J S 0 x x
  | step {k x y z u} : Walk f J S k x y → 0 < u → IsLMStep f J S u y (z - y) →
      costOf f z < costOf f y → Walk f J S (k + 1) x z

/-- The linear solver solves symmetric positive definite systems. -/
def SolvesSPD (solve : Mat n n → Vec n → Vec n) : Prop :=
  ∀ A b, Aᵀ = A → (∀ y, y ≠ 0 → 0 < y ⬝ᵥ A *ᵥ y) → A *ᵥ solve A b = b

end

end Ceres.TinySolver
