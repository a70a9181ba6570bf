import Verif.TrustRegion.Model
import Mathlib.Analysis.InnerProductSpace.PiL2
import Mathlib.LinearAlgebra.Matrix.DotProduct

/-!
# Models of the trust region strategies
(levenberg_marquardt_strategy.cc, dogleg_strategy.cc)

Numbers are reals: rounding and non-finite values are not modelled, except that a linear solver
may return an array that is not finite, which is the same as `failure` to the strategies
(levenberg_marquardt_strategy.cc:126-129, dogleg_strategy.cc:592-600).

The Jacobian and the residuals belong to the current point, so they are functions of it.
-/
namespace Ceres.Strategy

open Ceres.TrustRegion

/-- Vectors with `n` components and the Euclidean norm. -/
abbrev E (n : Nat) := EuclideanSpace ℝ (Fin n)

/-- A vector from its components. -/
abbrev vec {n : Nat} (f : Fin n → ℝ) : E n := WithLp.toLp 2 f

/-- The linear least squares data of a point: `Jacobian` and `residuals`. -/
structure Linearization (m n : Nat) where
  J : Matrix (Fin m) (Fin n) ℝ
  r : Fin m → ℝ

/-- `SparseMatrix::SquaredColumnNorm`. -/
def sqColNorm {m n : Nat} (L : Linearization m n) (i : Fin n) : ℝ := ∑ k, L.J k i ^ 2

/-- A linear solver: given the data and the diagonal `D`, fails or returns a vector. -/
abbrev Solver (m n : Nat) := Linearization m n → (Fin n → ℝ) → StepOut (E n)

/-! ### Levenberg-Marquardt -/

/-- Members of `LevenbergMarquardtStrategy` (levenberg_marquardt_strategy.h:74-88). -/
structure LM (n : Nat) where
  radius : ℝ
  maxRadius : ℝ
  minDiag : ℝ
  maxDiag : ℝ
  decreaseFactor : ℝ
  reuse : Bool
  diag : Fin n → ℝ

variable {m n : Nat}

/-- Constructor (levenberg_marquardt_strategy.cc:50-65); `none` when a `CHECK` fails.  The
contents of the not yet sized `diagonal_` are irrelevant because `reuse` is false. -/
noncomputable def LM.new (radius maxRadius minDiag maxDiag : ℝ) : Option (LM n) :=
  if 0 < minDiag ∧ minDiag ≤ maxDiag ∧ 0 < maxRadius then
    some ⟨radius, maxRadius, minDiag, maxDiag, 2, false, fun _ => 0⟩
  else none

/-- Lines 79-89: the diagonal, recomputed unless it is reused. -/
noncomputable def LM.refresh (s : LM n) (L : Linearization m n) : LM n :=
  if s.reuse then s
  else { s with diag := fun i => min (max (sqColNorm L i) s.minDiag) s.maxDiag }

/-- `ComputeStep` (levenberg_marquardt_strategy.cc:69-156). -/
noncomputable def LM.compute (solve : Solver m n) (s : LM n) (L : Linearization m n) :
    LM n × StepOut (E n) :=
  ({ s.refresh L with reuse := true },
    match solve L (fun i => Real.sqrt ((s.refresh L).diag i / s.radius)) with
    | .fatal => .fatal
    | .failure => .failure
    | .step y => .step (-y))

/-- `StepAccepted` (levenberg_marquardt_strategy.cc:158-165). -/
noncomputable def LM.accepted (s : LM n) (q : ℝ) : Option (LM n) :=
  if 0 < q then
    some { s with
      radius := min s.maxRadius (s.radius / max (1 / 3) (1 - (2 * q - 1) ^ 3))
      decreaseFactor := 2
      reuse := false }
  else none

/-- `StepRejected` (levenberg_marquardt_strategy.cc:167-171). -/
noncomputable def LM.rejected (s : LM n) (_q : ℝ) : LM n :=
  { s with
    radius := s.radius / s.decreaseFactor
    decreaseFactor := s.decreaseFactor * 2
    reuse := true }

/-- `StepIsInvalid` (levenberg_marquardt_strategy.h:63-69). -/
noncomputable def LM.invalid (s : LM n) : LM n := s.rejected 0

/-- The strategy as seen by the minimizer. -/
noncomputable def lmStrategy {X : Type} (solve : Solver m n) (lin : X → Linearization m n) :
    Strategy (LM n) X (E n) ℝ where
  compute s x := s.compute solve (lin x)
  accepted := LM.accepted
  rejected := LM.rejected
  invalid := LM.invalid
  radius s := s.radius

/-- Predicted decrease of the cost (trust_region_minimizer.cc:430-438):
`-(J s) . (r + J s / 2)`. -/
noncomputable def modelCostChange (L : Linearization m n) (s : E n) : ℝ :=
  -((L.J.mulVec s) ⬝ᵥ (fun k => L.r k + (L.J.mulVec s) k / 2))

/-! ### Dogleg -/

/-- Members of `DoglegStrategy` (dogleg_strategy.h:96-158), traditional dogleg. -/
structure Dogleg (n : Nat) where
  radius : ℝ
  maxRadius : ℝ
  minDiag : ℝ
  maxDiag : ℝ
  mu : ℝ
  stepNorm : ℝ
  reuse : Bool
  diag : Fin n → ℝ
  grad : E n
  gn : E n
  alpha : ℝ

/-- Constructor (dogleg_strategy.cc:54-73). -/
noncomputable def Dogleg.new (radius maxRadius minDiag maxDiag : ℝ) : Option (Dogleg n) :=
  if 0 < minDiag ∧ minDiag ≤ maxDiag ∧ 0 < maxRadius then
    some ⟨radius, maxRadius, minDiag, maxDiag, 1 / 10 ^ 8, 0, false, fun _ => 0, 0, 0, 0⟩
  else none

/-- The scaled step of `ComputeTraditionalDoglegStep` (dogleg_strategy.cc:201-255), before the
division by the diagonal, and the value of `dogleg_step_norm_`. -/
noncomputable def doglegStep {V : Type} [NormedAddCommGroup V] [InnerProductSpace ℝ V]
    (radius alpha : ℝ) (g b : V) : V × ℝ :=
  if ‖b‖ ≤ radius then (b, ‖b‖)
  else if radius ≤ ‖g‖ * alpha then ((-(radius / ‖g‖)) • g, radius)
  else
    let bDotA := -alpha * inner ℝ g b
    let aSq := (alpha * ‖g‖) ^ 2
    let bma := aSq - 2 * bDotA + ‖b‖ ^ 2
    let c := bDotA - aSq
    let d := Real.sqrt (c * c + bma * (radius ^ 2 - aSq))
    let beta := if c ≤ 0 then (d - c) / bma else (radius * radius - aSq) / (d + c)
    let s := (-alpha * (1 - beta)) • g + beta • b
    (s, ‖s‖)

/-- Lines 123-131: diagonal, scaled gradient and Cauchy multiplier. -/
noncomputable def Dogleg.refresh (s : Dogleg n) (L : Linearization m n) : Dogleg n :=
  let d := fun i => Real.sqrt (min (max (sqColNorm L i) s.minDiag) s.maxDiag)
  let g : E n := vec (fun i => (L.J.transpose.mulVec L.r) i / d i)
  let Jg := L.J.mulVec (fun i => g i / d i)
  { s with
    diag := d
    grad := g
    alpha := ‖g‖ ^ 2 / (Jg ⬝ᵥ Jg) }

/-- The loop of `ComputeGaussNewtonStep` (dogleg_strategy.cc:544-602), with fuel: `none` if the
fuel runs out, otherwise the new `mu_` and the outcome. -/
noncomputable def gnLoop (solve : Solver m n) (L : Linearization m n) (diag : Fin n → ℝ) :
    Nat → ℝ → Option (ℝ × StepOut (E n))
  | 0, _ => none
  | fuel + 1, mu =>
    if mu < 1 then
      match solve L (fun i => diag i * Real.sqrt mu) with
      | .fatal => some (mu, .fatal)
      | .failure => gnLoop solve L diag fuel (mu * 10)
      | .step y => some (mu, .step y)
    else some (mu, .failure)

/-- `ComputeStep` for the traditional dogleg (dogleg_strategy.cc:79-167).  Nine rounds of the
Gauss-Newton loop suffice (`gnLoop_terminates`); the outcome `failure` stands for the
impossible case.  `gn` is only written when the solve succeeds: after a failed solve the code
has garbage there, but `StepIsInvalid` or the end of the run follows before it is read. -/
noncomputable def Dogleg.compute (solve : Solver m n) (s : Dogleg n) (L : Linearization m n) :
    Dogleg n × StepOut (E n) :=
  if s.reuse then
    let p := doglegStep s.radius s.alpha s.grad s.gn
    ({ s with stepNorm := p.2 }, .step (vec (fun i => p.1 i / s.diag i)))
  else
    let t := { s.refresh L with reuse := true }
    match gnLoop solve L t.diag 9 s.mu with
    | none => (t, .failure)
    | some (mu, .fatal) => ({ t with mu := mu }, .fatal)
    | some (mu, .failure) => ({ t with mu := mu }, .failure)
    | some (mu, .step y) =>
      let gn : E n := vec (fun i => y i * -t.diag i)
      let p := doglegStep t.radius t.alpha t.grad gn
      ({ t with
          mu := mu
          gn := gn
          stepNorm := p.2 }, .step (vec (fun i => p.1 i / t.diag i)))

/-- `StepAccepted` (dogleg_strategy.cc:618-634). -/
noncomputable def Dogleg.accepted (s : Dogleg n) (q : ℝ) : Option (Dogleg n) :=
  if 0 < q then
    let r1 := if q < 1 / 4 then s.radius * (1 / 2) else s.radius
    let r2 := if 3 / 4 < q then max r1 (3 * s.stepNorm) else r1
    some { s with
      radius := r2
      mu := max (1 / 10 ^ 8) (2 * s.mu / 10)
      reuse := false }
  else none

/-- `StepRejected` (dogleg_strategy.cc:636-639). -/
noncomputable def Dogleg.rejected (s : Dogleg n) (_q : ℝ) : Dogleg n :=
  { s with
    radius := s.radius * (1 / 2)
    reuse := true }

/-- `StepIsInvalid` (dogleg_strategy.cc:641-644). -/
noncomputable def Dogleg.invalid (s : Dogleg n) : Dogleg n :=
  { s with
    mu := s.mu * 10
    reuse := false }

/-- The strategy as seen by the minimizer. -/
noncomputable def doglegStrategy {X : Type} (solve : Solver m n) (lin : X → Linearization m n) :
    Strategy (Dogleg n) X (E n) ℝ where
  compute s x := s.compute solve (lin x)
  accepted := Dogleg.accepted
  rejected := Dogleg.rejected
  invalid := Dogleg.invalid
  radius s := s.radius

end Ceres.Strategy
