import Mathlib.LinearAlgebra.Matrix.DotProduct
import Mathlib.Data.Matrix.Mul
import Mathlib.Analysis.SpecialFunctions.Sqrt
import Mathlib.Analysis.Normed.Group.Constructions
import Verif.Jet.Model

/-! # Model of `TinySolver` and its function adapters

Sources: `include/ceres/tiny_solver.h`, `include/ceres/tiny_solver_cost_function_adapter.h`,
`include/ceres/tiny_solver_autodiff_function.h`.

Scalars are reals, rounding is not modelled.  The linear solver (a template argument, Eigen's LDLT by
default) is a function of the matrix and the right hand side.  A call of the user's function takes the
contents of the output buffers and returns its verdict and the buffers as it leaves them. -/

namespace Ceres.TinySolver

open Matrix

noncomputable section

variable {n m : ℕ}

/-- `ParameterVector`, `ResidualVector`. -/
abbrev Vec (n : ℕ) := Fin n → ℝ

/-- `JacobianMatrix`. -/
abbrev Mat (m n : ℕ) := Matrix (Fin m) (Fin n) ℝ

/-- The template argument `Function` (tiny_solver.h:72-97): called with and without a Jacobian. -/
structure Function (n m : ℕ) where
  evalJ : Vec n → Vec m → Mat m n → Bool × Vec m × Mat m n
  eval : Vec n → Vec m → Bool × Vec m

/-- `Status` (tiny_solver.h:164-177). -/
inductive Status where
  | gradientTooSmall | relativeStepSizeTooSmall | costTooSmall | hitMaxIterations
  | costChangeTooSmall
  deriving DecidableEq

/-- `Options` (tiny_solver.h:179-197). -/
structure Options where
  maxNumIterations : ℤ
  gradientTolerance : ℝ
  parameterTolerance : ℝ
  functionTolerance : ℝ
  costThreshold : ℝ
  initialTrustRegionRadius : ℝ

/-- The members of the solver that outlive an iteration (tiny_solver.h:371-377) and of its summary. -/
structure State (n m : ℕ) where
  residuals : Vec m
  fxNew : Vec m
  jacobian : Mat m n
  jacobiScaling : Vec n
  jtj : Mat n n
  g : Vec n
  cost : ℝ
  gradientMaxNorm : ℝ
  iterations : ℤ

/-- `v.squaredNorm()`. -/
def squaredNorm {k : ℕ} (v : Vec k) : ℝ := v ⬝ᵥ v

/-- `v.norm()`. -/
def norm {k : ℕ} (v : Vec k) : ℝ := Real.sqrt (squaredNorm v)

/-- `v.array().abs().maxCoeff()`. -/
def maxAbs {k : ℕ} (v : Vec k) : ℝ := ‖v‖

/-- `Update` (tiny_solver.h:213-241). -/
def update (F : Function n m) (x : Vec n) (s : State n m) : Bool × State n m :=
  let e := F.evalJ x s.residuals s.jacobian
  let s := { s with residuals := e.2.1, jacobian := e.2.2 }
  if !e.1 then (false, s)
  else
    let s := { s with residuals := -s.residuals }
    let s := if s.iterations = 0 then
        { s with jacobiScaling := fun j => 1 / (1 + norm (fun i => s.jacobian i j)) }
      else s
    let s := { s with jacobian := s.jacobian * Matrix.diagonal s.jacobiScaling }
    let s := { s with jtj := s.jacobianᵀ * s.jacobian }
    let s := { s with g := s.jacobianᵀ *ᵥ s.residuals }
    let s := { s with gradientMaxNorm := maxAbs s.g }
    let s := { s with cost := squaredNorm s.residuals / 2 }
    (true, s)

/-- `jtj_regularized_` (tiny_solver.h:271-277). -/
def regularized (jtj : Mat n n) (u : ℝ) : Mat n n :=
  jtj + Matrix.diagonal fun i => u * max (1e-6 : ℝ) (min (jtj i i) (1e32 : ℝ))

/-- `rho > 0` for `rho = a / b` (tiny_solver.h:306-307) in IEEE arithmetic: a positive number over zero
is infinite, zero over zero is not a number. -/
def ratioPos (a b : ℝ) : Prop := if b = 0 then 0 < a else 0 < a / b

/-- `(std::max)(1 / 3., 1 - tmp * tmp * tmp)` with `tmp = 2 * rho - 1` (tiny_solver.h:329-330). -/
def shrinkFactor (a b : ℝ) : ℝ :=
  if b = 0 then 1 / 3 else
    let tmp := 2 * (a / b) - 1
    max (1 / 3) (1 - tmp * tmp * tmp)

open Classical in
/-- The loop of `Solve` (tiny_solver.h:268-348), `fuel` iterations left.  Leaving the loop through its
condition keeps the initial status. -/
def loop (o : Options) (F : Function n m) (solve : Mat n n → Vec n → Vec n) :
    ℕ → State n m → Vec n → ℝ → ℝ → State n m × Vec n × Status
  | 0, s, x, _, _ => (s, x, .hitMaxIterations)
  | fuel + 1, s, x, u, v =>
    let lmStep := solve (regularized s.jtj u) s.g
    let dx : Vec n := fun i => s.jacobiScaling i * lmStep i
    let parameterTolerance := o.parameterTolerance * (norm x + o.parameterTolerance)
    if norm dx < parameterTolerance then (s, x, .relativeStepSizeTooSmall)
    else
      let xNew := x + dx
      let e := F.eval xNew s.fxNew
      let s := { s with fxNew := e.2 }
      let costChange := 2 * s.cost - squaredNorm s.fxNew
      let modelCostChange := lmStep ⬝ᵥ ((2 : ℝ) • s.g - s.jtj *ᵥ lmStep)
      if ratioPos costChange modelCostChange then
        let x := xNew
        let s := (update F x s).2
        if |costChange| < o.functionTolerance then (s, x, .costChangeTooSmall)
        else if s.gradientMaxNorm < o.gradientTolerance then (s, x, .gradientTooSmall)
        else if s.cost < o.costThreshold then (s, x, .costTooSmall)
        else
          let u := u * shrinkFactor costChange modelCostChange
          loop o F solve fuel { s with iterations := s.iterations + 1 } x u 2
      else if |costChange| < o.functionTolerance then (s, x, .costChangeTooSmall)
      else loop o F solve fuel { s with iterations := s.iterations + 1 } x (u * v) (v * 2)

/-- `Summary` (tiny_solver.h:199-208). -/
structure Summary where
  initialCost : ℝ
  finalCost : ℝ
  gradientMaxNorm : ℝ
  iterations : ℤ
  status : Status

/-- `Solve` (tiny_solver.h:243-352): the summary, the final value of `*x_and_min` and the solver
afterwards. -/
def solveTiny (o : Options) (F : Function n m) (solve : Mat n n → Vec n → Vec n) (s : State n m)
    (x : Vec n) : Summary × Vec n × State n m :=
  let s := { s with iterations := 0, gradientMaxNorm := -1 }
  let s := (update F x s).2
  let initialCost := s.cost
  if s.gradientMaxNorm < o.gradientTolerance then
    (⟨initialCost, s.cost, s.gradientMaxNorm, s.iterations, .gradientTooSmall⟩, x, s)
  else if s.cost < o.costThreshold then
    (⟨initialCost, s.cost, s.gradientMaxNorm, s.iterations, .costTooSmall⟩, x, s)
  else
    let u := 1 / o.initialTrustRegionRadius
    let r := loop o F solve (o.maxNumIterations - 1).toNat { s with iterations := 1 } x u 2
    (⟨initialCost, r.1.cost, r.1.gradientMaxNorm, r.1.iterations, r.2.2⟩, r.2.1, r.1)

/-- `Residuals()` (tiny_solver.h:354-358). -/
def State.getResiduals (s : State n m) : Vec m := -s.residuals

/-- `Jacobian()` (tiny_solver.h:360-363). -/
def State.getJacobian (s : State n m) : Mat m n :=
  s.jacobian * Matrix.diagonal fun j => (s.jacobiScaling j)⁻¹

/-! ## Adapters -/

/-- A cost function with one parameter block: verdict, residuals and row major Jacobian, given the
contents of the buffers. -/
structure CostFunction (n m : ℕ) where
  evaluate : Vec n → Vec m → Option (ℕ → ℝ) → Bool × Vec m × Option (ℕ → ℝ)

/-- A matrix stored by columns. -/
def ofColMajor (m n : ℕ) (a : ℕ → ℝ) : Mat m n := fun i j => a (j * m + i)

/-- A matrix stored by rows. -/
def ofRowMajor (m n : ℕ) (a : ℕ → ℝ) : Mat m n := fun i j => a (i * n + j)

/-- `Map<ColMajor>(jacobian) = row_major_jacobian_`: entry by entry, column by column. -/
def copyToColMajor (m n : ℕ) (rowMajor jacobian : ℕ → ℝ) : ℕ → ℝ :=
  (List.range n).foldl (fun a j => (List.range m).foldl
    (fun a i => Function.update a (j * m + i) (rowMajor (i * n + j))) a) jacobian

/-- `TinySolverCostFunctionAdapter::operator()` (tiny_solver_cost_function_adapter.h:115-137): verdict,
residuals and column major Jacobian; `scratch` is the previous content of `row_major_jacobian_`. -/
def adapterCall (c : CostFunction n m) (scratch : ℕ → ℝ) (x : Vec n) (residuals : Vec m)
    (jacobian : Option (ℕ → ℝ)) : Bool × Vec m × Option (ℕ → ℝ) :=
  match jacobian with
  | none => c.evaluate x residuals none
  | some jac =>
    let e := c.evaluate x residuals (some scratch)
    if !e.1 then (false, e.2.1, some jac)
    else (true, e.2.1, some (copyToColMajor m n (e.2.2.getD scratch) jac))

open Ceres.Jet (Jet) in
/-- A templated cost functor: one function for doubles, one for jets.  `none` is a failure. -/
structure AutoFunctor (n m : ℕ) where
  evalReal : Vec n → Option (Vec m)
  evalJet : (Fin n → Jet n) → Option (Fin m → Jet n)

/-- `jacobian_matrix.row(r) = v` in a column major array. -/
def writeRow (m n : ℕ) (r : ℕ) (v : ℕ → ℝ) (a : ℕ → ℝ) : ℕ → ℝ :=
  (List.range n).foldl (fun a j => Function.update a (j * m + r) (v j)) a

/-- `TinySolverAutoDiffFunction::operator()` (tiny_solver_autodiff_function.h:122-160).  A failing
functor is taken to leave the residuals alone.  The sentinel written to the output jets beforehand plays
no role for a functor that writes all its outputs. -/
def autoDiffCall (f : AutoFunctor n m) (x : Vec n) (residuals : Vec m) (jacobian : Option (ℕ → ℝ)) :
    Bool × Vec m × Option (ℕ → ℝ) :=
  match jacobian with
  | none =>
    match f.evalReal x with
    | none => (false, residuals, none)
    | some r => (true, r, none)
  | some jac =>
    let jetParameters : Fin n → Ceres.Jet.Jet n := fun i => ⟨x i, fun j => if j = i then 1 else 0⟩
    match f.evalJet jetParameters with
    | none => (false, residuals, some jac)
    | some jetResiduals =>
      let jac := (List.finRange m).foldl (fun a (r : Fin m) =>
        writeRow m n r.val (fun j => if h : j < n then (jetResiduals r).v ⟨j, h⟩ else 0) a) jac
      (true, fun r => (jetResiduals r).a, some jac)

end

end Ceres.TinySolver
