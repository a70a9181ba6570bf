import Mathlib.Analysis.SpecialFunctions.Sqrt
import Mathlib.Data.Real.Basic
import Mathlib.Algebra.BigOperators.Fin

/-! # Numeric differentiation

`include/ceres/internal/numeric_diff.h` and the cost functions built on it, over the reals.  Rounding is
not modelled.  Parameters are addressed by block and entry, as through the `double**` of the code.  A
functor is any partial function of the parameters; a failing functor leaves the residuals alone. -/

namespace Ceres.NumericDiff

noncomputable section

/-- `parameters[block][entry]`. -/
abbrev Params := ℕ → ℕ → ℝ

/-- `parameters[b][j] = v`. -/
def Params.set (P : Params) (b j : ℕ) (v : ℝ) : Params :=
  Function.update P b (Function.update (P b) j v)

/-- A user functor with `m` residuals. -/
abbrev Functor (m : ℕ) := Params → Option (Fin m → ℝ)

/-- `NumericDiffMethodType` (types.h). -/
inductive Method where
  | central | forward | ridders
  deriving DecidableEq

/-- `NumericDiffOptions` (numeric_diff_options.h:42-70) and the machine epsilon.  A negative number of
extrapolations behaves like zero. -/
structure Options where
  relativeStepSize : ℝ
  riddersRelativeInitialStepSize : ℝ
  maxNumRiddersExtrapolations : ℕ
  riddersEpsilon : ℝ
  riddersStepShrinkFactor : ℝ
  /-- `std::numeric_limits<double>::epsilon()`. -/
  machineEpsilon : ℝ
  /-- `std::numeric_limits<double>::max()`. -/
  big : ℝ

variable {m : ℕ}

/-- What a call leaves behind: its verdict, the mutable parameters and the output column. -/
structure Column (m : ℕ) where
  ok : Bool
  params : Params
  residuals : Fin m → ℝ

/-- `EvaluateJacobianColumn` (numeric_diff.h:172-232). -/
def evaluateJacobianColumn (method : Method) (f : Functor m) (b j : ℕ) (delta : ℝ) (x : ℕ → ℝ)
    (residualsAtEvalPoint : Fin m → ℝ) (P : Params) (residuals : Fin m → ℝ) : Column m :=
  let P := P.set b j (x j + delta)
  match f P with
  | none => ⟨false, P, residuals⟩
  | some residuals =>
    let oneOverDelta := 1 / delta
    if method = .central ∨ method = .ridders then
      let P := P.set b j (x j - delta)
      match f P with
      | none => ⟨false, P, residuals⟩
      | some temp =>
        let residuals := residuals - temp
        let oneOverDelta := oneOverDelta / 2
        let P := P.set b j (x j)
        ⟨true, P, oneOverDelta • residuals⟩
    else
      let residuals := residuals - residualsAtEvalPoint
      let P := P.set b j (x j)
      ⟨true, P, oneOverDelta • residuals⟩

/-- The Euclidean norm of a vector of residuals. -/
def norm2 (v : Fin m → ℝ) : ℝ := Real.sqrt (∑ i, v i * v i)

/-- The inner loop of `EvaluateRiddersJacobianColumn` (numeric_diff.h:329-361), `rem` columns left,
the next one `k`.  Returns the columns of `current_candidates`, `norm_error` and `residuals`. -/
def riddersInner (o : Options) (prev : ℕ → Fin m → ℝ) :
    ℕ → ℕ → ℝ → (ℕ → Fin m → ℝ) → ℝ → (Fin m → ℝ) → (ℕ → Fin m → ℝ) × ℝ × (Fin m → ℝ)
  | 0, _, _, cur, err, residuals => (cur, err, residuals)
  | rem + 1, k, factor, cur, err, residuals =>
    let cur := Function.update cur k ((1 / (factor - 1)) • (factor • cur (k - 1) - prev (k - 1)))
    let factor := factor * (o.riddersStepShrinkFactor * o.riddersStepShrinkFactor)
    let candidateError := max (norm2 (cur k - cur (k - 1))) (norm2 (cur k - prev (k - 1)))
    if candidateError ≤ err then
      let err := candidateError
      let residuals := cur k
      if err < o.riddersEpsilon then (cur, err, residuals)
      else riddersInner o prev rem (k + 1) factor cur err residuals
    else riddersInner o prev rem (k + 1) factor cur err residuals

/-- The outer loop of `EvaluateRiddersJacobianColumn` (numeric_diff.h:304-383), `rem` rows left, the next
one `i`. -/
def riddersOuter (o : Options) (f : Functor m) (b j : ℕ) (x : ℕ → ℝ) (r0 : Fin m → ℝ) :
    ℕ → ℕ → ℝ → (ℕ → Fin m → ℝ) → (ℕ → Fin m → ℝ) → ℝ → Params → (Fin m → ℝ) → Column m
  | 0, _, _, _, _, _, P, residuals => ⟨true, P, residuals⟩
  | rem + 1, i, step, cur, prev, err, P, residuals =>
    let c := evaluateJacobianColumn .ridders f b j step x r0 P (cur 0)
    if !c.ok then ⟨false, c.params, residuals⟩
    else
      let P := c.params
      let cur := Function.update cur 0 c.residuals
      let residuals := if i = 0 then cur 0 else residuals
      let step := step / o.riddersStepShrinkFactor
      let factor := o.riddersStepShrinkFactor * o.riddersStepShrinkFactor
      let r := riddersInner o prev i 1 factor cur err residuals
      let cur := r.1
      let err := r.2.1
      let residuals := r.2.2
      if err < o.riddersEpsilon then ⟨true, P, residuals⟩
      else if i > 0 ∧ norm2 (cur i - prev (i - 1)) ≥ 2 * err then ⟨true, P, residuals⟩
      else riddersOuter o f b j x r0 rem (i + 1) step prev cur err P residuals

/-- `EvaluateRiddersJacobianColumn` (numeric_diff.h:245-384).  The candidate matrices start
uninitialised: `junk`. -/
def evaluateRiddersJacobianColumn (o : Options) (f : Functor m) (b j : ℕ) (delta : ℝ) (x : ℕ → ℝ)
    (r0 : Fin m → ℝ) (junk : ℕ → Fin m → ℝ) (P : Params) (residuals : Fin m → ℝ) : Column m :=
  let step := delta * o.riddersStepShrinkFactor ^ (o.maxNumRiddersExtrapolations / 2)
  riddersOuter o f b j x r0 o.maxNumRiddersExtrapolations 0 step junk junk o.big P residuals

/-- `std::max(min_step_size, step_size(j))` (numeric_diff.h:107-124, 134). -/
def stepSize (o : Options) (method : Method) (xj : ℝ) : ℝ :=
  let stepSize := |xj| *
    (if method = .ridders then o.riddersRelativeInitialStepSize else o.relativeStepSize)
  let minStepSize := Real.sqrt o.machineEpsilon
  let minStepSize := if method = .ridders then max minStepSize o.riddersRelativeInitialStepSize
    else minStepSize
  max minStepSize stepSize

/-- `parameter_jacobian.col(j) = residuals`, row major with `size` columns. -/
def writeColumn (size j : ℕ) (col : Fin m → ℝ) (jac : ℕ → ℝ) : ℕ → ℝ :=
  (List.finRange m).foldl (fun jac (i : Fin m) => Function.update jac (size * i.val + j) (col i)) jac

/-- What the differentiation of a block leaves behind. -/
structure Block where
  ok : Bool
  params : Params
  jacobian : ℕ → ℝ

/-- The loop over the entries of a block (numeric_diff.h:133-169), `rem` left, the next one `j`. -/
def blockLoop (o : Options) (method : Method) (f : Functor m) (b size : ℕ) (x : ℕ → ℝ)
    (r0 : Fin m → ℝ) (junk : ℕ → Fin m → ℝ) : ℕ → ℕ → Params → (Fin m → ℝ) → (ℕ → ℝ) → Block
  | 0, _, P, _, jac => ⟨true, P, jac⟩
  | rem + 1, j, P, residuals, jac =>
    let delta := stepSize o method (x j)
    let c := if method = .ridders then
        evaluateRiddersJacobianColumn o f b j delta x r0 junk P residuals
      else evaluateJacobianColumn method f b j delta x r0 P residuals
    if !c.ok then ⟨false, c.params, jac⟩
    else blockLoop o method f b size x r0 junk rem (j + 1) c.params c.residuals
      (writeColumn size j c.residuals jac)

/-- `EvaluateJacobianForParameterBlock` (numeric_diff.h:63-170).  `x` is a copy of the block. -/
def evaluateJacobianForParameterBlock (o : Options) (method : Method) (f : Functor m) (b size : ℕ)
    (r0 : Fin m → ℝ) (junk : ℕ → Fin m → ℝ) (P : Params) (jac : ℕ → ℝ) : Block :=
  blockLoop o method f b size (P b) r0 junk size 0 P (junk 0) jac

/-- What an evaluation returns and leaves in the caller's buffers. -/
structure Result (m : ℕ) where
  ok : Bool
  residuals : Fin m → ℝ
  jacobians : ℕ → Option (ℕ → ℝ)

/-- `EvaluateJacobianForParameterBlocks` (numeric_diff.h:439-495): the blocks from `b` on, until one
fails. -/
def evaluateBlocks (o : Options) (method : Method) (f : Functor m) (r0 : Fin m → ℝ)
    (junk : ℕ → Fin m → ℝ) : List ℕ → ℕ → Params → (ℕ → Option (ℕ → ℝ)) →
      Bool × (ℕ → Option (ℕ → ℝ))
  | [], _, _, jacobians => (true, jacobians)
  | size :: sizes, b, P, jacobians =>
    match jacobians b with
    | none => evaluateBlocks o method f r0 junk sizes (b + 1) P jacobians
    | some jac =>
      let r := evaluateJacobianForParameterBlock o method f b size r0 junk P jac
      let jacobians := Function.update jacobians b (some r.jacobian)
      if r.ok then evaluateBlocks o method f r0 junk sizes (b + 1) r.params jacobians
      else (false, jacobians)

/-- `NumericDiffCostFunction::Evaluate` (numeric_diff_cost_function.h:238-281): the verdict of the
differentiation is dropped. -/
def numericEvaluate (o : Options) (method : Method) (sizes : List ℕ) (f : Functor m)
    (junk : ℕ → Fin m → ℝ) (P : Params) (residuals : Fin m → ℝ)
    (jacobians : Option (ℕ → Option (ℕ → ℝ))) : Result m :=
  match f P with
  | none => ⟨false, residuals, jacobians.getD fun _ => none⟩
  | some residuals =>
    match jacobians with
    | none => ⟨true, residuals, fun _ => none⟩
    | some jacobians =>
      let r := evaluateBlocks o method f residuals junk sizes 0 P jacobians
      ⟨true, residuals, r.2⟩

/-- `DynamicNumericDiffCostFunction::Evaluate` (dynamic_numeric_diff_cost_function.h:125-183); the
number of residuals is positive and there is a block, as the code checks. -/
def dynamicNumericEvaluate (o : Options) (method : Method) (sizes : List ℕ) (f : Functor m)
    (junk : ℕ → Fin m → ℝ) (P : Params) (residuals : Fin m → ℝ)
    (jacobians : Option (ℕ → Option (ℕ → ℝ))) : Result m :=
  match f P with
  | none => ⟨false, residuals, jacobians.getD fun _ => none⟩
  | some residuals =>
    match jacobians with
    | none => ⟨true, residuals, fun _ => none⟩
    | some jacobians =>
      let r := evaluateBlocks o method f residuals junk sizes 0 P jacobians
      ⟨r.1, residuals, r.2⟩

/-- `NumericDiffFirstOrderFunction::Evaluate` (numeric_diff_first_order_function.h:179-224): one block,
one residual.  Returns the verdict, the cost and the gradient. -/
def firstOrderEvaluate (o : Options) (method : Method) (size : ℕ) (f : (ℕ → ℝ) → Option ℝ)
    (junk : ℕ → ℝ) (x : ℕ → ℝ) (cost : ℝ) (gradient : Option (ℕ → ℝ)) :
    Bool × ℝ × Option (ℕ → ℝ) :=
  match f x with
  | none => (false, cost, gradient)
  | some cost =>
    match gradient with
    | none => (true, cost, none)
    | some g =>
      let r := evaluateJacobianForParameterBlock o method
        (fun P => (f (P 0)).map fun c (_ : Fin 1) => c) 0 size (fun _ => cost)
        (fun k _ => junk k) (fun _ => x) g
      (r.ok, cost, some r.jacobian)

end

end Ceres.NumericDiff
