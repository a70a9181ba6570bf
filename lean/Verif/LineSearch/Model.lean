import Mathlib.Algebra.Order.Field.Basic
import Mathlib.Algebra.Order.Group.Abs

/-!
# Model of the line searches
(line_search.cc, line_search.h, function_sample.h, function_sample.cc)

Numbers are elements of an arbitrary linearly ordered field `K`; rounding is not modelled.
Infinities and NaN *are* represented where the code looks at them: the value and the slope an
evaluation produces are `Ext K`.  Points of the ambient space are elements of an arbitrary type
`X`, gradient vectors of an arbitrary type `V`.
-/
namespace Ceres.LineSearch

/-- A double that may fail to be finite: a finite number, plus or minus infinity, or NaN. -/
inductive Ext (K : Type) where
  | fin (k : K)
  | pinf
  | ninf
  | nan
deriving DecidableEq

variable {K X V : Type} [Field K] [LinearOrder K]

/-- `std::isfinite`. -/
def Ext.finite : Ext K → Bool
  | .fin _ => true
  | _ => false

/-- The IEEE comparison `fabs(g) <= t` with a finite `t`. -/
def Ext.absLe : Ext K → K → Bool
  | .fin g, t => decide (|g| ≤ t)
  | _, _ => false

/-- The IEEE comparison `g * d >= 0` with a finite `d` (an infinity times zero is NaN). -/
def Ext.mulNonneg : Ext K → K → Bool
  | .fin g, d => decide (0 ≤ g * d)
  | .pinf, d => decide (0 < d)
  | .ninf, d => decide (d < 0)
  | .nan, _ => false

/-- The IEEE comparison `g >= 0`. -/
def Ext.nonneg : Ext K → Bool
  | .fin g => decide (0 ≤ g)
  | .pinf => true
  | .ninf => false
  | .nan => false

/-- `FunctionSample` (function_sample.h:50-88).  `vx` is `vector_x` with its validity flag, `vg`
is `vector_gradient` with its flag.  `value` is read by the code only under `value_is_valid`, and
`gradient` only under `value_is_valid` after an evaluation that asked for it; in the model these
fields are `0` when they were not assigned (function_sample.cc:37-64). -/
structure Sample (K X V : Type) where
  x : K
  vx : Option X
  value : K
  valueValid : Bool
  vg : Option V
  gradient : Ext K
  gradValid : Bool
deriving DecidableEq

/-- `FunctionSample()` (function_sample.cc:37-44). -/
def Sample.empty : Sample K X V := ⟨0, none, 0, false, none, .fin 0, false⟩

/-- `FunctionSample(x, value)` (function_sample.cc:46-53). -/
def Sample.ofValue (x value : K) : Sample K X V := ⟨x, none, value, true, none, .fin 0, false⟩

/-- `initial_position`: `FunctionSample(0.0, cost, gradient)` with the vector set
(line_search.cc:293-295, 386-388; function_sample.cc:55-64). -/
def Sample.initial (p : X) (cost slope : K) : Sample K X V :=
  ⟨0, some p, cost, true, none, .fin slope, true⟩

/-- `LineSearchFunction` (line_search.cc:92-149): `plus t` is
`evaluator_->Plus(position_, t * direction_)`, `eval x g` is the evaluator's cost and, if `g`
asks for it, gradient at `x` (`none` if `Evaluate` fails), `slope v` is `direction_.dot(v)`,
`dirNorm` is `DirectionInfinityNorm()`.  The evaluator is assumed to be a function of the point. -/
structure Fn (K X V : Type) where
  position : X
  plus : K → Option X
  eval : X → Bool → Option (Ext K × V)
  slope : V → Ext K
  dirNorm : K

/-- `LineSearchFunction::Evaluate` (line_search.cc:103-145). -/
def Fn.evaluate (F : Fn K X V) (t : K) (evaluateGradient : Bool) : Sample K X V :=
  match F.plus t with
  | none => { (Sample.empty : Sample K X V) with x := t }
  | some x =>
    match F.eval x evaluateGradient with
    | some (.fin c, v) =>
      if evaluateGradient then
        if (F.slope v).finite then ⟨t, some x, c, true, some v, F.slope v, true⟩
        else ⟨t, some x, c, true, none, F.slope v, false⟩
      else ⟨t, some x, c, true, none, .fin 0, false⟩
    | _ => ⟨t, some x, 0, false, none, .fin 0, false⟩

/-- `LineSearchInterpolationType` (types.h). -/
inductive Interp where
  | bisection
  | quadratic
  | cubic
deriving DecidableEq

/-- `LineSearch::Options` (line_search.h:65-142). -/
structure Opts (K : Type) where
  interp : Interp
  sufficientDecrease : K
  maxContraction : K
  minContraction : K
  minStepSize : K
  maxNumIterations : Nat
  sufficientCurvatureDecrease : K
  maxExpansion : K

/-- The samples handed to `MinimizeInterpolatingPolynomial` (line_search.cc:244-266). -/
def interpSamples (type : Interp) (lowerbound previous current : Sample K X V) :
    List (Sample K X V) :=
  match type with
  | .quadratic =>
    if previous.valueValid then
      [lowerbound, .ofValue current.x current.value, .ofValue previous.x previous.value]
    else [lowerbound, .ofValue current.x current.value]
  | _ => if previous.valueValid then [lowerbound, current, previous] else [lowerbound, current]

/-- `InterpolatingPolynomialMinimizingStepSize` (line_search.cc:210-276); `none` is a failed
`CHECK`.  `mp` is `MinimizeInterpolatingPolynomial` (modelled in `LineSearch.Polynomial`). -/
def stepSize (mp : List (Sample K X V) → K → K → K) (type : Interp)
    (lowerbound previous current : Sample K X V) (minStep maxStep : K) : Option K :=
  if !current.valueValid || (type == .bisection && decide (maxStep ≤ current.x)) then
    some (min (max (current.x * (1 / 2)) minStep) maxStep)
  else if type == .bisection then
    if current.x < maxStep then some maxStep else none
  else if lowerbound.valueValid then
    some (mp (interpSamples type lowerbound previous current) minStep maxStep)
  else none

/-- How a search ends.  `aborted` is a failed `CHECK`. -/
inductive Status where
  | success
  | maxIterations
  | stepTooSmall
  | invalidBracket
  | invalidPoint
  | aborted
deriving DecidableEq

/-- `LineSearch::Summary` (line_search.h:145-), the timings left out; `trace` is a ghost field:
every sample the function was evaluated for, in order. -/
structure Summary (K X V : Type) where
  status : Status
  optimal : Sample K X V
  numFunctionEvaluations : Nat
  numGradientEvaluations : Nat
  numIterations : Nat
  trace : List (Sample K X V)
deriving DecidableEq

/-! ### Armijo -/

/-- The loop condition's complement: the sample is valid and decreases the cost enough
(line_search.cc:313-315, 533-535, 853-855). -/
def sufficient (o : Opts K) (cost slope : K) (s : Sample K X V) : Bool :=
  s.valueValid && !decide (cost + o.sufficientDecrease * slope * s.x < s.value)

/-- The loop of `ArmijoLineSearch::DoSearch` (line_search.cc:313-365).  `S` holds the counters
before the loop test; the first argument bounds the number of further evaluations
(`max_num_iterations - num_iterations`, see `armijo`). -/
def armijoLoop (mp : List (Sample K X V) → K → K → K) (o : Opts K) (F : Fn K X V)
    (cost slope : K) : Nat → Sample K X V → Sample K X V → Summary K X V → Summary K X V
  | fuel, previous, current, S =>
    if sufficient o cost slope current then
      { S with
        status := .success
        optimal := current }
    else if o.maxNumIterations ≤ S.numIterations + 1 then
      { S with
        status := .maxIterations
        numIterations := S.numIterations + 1 }
    else
      match stepSize mp o.interp (.initial F.position cost slope) previous current
          (o.maxContraction * current.x) (o.minContraction * current.x) with
      | none =>
        { S with
          status := .aborted
          numIterations := S.numIterations + 1 }
      | some t =>
        if t * F.dirNorm < o.minStepSize then
          { S with
            status := .stepTooSmall
            numIterations := S.numIterations + 1 }
        else
          match fuel with
          | 0 =>
            { S with
              status := .aborted
              numIterations := S.numIterations + 1 }
          | fuel + 1 =>
            armijoLoop mp o F cost slope fuel current
              (F.evaluate t (o.interp == .cubic))
              { S with
                numIterations := S.numIterations + 1
                numFunctionEvaluations := S.numFunctionEvaluations + 1
                numGradientEvaluations :=
                  S.numGradientEvaluations + (if o.interp == .cubic then 1 else 0)
                trace := S.trace ++ [F.evaluate t (o.interp == .cubic)] }

/-- A summary that carries only the outcome of a failed `CHECK`. -/
def Summary.abort : Summary K X V := ⟨.aborted, .empty, 0, 0, 0, []⟩

/-- `ArmijoLineSearch::DoSearch` (line_search.cc:281-366). -/
def armijo (mp : List (Sample K X V) → K → K → K) (o : Opts K) (F : Fn K X V)
    (estimate cost slope : K) : Summary K X V :=
  if 0 ≤ estimate ∧ 0 < o.sufficientDecrease ∧ o.sufficientDecrease < 1 ∧
      0 < o.maxNumIterations then
    armijoLoop mp o F cost slope o.maxNumIterations .empty
      (F.evaluate estimate (o.interp == .cubic))
      ⟨.maxIterations, .empty, 1, if o.interp == .cubic then 1 else 0, 0,
        [F.evaluate estimate (o.interp == .cubic)]⟩
  else .abort

/-! ### Wolfe -/

/-- What `BracketingPhase` leaves behind (line_search.cc:500-505): its return value
(`false` is a status other than `success`), the bracket and whether to zoom. -/
structure Bracket (K X V : Type) where
  status : Status
  low : Sample K X V
  high : Sample K X V
  zoom : Bool
  numEvaluations : Nat
  numIterations : Nat
  trace : List (Sample K X V)
deriving DecidableEq

/-- The end of `BracketingPhase` (line_search.cc:684-692). -/
def bracketEnd (o : Opts K) (F : Fn K X V) (low high : Sample K X V) (zoom : Bool)
    (evals iters : Nat) (trace : List (Sample K X V)) : Bracket K X V :=
  ⟨.success, low, high,
    zoom && !decide (|high.x - low.x| * F.dirNorm < o.minStepSize), evals, iters, trace⟩

/-- The loop of `BracketingPhase` (line_search.cc:529-682); `evals` counts the calls of
`Evaluate` (each one counts as a function and as a gradient evaluation), `iters` is
`num_iterations` before the increment at line 530.  The first argument bounds the number of
further evaluations. -/
def bracketLoop (mp : List (Sample K X V) → K → K → K) (o : Opts K) (F : Fn K X V)
    (cost slope : K) :
    Nat → Sample K X V → Sample K X V → Nat → Nat → List (Sample K X V) → Bracket K X V
  | fuel, previous, current, evals, iters, trace =>
    if current.valueValid && (decide (cost + o.sufficientDecrease * slope * current.x
          < current.value) || (previous.valueValid && decide (previous.value < current.value)))
    then bracketEnd o F previous current true evals (iters + 1) trace
    else if current.valueValid &&
        current.gradient.absLe (-o.sufficientCurvatureDecrease * slope) then
      bracketEnd o F current current false evals (iters + 1) trace
    else if current.valueValid && current.gradient.nonneg then
      bracketEnd o F current previous true evals (iters + 1) trace
    else if current.valueValid &&
        decide (|current.x - previous.x| * F.dirNorm < o.minStepSize) then
      bracketEnd o F current .empty false evals (iters + 1) trace
    else if o.maxNumIterations ≤ iters + 1 then
      bracketEnd o F
        (if current.valueValid && decide (current.value < cost) then current
          else .initial F.position cost slope) .empty false evals (iters + 1) trace
    else
      match stepSize mp o.interp previous .empty current
          (if current.valueValid then current.x else previous.x)
          (if current.valueValid then current.x * o.maxExpansion else current.x) with
      | none => ⟨.aborted, .initial F.position cost slope, .empty, false, evals, iters + 1, trace⟩
      | some t =>
        if t * F.dirNorm < o.minStepSize then
          ⟨.stepTooSmall, .initial F.position cost slope, .empty, false, evals, iters + 1, trace⟩
        else
          match fuel with
          | 0 =>
            ⟨.aborted, .initial F.position cost slope, .empty, false, evals, iters + 1, trace⟩
          | fuel + 1 =>
            bracketLoop mp o F cost slope fuel
              (if current.valueValid then current else previous) (F.evaluate t true)
              (evals + 1) (iters + 1) (trace ++ [F.evaluate t true])

/-- `BracketingPhase` (line_search.cc:500-693). -/
def bracketing (mp : List (Sample K X V) → K → K → K) (o : Opts K) (F : Fn K X V)
    (estimate cost slope : K) : Bracket K X V :=
  bracketLoop mp o F cost slope o.maxNumIterations (.initial F.position cost slope)
    (F.evaluate estimate true) 1 0 [F.evaluate estimate true]

/-- What `ZoomPhase` leaves behind: `status = success` is the return value `true`; `solution`. -/
structure Zoom (K X V : Type) where
  status : Status
  solution : Sample K X V
  numEvaluations : Nat
  numIterations : Nat
  trace : List (Sample K X V)
deriving DecidableEq

/-- The loop of `ZoomPhase` (line_search.cc:760-878). -/
def zoomLoop (mp : List (Sample K X V) → K → K → K) (o : Opts K) (F : Fn K X V)
    (cost slope : K) :
    Nat → Sample K X V → Sample K X V → Nat → Nat → List (Sample K X V) → Zoom K X V
  | fuel, low, high, evals, iters, trace =>
    if o.maxNumIterations ≤ iters then ⟨.maxIterations, low, evals, iters, trace⟩
    else if |high.x - low.x| * F.dirNorm < o.minStepSize then
      ⟨.stepTooSmall, low, evals, iters, trace⟩
    else
      match stepSize mp o.interp (if low.x < high.x then low else high) .empty
          (if low.x < high.x then high else low)
          (if low.x < high.x then low else high).x (if low.x < high.x then high else low).x with
      | none => ⟨.aborted, low, evals, iters + 1, trace⟩
      | some t =>
        if !(F.evaluate t true).valueValid || !(F.evaluate t true).gradValid then
          ⟨.invalidPoint, F.evaluate t true, evals + 1, iters + 1, trace ++ [F.evaluate t true]⟩
        else
          match fuel with
          | 0 => ⟨.aborted, low, evals + 1, iters + 1, trace ++ [F.evaluate t true]⟩
          | fuel + 1 =>
            if cost + o.sufficientDecrease * slope * (F.evaluate t true).x
                < (F.evaluate t true).value ∨ low.value ≤ (F.evaluate t true).value then
              zoomLoop mp o F cost slope fuel low (F.evaluate t true) (evals + 1) (iters + 1)
                (trace ++ [F.evaluate t true])
            else if (F.evaluate t true).gradient.absLe
                (-o.sufficientCurvatureDecrease * slope) then
              ⟨.success, F.evaluate t true, evals + 1, iters + 1, trace ++ [F.evaluate t true]⟩
            else
              zoomLoop mp o F cost slope fuel (F.evaluate t true)
                (if (F.evaluate t true).gradient.mulNonneg (high.x - low.x) then low else high)
                (evals + 1) (iters + 1) (trace ++ [F.evaluate t true])

/-- `ZoomPhase` (line_search.cc:699-882).  `solution` starts as an invalid sample
(line_search.cc:393). -/
def zoomPhase (mp : List (Sample K X V) → K → K → K) (o : Opts K) (F : Fn K X V)
    (cost slope : K) (low high : Sample K X V) (evals iters : Nat)
    (trace : List (Sample K X V)) : Zoom K X V :=
  if !(low.valueValid && low.gradValid) then ⟨.aborted, .empty, evals, iters, trace⟩
  else if !high.valueValid then ⟨.aborted, .empty, evals, iters, trace⟩
  else if low.gradient.mulNonneg (high.x - low.x) then
    ⟨.invalidBracket, .empty, evals, iters, trace⟩
  else zoomLoop mp o F cost slope o.maxNumIterations low high evals iters trace

/-- `WolfeLineSearch::DoSearch` after the bracketing phase (line_search.cc:407-481). -/
def wolfeFinish (mp : List (Sample K X V) → K → K → K) (o : Opts K) (F : Fn K X V)
    (cost slope : K) (B : Bracket K X V) : Summary K X V :=
  if B.status ≠ .success then
    ⟨B.status, .empty, B.numEvaluations, B.numEvaluations, B.numIterations, B.trace⟩
  else if B.zoom = false then
    ⟨.success, B.low, B.numEvaluations, B.numEvaluations, B.numIterations, B.trace⟩
  else
    let Z := zoomPhase mp o F cost slope B.low B.high B.numEvaluations B.numIterations B.trace
    if Z.status = .aborted then
      ⟨.aborted, .empty, Z.numEvaluations, Z.numEvaluations, Z.numIterations, Z.trace⟩
    else if Z.status ≠ .success ∧ Z.solution.valueValid = false then
      ⟨Z.status, .empty, Z.numEvaluations, Z.numEvaluations, Z.numIterations, Z.trace⟩
    else
      ⟨.success,
        if Z.solution.valueValid = false ∨ B.low.value < Z.solution.value then B.low
        else Z.solution,
        Z.numEvaluations, Z.numEvaluations, Z.numIterations, Z.trace⟩

/-- `WolfeLineSearch::DoSearch` (line_search.cc:371-482). -/
def wolfe (mp : List (Sample K X V) → K → K → K) (o : Opts K) (F : Fn K X V)
    (estimate cost slope : K) : Summary K X V :=
  if 0 ≤ estimate ∧ 0 < o.sufficientDecrease ∧
      o.sufficientDecrease < o.sufficientCurvatureDecrease ∧
      o.sufficientCurvatureDecrease < 1 ∧ 1 < o.maxExpansion then
    wolfeFinish mp o F cost slope (bracketing mp o F estimate cost slope)
  else .abort

end Ceres.LineSearch
