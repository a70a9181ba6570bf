import Mathlib.Algebra.Order.Field.Basic
import Mathlib.Order.Lattice

/-!
# Model of the trust region minimizer
(trust_region_minimizer.cc, trust_region_step_evaluator.cc, minimizer.cc, solver_utils.h)

Numbers are elements of an arbitrary linearly ordered field `K` (rounding, NaN and infinities
are not modelled; `big` is `std::numeric_limits<double>::max()` and `lowest` its negative).
Points are elements of an arbitrary type `X`, steps of an arbitrary type `D`.
-/
namespace Ceres.TrustRegion

/-! ### `TrustRegionStepEvaluator` -/

/-- Members of `TrustRegionStepEvaluator` (trust_region_step_evaluator.h:100-117). -/
structure Evaluator (K : Type) where
  maxNonmono : Nat
  minimum : K
  current : K
  reference : K
  candidate : K
  accRef : K
  accCand : K
  numNonmono : Nat

variable {K : Type} [Field K] [LinearOrder K]

/-- Constructor (trust_region_step_evaluator.cc:38-47). -/
def Evaluator.mk' (cost : K) (n : Nat) : Evaluator K := ⟨n, cost, cost, cost, cost, 0, 0, 0⟩

/-- `StepQuality` (trust_region_step_evaluator.cc:49-65). -/
def Evaluator.stepQuality (big lowest : K) (e : Evaluator K) (cost modelChange : K) : K :=
  if big ≤ cost then lowest
  else max ((e.current - cost) / modelChange) ((e.reference - cost) / (e.accRef + modelChange))

/-- Steps 3a to 3c of `StepAccepted` (trust_region_step_evaluator.cc:73-90). -/
def Evaluator.accept3abc (e : Evaluator K) (cost modelChange : K) : Evaluator K :=
  if cost < e.minimum then
    { e with
      current := cost
      accRef := e.accRef + modelChange
      minimum := cost
      numNonmono := 0
      candidate := cost
      accCand := 0 }
  else if e.candidate < cost then
    { e with
      current := cost
      accRef := e.accRef + modelChange
      numNonmono := e.numNonmono + 1
      candidate := cost
      accCand := 0 }
  else
    { e with
      current := cost
      accRef := e.accRef + modelChange
      numNonmono := e.numNonmono + 1
      accCand := e.accCand + modelChange }

/-- `StepAccepted` (trust_region_step_evaluator.cc:67-109). -/
def Evaluator.stepAccepted (e : Evaluator K) (cost modelChange : K) : Evaluator K :=
  if (e.accept3abc cost modelChange).numNonmono = e.maxNonmono then
    { e.accept3abc cost modelChange with
      reference := (e.accept3abc cost modelChange).candidate
      accRef := (e.accept3abc cost modelChange).accCand }
  else e.accept3abc cost modelChange

/-! ### Options, environment and state -/

/-- The options the minimizer reads (minimizer.h:58-121). -/
structure Opts (K : Type) where
  maxIter : Nat
  maxInvalid : Nat
  nonmono : Bool
  maxNonmono : Nat
  constrained : Bool
  lineSearchOn : Bool
  gradTol : K
  paramTol : K
  funTol : K
  minRadius : K
  maxTime : K
  minRelDecrease : K
  innerTol : K
  fixedCost : K
  big : K
  lowest : K

/-- `IterationSummary` (iteration_callback.h:46-168), without timing and solver statistics.
`point` is a ghost field: the value of `x_` when the summary was appended. -/
structure Iter (X K : Type) where
  iteration : Nat
  stepValid : Bool
  stepNonmonotonic : Bool
  stepSuccessful : Bool
  cost : K
  costChange : K
  gradMax : K
  gradNorm : K
  stepNorm : K
  relDecrease : K
  radius : K
  point : X

/-- `CallbackReturnType` (types.h). -/
inductive CB where
  | continue
  | terminateSuccessfully
  | abort
  deriving DecidableEq

/-- `TerminationType` (types.h). -/
inductive Term where
  | convergence
  | noConvergence
  | failure
  | userSuccess
  | userFailure
  deriving DecidableEq

/-- Result of `TrustRegionStrategy::ComputeStep`: `FATAL_ERROR`, `FAILURE`, or a step. -/
inductive StepOut (D : Type) where
  | fatal
  | failure
  | step (d : D)

/-- A trust region strategy with state `S` (trust_region_strategy.h).  The Jacobian and the
residuals are those of the current point, so `compute` gets the point.  `accepted` returns
`none` when the strategy aborts (`CHECK_GT(step_quality, 0.0)`). -/
structure Strategy (S X D K : Type) where
  compute : S → X → S × StepOut D
  accepted : S → K → Option S
  rejected : S → K → S
  invalid : S → S
  radius : S → K

/-- Everything else the minimizer calls, as arbitrary deterministic functions.
* `plus x d`: `Evaluator::Plus`, `none` = failure; `plusFail x d old`: contents of the output
  buffer (previously `old`) after a failed `Plus`;
* `cost x`: residual-only evaluation; `jac x`: cost returned by the evaluation with gradient
  and Jacobian; `gradNorms x`: max norm and norm of `Plus(x, -gradient) - x`, `none` if that
  `Plus` fails;
* `modelChange x d`: lines 430-438 for the step `d`; `unscale`: lines 448-451;
* `lineSearch x c d`: the step left in `delta` by `DoLineSearch`;
* `inner`: the inner iteration minimizer, if any;
* `callback h`: answer of the callbacks after the iterations `h`; `time n`: elapsed time read
  after `n` iterations. -/
structure Env (X D K : Type) where
  plus : X → D → Option X
  plusFail : X → D → X → X
  zero : D
  cost : X → Option K
  jac : X → Option K
  gradNorms : X → Option (K × K)
  modelChange : X → D → K
  unscale : D → D
  lineSearch : X → K → D → D
  inner : Option (X → X)
  norm : X → K
  dist : X → X → K
  callback : List (Iter X K) → CB
  time : Nat → K

/-- The state of `TrustRegionMinimizer` (trust_region_minimizer.h:81-160) and the parts of
`Solver::Summary` it writes. `params` is the user's array `parameters_`. -/
structure St (S X D K : Type) where
  x : X
  xCost : K
  minCost : K
  params : X
  candX : X
  candCost : K
  delta : D
  modelChange : K
  numInvalid : Nat
  innerOn : Bool
  innerUseful : Bool
  strat : S
  ev : Evaluator K
  cur : Iter X K
  iters : List (Iter X K)
  numSucc : Nat
  numUnsucc : Nat
  initialCost : K
  term : Term
  anySucc : Bool

variable {S X D : Type}

/-- `IterationSummary()`: default values, with the iteration number. -/
def freshIter (n : Nat) (x : X) : Iter X K := ⟨n, false, false, false, 0, 0, 0, 0, 0, 0, 0, x⟩

/-- `Init` (trust_region_minimizer.cc:141-190); `ev` is a placeholder until line 79; the default
`initial_cost` of the summary is `-1` (solver.h). -/
def init (o : Opts K) (env : Env X D K) (s0 : S) (x0 : X) : St S X D K where
  x := x0
  xCost := o.big
  minCost := o.big
  params := x0
  candX := x0
  candCost := 0
  delta := env.zero
  modelChange := 0
  numInvalid := 0
  innerOn := env.inner.isSome
  innerUseful := false
  strat := s0
  ev := Evaluator.mk' 0 0
  cur := freshIter 0 x0
  iters := []
  numSucc := 0
  numUnsucc := 0
  initialCost := -1
  term := .noConvergence
  anySucc := false

/-- `EvaluateGradientAndJacobian` (trust_region_minimizer.cc:246-304).  Jacobi scaling only
changes the Jacobian handed to the strategy and is part of `Strategy.compute`. -/
def evalGradJac (o : Opts K) (env : Env X D K) (s : St S X D K) : St S X D K × Bool :=
  match env.jac s.x with
  | none => ({ s with term := .failure }, false)
  | some c =>
    match env.gradNorms s.x with
    | none =>
      ({ s with
          xCost := c
          cur := { s.cur with cost := c + o.fixedCost }
          term := .failure }, false)
    | some (gm, gn) =>
      ({ s with
          xCost := c
          cur := { s.cur with
            cost := c + o.fixedCost
            gradMax := gm
            gradNorm := gn } }, true)

/-- Projection of the initial point (trust_region_minimizer.cc:210-220). -/
def projectInitial (o : Opts K) (env : Env X D K) (s : St S X D K) : St S X D K × Bool :=
  if o.constrained then
    match env.plus s.x env.zero with
    | none =>
      ({ s with
          candX := env.plusFail s.x env.zero s.candX
          term := .failure }, false)
    | some y =>
      ({ s with
          candX := y
          x := y }, true)
  else (s, true)

/-- `IterationZero` (trust_region_minimizer.cc:196-232). -/
def iterationZero (o : Opts K) (env : Env X D K) (s : St S X D K) : St S X D K × Bool :=
  if (projectInitial o env s).2 then
    if (evalGradJac o env (projectInitial o env s).1).2 then
      let t := (evalGradJac o env (projectInitial o env s).1).1
      ({ t with
          initialCost := t.xCost + o.fixedCost
          cur := { t.cur with
            stepValid := true
            stepSuccessful := true } }, true)
    else evalGradJac o env (projectInitial o env s).1
  else projectInitial o env s

/-- Lines 317-330 of `FinalizeIterationAndCheckIfMinimizerCanContinue`: counters, best point,
nonmonotonic flag and radius. -/
def recordStep (strategy : Strategy S X D K) (s : St S X D K) : St S X D K :=
  if s.cur.stepSuccessful then
    if s.xCost < s.minCost then
      { s with
        numSucc := s.numSucc + 1
        minCost := s.xCost
        params := s.x
        cur := { s.cur with
          stepNonmonotonic := false
          radius := strategy.radius s.strat
          point := s.x } }
    else
      { s with
        numSucc := s.numSucc + 1
        cur := { s.cur with
          stepNonmonotonic := true
          radius := strategy.radius s.strat
          point := s.x } }
  else
    { s with
      numUnsucc := s.numUnsucc + 1
      cur := { s.cur with
        radius := strategy.radius s.strat
        point := s.x } }

/-- Line 338. -/
def pushIter (s : St S X D K) : St S X D K := { s with iters := s.iters ++ [s.cur] }

/-- Lines 340-360: callbacks (minimizer.cc:57-89) and the termination tests
`MaxSolverTimeReached` (646-664), `MaxSolverIterationsReached` (669-684),
`GradientToleranceReached` (688-704) and `MinTrustRegionRadiusReached` (707-723). -/
def checkContinue (o : Opts K) (env : Env X D K) (s : St S X D K) : St S X D K × Bool :=
  match env.callback s.iters with
  | .terminateSuccessfully => ({ s with term := .userSuccess }, false)
  | .abort => ({ s with term := .userFailure }, false)
  | .continue =>
    if ¬ env.time s.iters.length < o.maxTime then ({ s with term := .noConvergence }, false)
    else if ¬ s.cur.iteration < o.maxIter then ({ s with term := .noConvergence }, false)
    else if s.cur.stepSuccessful ∧ ¬ o.gradTol < s.cur.gradMax then
      ({ s with term := .convergence }, false)
    else if ¬ o.minRadius < s.cur.radius then ({ s with term := .convergence }, false)
    else (s, true)

/-- `FinalizeIterationAndCheckIfMinimizerCanContinue` (trust_region_minimizer.cc:316-361). -/
def finalize (o : Opts K) (env : Env X D K) (strategy : Strategy S X D K) (s : St S X D K) :
    St S X D K × Bool :=
  checkContinue o env (pushIter (recordStep strategy s))

/-- `ComputeTrustRegionStep` (trust_region_minimizer.cc:381-462). -/
def computeTrustRegionStep (env : Env X D K) (strategy : Strategy S X D K) (s : St S X D K) :
    St S X D K × Bool :=
  match strategy.compute s.strat s.x with
  | (st', .fatal) =>
    ({ s with
        strat := st'
        cur := { s.cur with stepValid := false }
        term := .failure }, false)
  | (st', .failure) =>
    ({ s with
        strat := st'
        cur := { s.cur with stepValid := false } }, true)
  | (st', .step d) =>
    if 0 < env.modelChange s.x d then
      ({ s with
          strat := st'
          cur := { s.cur with stepValid := true }
          modelChange := env.modelChange s.x d
          delta := env.unscale d
          numInvalid := 0 }, true)
    else
      ({ s with
          strat := st'
          cur := { s.cur with stepValid := false }
          modelChange := env.modelChange s.x d }, true)

/-- `HandleInvalidStep` (trust_region_minimizer.cc:467-500). -/
def handleInvalidStep (o : Opts K) (strategy : Strategy S X D K) (prevMax prevNorm : K)
    (s : St S X D K) : St S X D K × Bool :=
  if o.maxInvalid ≤ s.numInvalid + 1 then
    ({ s with
        numInvalid := s.numInvalid + 1
        term := .failure }, false)
  else
    ({ s with
        numInvalid := s.numInvalid + 1
        strat := strategy.invalid s.strat
        cur := { s.cur with
          cost := s.xCost + o.fixedCost
          costChange := 0
          gradMax := prevMax
          gradNorm := prevNorm
          stepNorm := 0
          relDecrease := 0 } }, true)

/-- The call of `DoLineSearch` (trust_region_minimizer.cc:103-108, 596-641). -/
def doLineSearch (o : Opts K) (env : Env X D K) (s : St S X D K) : St S X D K :=
  if o.constrained ∧ o.lineSearchOn then
    { s with delta := env.lineSearch s.x s.xCost s.delta }
  else s

/-- `ComputeCandidatePointAndEvaluateCost` (trust_region_minimizer.cc:781-799). -/
def computeCandidate (o : Opts K) (env : Env X D K) (s : St S X D K) : St S X D K :=
  match env.plus s.x s.delta with
  | none =>
    { s with
      candX := env.plusFail s.x s.delta s.candX
      candCost := o.big }
  | some y =>
    match env.cost y with
    | none =>
      { s with
        candX := y
        candCost := o.big }
    | some c =>
      { s with
        candX := y
        candCost := c }

/-- `DoInnerIterationsIfNeeded` (trust_region_minimizer.cc:509-587). -/
def doInnerIterations (o : Opts K) (env : Env X D K) (s : St S X D K) : St S X D K :=
  if s.innerOn = false ∨ o.big ≤ s.candCost then { s with innerUseful := false }
  else
    match env.inner with
    | none => { s with innerUseful := false }
    | some f =>
      match env.cost (f s.candX) with
      | none => { s with innerUseful := false }
      | some c =>
        { s with
          candX := f s.candX
          modelChange := s.modelChange + (s.candCost - c)
          innerUseful := decide (c < min s.xCost s.candCost)
          innerOn := decide (o.innerTol < 1 - c / s.candCost)
          candCost := c }

/-- `ParameterToleranceReached` (trust_region_minimizer.cc:726-748). -/
def parameterToleranceReached (o : Opts K) (env : Env X D K) (s : St S X D K) :
    St S X D K × Bool :=
  if o.paramTol * (env.norm s.x + o.paramTol) < env.dist s.x s.candX then
    ({ s with cur := { s.cur with stepNorm := env.dist s.x s.candX } }, false)
  else
    ({ s with
        cur := { s.cur with stepNorm := env.dist s.x s.candX }
        term := .convergence }, true)

/-- `FunctionToleranceReached` (trust_region_minimizer.cc:751-770). -/
def functionToleranceReached (o : Opts K) (s : St S X D K) : St S X D K × Bool :=
  if o.funTol * s.xCost < |s.xCost - s.candCost| then
    ({ s with cur := { s.cur with costChange := s.xCost - s.candCost } }, false)
  else
    ({ s with
        cur := { s.cur with costChange := s.xCost - s.candCost }
        term := .convergence }, true)

/-- `IsStepSuccessful` (trust_region_minimizer.cc:801-827). -/
def isStepSuccessful (o : Opts K) (s : St S X D K) : St S X D K × Bool :=
  ({ s with cur := { s.cur with
      relDecrease := s.ev.stepQuality o.big o.lowest s.candCost s.modelChange } },
    s.innerUseful ||
      decide (o.minRelDecrease < s.ev.stepQuality o.big o.lowest s.candCost s.modelChange))

/-- Outcome of one pass through the loop body. -/
inductive Next (S X D K : Type) where
  | cont (s : St S X D K)
  | stop (s : St S X D K)
  | abort

/-- `HandleSuccessfulStep` (trust_region_minimizer.cc:832-845), with line 122. -/
def handleSuccessfulStep (o : Opts K) (env : Env X D K) (strategy : Strategy S X D K)
    (s : St S X D K) : Next S X D K :=
  let t := evalGradJac o env { s with
    anySucc := true
    x := s.candX }
  if t.2 then
    match strategy.accepted t.1.strat t.1.cur.relDecrease with
    | none => .abort
    | some st' =>
      .cont { t.1 with
        strat := st'
        ev := t.1.ev.stepAccepted t.1.candCost t.1.modelChange
        cur := { t.1.cur with stepSuccessful := true } }
  else .stop t.1

/-- The `else` branch (trust_region_minimizer.cc:124-135). -/
def handleUnsuccessfulStep (o : Opts K) (strategy : Strategy S X D K) (prevMax prevNorm : K)
    (s : St S X D K) : St S X D K :=
  { s with
    strat := strategy.rejected s.strat s.cur.relDecrease
    cur := { s.cur with
      stepSuccessful := false
      cost := s.candCost + o.fixedCost
      gradNorm := prevNorm
      gradMax := prevMax } }

/-- Lines 113-135, from the candidate on. -/
def judge (o : Opts K) (env : Env X D K) (strategy : Strategy S X D K) (prevMax prevNorm : K)
    (s : St S X D K) : Next S X D K :=
  if s.anySucc ∧ (parameterToleranceReached o env s).2 then
    .stop (parameterToleranceReached o env s).1
  else
    let s1 := if s.anySucc then (parameterToleranceReached o env s).1 else s
    if (functionToleranceReached o s1).2 then .stop (functionToleranceReached o s1).1
    else
      let s2 := (isStepSuccessful o (functionToleranceReached o s1).1)
      if s2.2 then handleSuccessfulStep o env strategy s2.1
      else .cont (handleUnsuccessfulStep o strategy prevMax prevNorm s2.1)

/-- The loop body after `Finalize...` returned true (trust_region_minimizer.cc:87-135). -/
def body (o : Opts K) (env : Env X D K) (strategy : Strategy S X D K) (s : St S X D K) :
    Next S X D K :=
  let t := computeTrustRegionStep env strategy
    { s with cur := freshIter (s.cur.iteration + 1) s.x }
  if t.2 then
    if t.1.cur.stepValid then
      judge o env strategy s.cur.gradMax s.cur.gradNorm
        (doInnerIterations o env (computeCandidate o env (doLineSearch o env t.1)))
    else
      let u := handleInvalidStep o strategy s.cur.gradMax s.cur.gradNorm t.1
      if u.2 then .cont u.1 else .stop u.1
  else .stop t.1

/-- Result of a run: finished, aborted by a `CHECK`, or not finished within the fuel. -/
inductive Outcome (S X D K : Type) where
  | done (s : St S X D K)
  | abort
  | outOfFuel

/-- The loop (trust_region_minimizer.cc:86-136). -/
def loop (o : Opts K) (env : Env X D K) (strategy : Strategy S X D K) :
    Nat → St S X D K → Outcome S X D K
  | 0, _ => .outOfFuel
  | fuel + 1, s =>
    if (finalize o env strategy s).2 then
      match body o env strategy (finalize o env strategy s).1 with
      | .cont s' => loop o env strategy fuel s'
      | .stop s' => .done s'
      | .abort => .abort
    else .done (finalize o env strategy s).1

/-- `Minimize` (trust_region_minimizer.cc:68-137). -/
def minimize (o : Opts K) (env : Env X D K) (strategy : Strategy S X D K) (s0 : S) (x0 : X)
    (fuel : Nat) : Outcome S X D K :=
  let z := iterationZero o env (init o env s0 x0)
  if z.2 then
    loop o env strategy fuel
      { z.1 with ev := Evaluator.mk' z.1.xCost (if o.nonmono then o.maxNonmono else 0) }
  else .done z.1

/-- `IsSolutionUsable` (solver_utils.h:44-49). -/
def Term.usable : Term → Bool
  | .convergence => true
  | .noConvergence => true
  | .userSuccess => true
  | .failure => false
  | .userFailure => false

/-- `SetSummaryFinalCost` (solver_utils.h:51-60). -/
def finalCost (s : St S X D K) : K :=
  s.iters.foldl (fun acc it => min it.cost acc) s.initialCost

/-- What `Minimize` in solver.cc:664-672 writes back to the user. -/
def returned (x0 : X) (s : St S X D K) : X := if s.term.usable then s.params else x0

end Ceres.TrustRegion
