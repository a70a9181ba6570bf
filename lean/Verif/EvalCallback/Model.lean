import Verif.Driver.LsRun
import Verif.TrustRegion.Model

/-!
# The evaluation callback: the solvers as programs that ask for evaluations
(evaluation_callback.h, program_evaluator.h, trust_region_minimizer.cc, line_search.cc,
line_search_minimizer.cc)

A solver is a tree: it asks for an evaluation at a point, saying whether derivatives are wanted and
whether the point is new, and continues with whatever answer comes back.  Nothing is assumed about
the answers: the user's cost functions may answer differently each time.  The evaluator and the
user's code (`evaluate`) turn the questions into calls of `PrepareForEvaluation` and of the cost
functions.

The deterministic parts of the trust region minimizer are those of `TrustRegion.Model`, the
deterministic parts of the line searches those of `LineSearch.Model`.
-/
namespace Ceres.EvalCallback

/-- A call of `Evaluator::Evaluate` (evaluator.h:93-128): the point, whether a gradient or a
Jacobian is requested, and `EvaluateOptions::new_evaluation_point`. -/
structure Call (X : Type) where
  point : X
  jacobians : Bool
  isNew : Bool
deriving DecidableEq

/-- A program that asks questions `Q`, gets answers `R` and ends with an `A`. -/
inductive Prog (Q R A : Type) where
  | ret (a : A)
  | ask (q : Q) (k : R → Prog Q R A)

namespace Prog

variable {Q R A B : Type}

def bind : Prog Q R A → (A → Prog Q R B) → Prog Q R B
  | ret a, k => k a
  | ask q c, k => ask q fun r => (c r).bind k

instance : Monad (Prog Q R) where
  pure := ret
  bind := bind

/-- The program with the answers given by a function. -/
def run (f : Q → R) : Prog Q R A → A
  | ret a => a
  | ask q k => run f (k (f q))

end Prog

/-! ### The evaluator and the user's code -/

/-- The user's code: `prepare mem jacobians isNew u` is `PrepareForEvaluation` when the user's
parameter arrays contain `mem` and the data it shares with the cost functions are `u`;
`residuals u x jacobians` is what the cost functions deliver at the parameters `x` (which they get
by argument) with the shared data `u`.  `stateOk x` is the success of
`StateVectorToParameterBlocks(x)`, which asks the manifolds for `PlusJacobian`
(program.cc:81-89, parameter_block.h:92-100).  Cost functions do not change the shared data: they
run concurrently. -/
structure UserCode (U X R : Type) where
  stateOk : X → Bool
  prepare : X → Bool → Bool → U → U
  residuals : U → X → Bool → R
  failed : R

/-- What the user's code can observe. -/
inductive Event (X : Type) where
  /-- `PrepareForEvaluation(jacobians, isNew)` with the user's parameter arrays containing
  `mem`. -/
  | prepare (mem : X) (jacobians isNew : Bool)
  /-- The cost functions are evaluated at `x`. -/
  | residuals (x : X) (jacobians : Bool)
deriving DecidableEq

/-- The user's parameter arrays, the data shared by callback and cost functions, and the log. -/
structure World (U X : Type) where
  mem : X
  user : U
  events : List (Event X)
deriving DecidableEq

variable {U X R A : Type}

/-- `ProgramEvaluator::Evaluate` (program_evaluator.h:137-160, 189-264), as far as the user sees
it.  `hasCallback` says whether the problem has an evaluation callback. -/
def evaluate (c : UserCode U X R) (hasCallback : Bool) (w : World U X) (q : Call X) :
    World U X × R :=
  if c.stateOk q.point = false then (w, c.failed)
  else
    let w' : World U X :=
      if hasCallback then
        ⟨q.point, c.prepare q.point q.jacobians q.isNew w.user,
          w.events ++ [.prepare q.point q.jacobians q.isNew]⟩
      else w
    ({ w' with events := w'.events ++ [.residuals q.point q.jacobians] },
      c.residuals w'.user q.point q.jacobians)

/-- Whether the problem that gets solved has an evaluation callback.  With `check_gradients` the
solver makes a problem of its own, whose options do not name the callback of the user's problem
(solver.cc:766-780, gradient_checking_cost_function.cc:183-194). -/
def callbackInSolve (configured checkGradients : Bool) : Bool := configured && !checkGradients

/-- A solver running with the user's code. -/
def exec (c : UserCode U X R) (hasCallback : Bool) : Prog (Call X) R A → World U X → World U X × A
  | .ret a, w => (w, a)
  | .ask q k, w =>
    exec c hasCallback (k (evaluate c hasCallback w q).2) (evaluate c hasCallback w q).1

/-- `RemoveFixedBlocks` with a residual block all of whose parameters are constant, before the
minimizer runs (program.cc:352-391): one call of the callback with a new point, then the costs of
the fixed blocks; `stop` is the outcome if these fail. -/
def afterFixed (anyFixed : Bool) (ok : R → Bool) (x : X) (stop : A) (p : Prog (Call X) R A) :
    Prog (Call X) R A :=
  if anyFixed then .ask ⟨x, false, true⟩ fun r => if ok r then p else .ret stop else p

/-! ### Line searches -/

open LineSearch (Ext Sample Interp Opts Summary stepSize sufficient)

variable {K V : Type} [Field K] [LinearOrder K]

/-- `LineSearchFunction` (line_search.cc:92-149); `decode` reads cost and gradient from the answer
of the evaluator. -/
structure Fn (R K X V : Type) where
  position : X
  plus : K → Option X
  decode : R → Option (Ext K × V)
  slope : V → Ext K
  dirNorm : K

/-- The sample made of the evaluator's answer (line_search.cc:129-144). -/
def Fn.sample (F : Fn R K X V) (t : K) (g : Bool) (x : X) (r : R) : Sample K X V :=
  match F.decode r with
  | some (.fin c, v) =>
    if g then
      if (F.slope v).finite then ⟨t, some x, c, true, some v, F.slope v, true⟩
      else ⟨t, some x, c, true, none, F.slope v, false⟩
    else ⟨t, some x, c, true, none, .fin 0, false⟩
  | _ => ⟨t, some x, 0, false, none, .fin 0, false⟩

/-- `LineSearchFunction::Evaluate` (line_search.cc:103-145).  It uses the default evaluate options,
so the point is new (evaluator.h:98-104, 117-128). -/
def Fn.evaluate (F : Fn R K X V) (t : K) (g : Bool) : Prog (Call X) R (Sample K X V) :=
  match F.plus t with
  | none => .ret { (Sample.empty : Sample K X V) with x := t }
  | some x => .ask ⟨x, g, true⟩ fun r => .ret (F.sample t g x r)

/-- The loop of `ArmijoLineSearch::DoSearch` (line_search.cc:313-365); see
`LineSearch.armijoLoop`. -/
def armijoLoop (mp : List (Sample K X V) → K → K → K) (o : Opts K) (F : Fn R K X V)
    (cost slope : K) :
    Nat → Sample K X V → Sample K X V → Summary K X V → Prog (Call X) R (Summary K X V)
  | fuel, previous, current, S =>
    if sufficient o cost slope current then
      .ret { S with
        status := .success
        optimal := current }
    else if o.maxNumIterations ≤ S.numIterations + 1 then
      .ret { S with
        status := .maxIterations
        numIterations := S.numIterations + 1 }
    else
      match stepSize mp o.interp (.initial F.position cost slope) previous current
          (o.maxContraction * current.x) (o.minContraction * current.x) with
      | none =>
        .ret { S with
          status := .aborted
          numIterations := S.numIterations + 1 }
      | some t =>
        if t * F.dirNorm < o.minStepSize then
          .ret { S with
            status := .stepTooSmall
            numIterations := S.numIterations + 1 }
        else
          match fuel with
          | 0 =>
            .ret { S with
              status := .aborted
              numIterations := S.numIterations + 1 }
          | fuel + 1 =>
            (F.evaluate t (o.interp == .cubic)).bind fun s =>
              armijoLoop mp o F cost slope fuel current s
                { S with
                  numIterations := S.numIterations + 1
                  numFunctionEvaluations := S.numFunctionEvaluations + 1
                  numGradientEvaluations :=
                    S.numGradientEvaluations + (if o.interp == .cubic then 1 else 0)
                  trace := S.trace ++ [s] }

/-- `ArmijoLineSearch::DoSearch` (line_search.cc:281-366). -/
def armijo (mp : List (Sample K X V) → K → K → K) (o : Opts K) (F : Fn R K X V)
    (estimate cost slope : K) : Prog (Call X) R (Summary K X V) :=
  if 0 ≤ estimate ∧ 0 < o.sufficientDecrease ∧ o.sufficientDecrease < 1 ∧
      0 < o.maxNumIterations then
    (F.evaluate estimate (o.interp == .cubic)).bind fun s =>
      armijoLoop mp o F cost slope o.maxNumIterations .empty s
        ⟨.maxIterations, .empty, 1, if o.interp == .cubic then 1 else 0, 0, [s]⟩
  else .ret .abort

open LineSearch (Bracket Zoom Status)

/-- The end of `BracketingPhase` (line_search.cc:684-692). -/
def bracketEnd (o : Opts K) (F : Fn R K X V) (low high : Sample K X V) (zoom : Bool)
    (evals iters : Nat) (trace : List (Sample K X V)) : Bracket K X V :=
  ⟨.success, low, high,
    zoom && !decide (|high.x - low.x| * F.dirNorm < o.minStepSize), evals, iters, trace⟩

/-- The loop of `BracketingPhase` (line_search.cc:529-682); see `LineSearch.bracketLoop`. -/
def bracketLoop (mp : List (Sample K X V) → K → K → K) (o : Opts K) (F : Fn R K X V)
    (cost slope : K) :
    Nat → Sample K X V → Sample K X V → Nat → Nat → List (Sample K X V) →
      Prog (Call X) R (Bracket K X V)
  | fuel, previous, current, evals, iters, trace =>
    if current.valueValid && (decide (cost + o.sufficientDecrease * slope * current.x
          < current.value) || (previous.valueValid && decide (previous.value < current.value)))
    then .ret (bracketEnd o F previous current true evals (iters + 1) trace)
    else if current.valueValid &&
        current.gradient.absLe (-o.sufficientCurvatureDecrease * slope) then
      .ret (bracketEnd o F current current false evals (iters + 1) trace)
    else if current.valueValid && current.gradient.nonneg then
      .ret (bracketEnd o F current previous true evals (iters + 1) trace)
    else if current.valueValid &&
        decide (|current.x - previous.x| * F.dirNorm < o.minStepSize) then
      .ret (bracketEnd o F current .empty false evals (iters + 1) trace)
    else if o.maxNumIterations ≤ iters + 1 then
      .ret (bracketEnd o F
        (if current.valueValid && decide (current.value < cost) then current
          else .initial F.position cost slope) .empty false evals (iters + 1) trace)
    else
      match stepSize mp o.interp previous .empty current
          (if current.valueValid then current.x else previous.x)
          (if current.valueValid then current.x * o.maxExpansion else current.x) with
      | none =>
        .ret ⟨.aborted, .initial F.position cost slope, .empty, false, evals, iters + 1, trace⟩
      | some t =>
        if t * F.dirNorm < o.minStepSize then
          .ret ⟨.stepTooSmall, .initial F.position cost slope, .empty, false, evals, iters + 1,
            trace⟩
        else
          match fuel with
          | 0 =>
            .ret ⟨.aborted, .initial F.position cost slope, .empty, false, evals, iters + 1, trace⟩
          | fuel + 1 =>
            (F.evaluate t true).bind fun s =>
              bracketLoop mp o F cost slope fuel
                (if current.valueValid then current else previous) s
                (evals + 1) (iters + 1) (trace ++ [s])

/-- `BracketingPhase` (line_search.cc:500-693). -/
def bracketing (mp : List (Sample K X V) → K → K → K) (o : Opts K) (F : Fn R K X V)
    (estimate cost slope : K) : Prog (Call X) R (Bracket K X V) :=
  (F.evaluate estimate true).bind fun s =>
    bracketLoop mp o F cost slope o.maxNumIterations (.initial F.position cost slope) s 1 0 [s]

/-- The loop of `ZoomPhase` (line_search.cc:760-878); see `LineSearch.zoomLoop`. -/
def zoomLoop (mp : List (Sample K X V) → K → K → K) (o : Opts K) (F : Fn R K X V)
    (cost slope : K) :
    Nat → Sample K X V → Sample K X V → Nat → Nat → List (Sample K X V) →
      Prog (Call X) R (Zoom K X V)
  | fuel, low, high, evals, iters, trace =>
    if o.maxNumIterations ≤ iters then .ret ⟨.maxIterations, low, evals, iters, trace⟩
    else if |high.x - low.x| * F.dirNorm < o.minStepSize then
      .ret ⟨.stepTooSmall, low, evals, iters, trace⟩
    else
      match stepSize mp o.interp (if low.x < high.x then low else high) .empty
          (if low.x < high.x then high else low)
          (if low.x < high.x then low else high).x (if low.x < high.x then high else low).x with
      | none => .ret ⟨.aborted, low, evals, iters + 1, trace⟩
      | some t =>
        (F.evaluate t true).bind fun s =>
          if !s.valueValid || !s.gradValid then
            .ret ⟨.invalidPoint, s, evals + 1, iters + 1, trace ++ [s]⟩
          else
            match fuel with
            | 0 => .ret ⟨.aborted, low, evals + 1, iters + 1, trace ++ [s]⟩
            | fuel + 1 =>
              if cost + o.sufficientDecrease * slope * s.x < s.value ∨ low.value ≤ s.value then
                zoomLoop mp o F cost slope fuel low s (evals + 1) (iters + 1) (trace ++ [s])
              else if s.gradient.absLe (-o.sufficientCurvatureDecrease * slope) then
                .ret ⟨.success, s, evals + 1, iters + 1, trace ++ [s]⟩
              else
                zoomLoop mp o F cost slope fuel s
                  (if s.gradient.mulNonneg (high.x - low.x) then low else high)
                  (evals + 1) (iters + 1) (trace ++ [s])

/-- `ZoomPhase` (line_search.cc:699-882). -/
def zoomPhase (mp : List (Sample K X V) → K → K → K) (o : Opts K) (F : Fn R K X V)
    (cost slope : K) (low high : Sample K X V) (evals iters : Nat)
    (trace : List (Sample K X V)) : Prog (Call X) R (Zoom K X V) :=
  if !(low.valueValid && low.gradValid) then .ret ⟨.aborted, .empty, evals, iters, trace⟩
  else if !high.valueValid then .ret ⟨.aborted, .empty, evals, iters, trace⟩
  else if low.gradient.mulNonneg (high.x - low.x) then
    .ret ⟨.invalidBracket, .empty, evals, iters, trace⟩
  else zoomLoop mp o F cost slope o.maxNumIterations low high evals iters trace

/-- `WolfeLineSearch::DoSearch` after the zoom phase (line_search.cc:442-481). -/
def afterZoom (B : Bracket K X V) (Z : Zoom K X V) : Summary K X V :=
  if Z.status = .aborted then
    ⟨.aborted, .empty, Z.numEvaluations, Z.numEvaluations, Z.numIterations, Z.trace⟩
  else if Z.status ≠ .success ∧ Z.solution.valueValid = false then
    ⟨Z.status, .empty, Z.numEvaluations, Z.numEvaluations, Z.numIterations, Z.trace⟩
  else
    ⟨.success,
      if Z.solution.valueValid = false ∨ B.low.value < Z.solution.value then B.low
      else Z.solution,
      Z.numEvaluations, Z.numEvaluations, Z.numIterations, Z.trace⟩

/-- `WolfeLineSearch::DoSearch` after the bracketing phase (line_search.cc:407-481). -/
def wolfeFinish (mp : List (Sample K X V) → K → K → K) (o : Opts K) (F : Fn R K X V)
    (cost slope : K) (B : Bracket K X V) : Prog (Call X) R (Summary K X V) :=
  if B.status ≠ .success then
    .ret ⟨B.status, .empty, B.numEvaluations, B.numEvaluations, B.numIterations, B.trace⟩
  else if B.zoom = false then
    .ret ⟨.success, B.low, B.numEvaluations, B.numEvaluations, B.numIterations, B.trace⟩
  else
    (zoomPhase mp o F cost slope B.low B.high B.numEvaluations B.numIterations B.trace).bind
      fun Z => .ret (afterZoom B Z)

/-- `WolfeLineSearch::DoSearch` (line_search.cc:371-482). -/
def wolfe (mp : List (Sample K X V) → K → K → K) (o : Opts K) (F : Fn R K X V)
    (estimate cost slope : K) : Prog (Call X) R (Summary K X V) :=
  if 0 ≤ estimate ∧ 0 < o.sufficientDecrease ∧
      o.sufficientDecrease < o.sufficientCurvatureDecrease ∧
      o.sufficientCurvatureDecrease < 1 ∧ 1 < o.maxExpansion then
    (bracketing mp o F estimate cost slope).bind (wolfeFinish mp o F cost slope)
  else .ret .abort

/-! ### The line search minimizer -/

section LineSearchMinimizer

open LineSearch (LSOptions LSStatus LSRecord LSResult LSState Direction CallbackResult
  chooseDirection initialStep)
open Driver (LsStep)

variable {V : Type} [NormedAddCommGroup V] [InnerProductSpace ℝ V]

/-- What the line search minimizer uses apart from evaluations; see `LineSearch.LSProblem`. -/
structure LSParts (X V : Type) where
  plus : X → V → Option X
  diffSq : X → X → ℝ
  diffMax : X → X → ℝ
  dist : X → X → ℝ
  norm : X → ℝ
  dirNorm : V → ℝ

/-- The answer of the evaluator: failure, or the cost and, if it was requested, the gradient. -/
abbrev LSAnswer (V : Type) := Option (Ext ℝ × V)

/-- The `LineSearchFunction` after `Init(x, direction)` (line_search.cc:92-101). -/
noncomputable def LSParts.fn (P : LSParts X V) (x : X) (d : V) : Fn (LSAnswer V) ℝ X V where
  position := x
  plus t := P.plus x (t • d)
  decode := id
  slope v := .fin (inner ℝ d v)
  dirNorm := P.dirNorm d

/-- `EvaluateGradientNorms` (line_search_minimizer.cc:67-83). -/
def LSParts.norms (P : LSParts X V) (x : X) (g : V) : Option (ℝ × ℝ) :=
  (P.plus x (-g)).map fun y => (P.diffSq x y, P.diffMax x y)

/-- A line search that asks for evaluations. -/
abbrev Search (X V : Type) :=
  Fn (LSAnswer V) ℝ X V → ℝ → ℝ → ℝ → Prog (Call X) (LSAnswer V) (Summary ℝ X V)

/-- The point a search found, with its cost and gradient (line_search_minimizer.cc:346-373).  If
the sample has no gradient then the evaluator is asked for it, and told that the point is not
new. -/
def takePoint (s : Sample ℝ X V) :
    Prog (Call X) (LSAnswer V) (LSStatus ⊕ (X × ℝ × V)) :=
  match s.vx with
  | none => .ret (.inl .aborted)
  | some y =>
    match s.vg with
    | some g => .ret (.inr (y, s.value, g))
    | none =>
      .ask ⟨y, true, false⟩ fun r =>
        match r with
        | none => .ret (.inl .evaluationFailed)
        | some (.fin c, g) => .ret (.inr (y, c, g))
        | some _ => .ret (.inl .notFinite)

/-- The end of the loop's body, once the point is known (line_search_minimizer.cc:375-477): the
verdict, or the state of the next iteration. -/
noncomputable def lsAccept (P : LSParts X V) (o : LSOptions) (x : X) (current : LSState V)
    (dir : Direction V) (restarts : ℕ) (d : V) (estimate : ℝ) (last : LSRecord X) (t : ℝ) :
    LSStatus ⊕ (X × ℝ × V) → LsStep X V
  | .inl status => .stop status
  | .inr (y, cost, gradient) =>
    match P.norms y gradient with
    | none => .stop .evaluationFailed
    | some (sq, mx) =>
      let record : LSRecord X :=
        ⟨last.iteration + 1, cost, mx, current.cost - cost, P.dist y x, t, y,
          inner ℝ current.gradient d, estimate⟩
      if P.dist y x ≤ o.parameterTolerance * (P.norm x + o.parameterTolerance) then
        .final record .parameterTolerance
      else if mx ≤ o.gradientTolerance then .final record .gradientTolerance
      else if |current.cost - cost| ≤ o.functionTolerance * |current.cost| then
        .final record .functionTolerance
      else
        .next
          { current with
            searchDirection := d
            directionalDerivative := inner ℝ current.gradient d
            stepSize := t }
          ⟨cost, gradient, sq, mx, d, inner ℝ current.gradient d, t⟩ dir restarts record

/-- The body of the loop after the callbacks (line_search_minimizer.cc:219-477); see
`Driver.lsStep` and `LineSearch.minimizeLoop`. -/
noncomputable def lsStep (search : Search X V) (P : LSParts X V) (o : LSOptions) (late : Bool)
    (x : X) (previous current : LSState V) (dir : Direction V) (restarts : ℕ)
    (last : LSRecord X) : Prog (Call X) (LSAnswer V) (LsStep X V) :=
  if o.maxNumIterations ≤ last.iteration then .ret (.stop .maxIterations)
  else if late = true then .ret (.stop .maxTime)
  else
    match chooseDirection o (last.iteration + 1) restarts dir previous current with
    | .inl status => .ret (.stop status)
    | .inr (dir', restarts', fresh, d) =>
      match initialStep fresh current.gradientMaxNorm current.cost previous.cost
          (inner ℝ current.gradient d) with
      | none => .ret (.stop .negativeStep)
      | some estimate =>
        if estimate < 0 then .ret (.stop .negativeStep)
        else
          (search (P.fn x d) estimate current.cost (inner ℝ current.gradient d)).bind fun S =>
            if S.status = .aborted then .ret (.stop .aborted)
            else if S.status ≠ .success then .ret (.stop .searchFailed)
            else
              (takePoint S.optimal).bind fun p =>
                .ret (lsAccept P o x current dir' restarts' d estimate last S.optimal.x p)

/-- The loop of `Minimize` (line_search_minimizer.cc:214-478); see `LineSearch.minimizeLoop`. -/
noncomputable def lsLoop (search : Search X V) (P : LSParts X V) (o : LSOptions)
    (oracle : ℕ → CallbackResult × Bool) :
    ℕ → X → LSState V → LSState V → Direction V → ℕ → List (LSRecord X) → LSRecord X →
      Prog (Call X) (LSAnswer V) (LSResult X)
  | fuel, x, previous, current, dir, restarts, records, last =>
    if (oracle last.iteration).1 = .abort then .ret ⟨x, .userFailure, records ++ [last]⟩
    else if (oracle last.iteration).1 = .terminateSuccessfully then
      .ret ⟨x, .userSuccess, records ++ [last]⟩
    else
      (lsStep search P o (oracle last.iteration).2 x previous current dir restarts last).bind
        fun n =>
          match n with
          | .stop status => .ret ⟨x, status, records ++ [last]⟩
          | .final record status => .ret ⟨record.x, status, records ++ [last] ++ [record]⟩
          | .next previous' current' dir' restarts' record =>
            match fuel with
            | 0 => .ret ⟨record.x, .outOfFuel, records ++ [last] ++ [record]⟩
            | fuel + 1 =>
              lsLoop search P o oracle fuel record.x previous' current' dir' restarts'
                (records ++ [last]) record

/-- `LineSearchMinimizer::Minimize` (line_search_minimizer.cc:87-479); the first evaluation uses
the default evaluate options (line 120). -/
noncomputable def lsMinimize (search : Search X V) (P : LSParts X V) (o : LSOptions)
    (oracle : ℕ → CallbackResult × Bool) (x : X) : Prog (Call X) (LSAnswer V) (LSResult X) :=
  .ask ⟨x, true, true⟩ fun r =>
    match r with
    | none => .ret ⟨x, .evaluationFailed, []⟩
    | some (.fin cost, gradient) =>
      match P.norms x gradient with
      | none => .ret ⟨x, .evaluationFailed, []⟩
      | some (sq, mx) =>
        if mx ≤ o.gradientTolerance then .ret ⟨x, .gradientTolerance, []⟩
        else
          lsLoop search P o oracle o.maxNumIterations x ⟨0, 0, 0, 0, 0, 0, 0⟩
            ⟨cost, gradient, sq, mx, 0, 0, 0⟩ (.create o.direction) 0 []
            ⟨0, cost, mx, 0, 0, 0, x, 0, 0⟩
    | some _ => .ret ⟨x, .notFinite, []⟩

end LineSearchMinimizer

/-! ### The trust region minimizer -/

section TrustRegionMinimizer

open TrustRegion (Env Strategy StepOut Iter CB St Next Outcome Evaluator)

variable {S D J : Type}

/-- What the trust region minimizer uses apart from evaluations; see `TrustRegion.Env` and
`TrustRegion.Strategy`.  `J` stands for residuals, gradient and Jacobian of an evaluation.
`smul t d`, `slope j d`, `gradient j`, `along d v`, `dirNorm d`, `lsOpts` and `mp` are what
`DoLineSearch` needs (trust_region_minimizer.cc:596-641).  There are no inner iterations: they are
rejected when the problem has an evaluation callback (trust_region_preprocessor.cc:298-301). -/
structure Parts (S X D K J V : Type) where
  plus : X → D → Option X
  plusFail : X → D → X → X
  zero : D
  gradNorms : J → X → Option (K × K)
  modelChange : J → X → D → K
  unscale : D → D
  norm : X → K
  dist : X → X → K
  callback : List (Iter X K) → CB
  time : Nat → K
  compute : J → S → X → S × StepOut D
  accepted : S → K → Option S
  rejected : S → K → S
  invalid : S → S
  radius : S → K
  smul : K → D → D
  slope : J → D → K
  gradient : J → V
  along : D → V → Ext K
  dirNorm : D → K
  lsOpts : Opts K
  mp : List (Sample K X V) → K → K → K

/-- The answer of the evaluator: failure, or the cost and, if requested, the derivatives. -/
abbrev TRAnswer (K J : Type) := Option (K × J)

/-- The environment of `TrustRegion.Model` at a point with the derivatives `j`; evaluations and
line search are never called through it. -/
def Parts.env (P : Parts S X D K J V) (j : J) : Env X D K where
  plus := P.plus
  plusFail := P.plusFail
  zero := P.zero
  cost _ := none
  jac _ := none
  gradNorms := P.gradNorms j
  modelChange := P.modelChange j
  unscale := P.unscale
  lineSearch _ _ d := d
  inner := none
  norm := P.norm
  dist := P.dist
  callback := P.callback
  time := P.time

/-- The strategy at a point with the derivatives `j`. -/
def Parts.strategy (P : Parts S X D K J V) (j : J) : Strategy S X D K where
  compute := P.compute j
  accepted := P.accepted
  rejected := P.rejected
  invalid := P.invalid
  radius := P.radius

/-- `EvaluateGradientAndJacobian(new_evaluation_point)` (trust_region_minimizer.cc:246-304).  `j`
holds the derivatives before and, if the evaluation succeeds, after the call. -/
def evalGradJac (o : TrustRegion.Opts K) (P : Parts S X D K J V) (isNew : Bool) (j : J)
    (s : St S X D K) : Prog (Call X) (TRAnswer K J) ((St S X D K × Bool) × J) :=
  .ask ⟨s.x, true, isNew⟩ fun r =>
    match r with
    | none => .ret (({ s with term := .failure }, false), j)
    | some (c, j') =>
      match P.gradNorms j' s.x with
      | none =>
        .ret (({ s with
            xCost := c
            cur := { s.cur with cost := c + o.fixedCost }
            term := .failure }, false), j')
      | some (gm, gn) =>
        .ret (({ s with
            xCost := c
            cur := { s.cur with
              cost := c + o.fixedCost
              gradMax := gm
              gradNorm := gn } }, true), j')

/-- `IterationZero` (trust_region_minimizer.cc:196-232): the point is new (line 222). -/
def iterationZero (o : TrustRegion.Opts K) (P : Parts S X D K J V) (j : J) (s : St S X D K) :
    Prog (Call X) (TRAnswer K J) ((St S X D K × Bool) × J) :=
  if (TrustRegion.projectInitial o (P.env j) s).2 then
    (evalGradJac o P true j (TrustRegion.projectInitial o (P.env j) s).1).bind fun t =>
      if t.1.2 then
        .ret (({ t.1.1 with
            initialCost := t.1.1.xCost + o.fixedCost
            cur := { t.1.1.cur with
              stepValid := true
              stepSuccessful := true } }, true), t.2)
      else .ret t
  else .ret (TrustRegion.projectInitial o (P.env j) s, j)

/-- The `LineSearchFunction` of `DoLineSearch` (trust_region_minimizer.cc:600, 625). -/
def Parts.fn (P : Parts S X D K J V) (x : X) (d : D) : Fn (TRAnswer K J) K X V where
  position := x
  plus t := P.plus x (P.smul t d)
  decode r := r.map fun a => (.fin a.1, P.gradient a.2)
  slope := P.along d
  dirNorm := P.dirNorm d

/-- The step after a search (trust_region_minimizer.cc:638-640). -/
def scaleStep (P : Parts S X D K J V) (d : D) (L : Summary K X V) : D :=
  if L.status = .success then P.smul L.optimal.x d else d

/-- The call of `DoLineSearch` (trust_region_minimizer.cc:103-108, 596-641): an Armijo search.  A
failed `CHECK` in the search is not modelled; the options that pass validation do not cause one
(`LineSearch.armijo_result`). -/
def doLineSearch (o : TrustRegion.Opts K) (P : Parts S X D K J V) (j : J) (s : St S X D K) :
    Prog (Call X) (TRAnswer K J) (St S X D K) :=
  if o.constrained ∧ o.lineSearchOn then
    (armijo P.mp P.lsOpts (P.fn s.x s.delta) 1 s.xCost (P.slope j s.delta)).bind fun L =>
      .ret { s with delta := scaleStep P s.delta L }
  else .ret s

/-- `ComputeCandidatePointAndEvaluateCost` (trust_region_minimizer.cc:781-799): default evaluate
options, so the point is new. -/
def computeCandidate (o : TrustRegion.Opts K) (P : Parts S X D K J V) (s : St S X D K) :
    Prog (Call X) (TRAnswer K J) (St S X D K) :=
  match P.plus s.x s.delta with
  | none =>
    .ret { s with
      candX := P.plusFail s.x s.delta s.candX
      candCost := o.big }
  | some y =>
    .ask ⟨y, false, true⟩ fun r =>
      match r with
      | none =>
        .ret { s with
          candX := y
          candCost := o.big }
      | some (c, _) =>
        .ret { s with
          candX := y
          candCost := c }

/-- `HandleSuccessfulStep` (trust_region_minimizer.cc:832-845), with line 122: the point is not
new (line 838). -/
def handleSuccessfulStep (o : TrustRegion.Opts K) (P : Parts S X D K J V) (j : J)
    (s : St S X D K) : Prog (Call X) (TRAnswer K J) (Next S X D K × J) :=
  (evalGradJac o P false j { s with
    anySucc := true
    x := s.candX }).bind fun t =>
    if t.1.2 then
      match P.accepted t.1.1.strat t.1.1.cur.relDecrease with
      | none => .ret (.abort, t.2)
      | some st' =>
        .ret (.cont { t.1.1 with
          strat := st'
          ev := t.1.1.ev.stepAccepted t.1.1.candCost t.1.1.modelChange
          cur := { t.1.1.cur with stepSuccessful := true } }, t.2)
    else .ret (.stop t.1.1, t.2)

/-- Lines 113-135, from the candidate on; see `TrustRegion.judge`. -/
def judge (o : TrustRegion.Opts K) (P : Parts S X D K J V) (j : J) (prevMax prevNorm : K)
    (s : St S X D K) : Prog (Call X) (TRAnswer K J) (Next S X D K × J) :=
  if s.anySucc ∧ (TrustRegion.parameterToleranceReached o (P.env j) s).2 then
    .ret (.stop (TrustRegion.parameterToleranceReached o (P.env j) s).1, j)
  else
    let s1 := if s.anySucc then (TrustRegion.parameterToleranceReached o (P.env j) s).1 else s
    if (TrustRegion.functionToleranceReached o s1).2 then
      .ret (.stop (TrustRegion.functionToleranceReached o s1).1, j)
    else
      let s2 := TrustRegion.isStepSuccessful o (TrustRegion.functionToleranceReached o s1).1
      if s2.2 then handleSuccessfulStep o P j s2.1
      else
        .ret (.cont (TrustRegion.handleUnsuccessfulStep o (P.strategy j) prevMax prevNorm s2.1), j)

/-- The loop body (trust_region_minimizer.cc:87-135); see `TrustRegion.body`. -/
def body (o : TrustRegion.Opts K) (P : Parts S X D K J V) (j : J) (s : St S X D K) :
    Prog (Call X) (TRAnswer K J) (Next S X D K × J) :=
  let t := TrustRegion.computeTrustRegionStep (P.env j) (P.strategy j)
    { s with cur := TrustRegion.freshIter (s.cur.iteration + 1) s.x }
  if t.2 then
    if t.1.cur.stepValid then
      (doLineSearch o P j t.1).bind fun s1 =>
        (computeCandidate o P s1).bind fun s2 =>
          judge o P j s.cur.gradMax s.cur.gradNorm
            (TrustRegion.doInnerIterations o (P.env j) s2)
    else
      let u := TrustRegion.handleInvalidStep o (P.strategy j) s.cur.gradMax s.cur.gradNorm t.1
      if u.2 then .ret (.cont u.1, j) else .ret (.stop u.1, j)
  else .ret (.stop t.1, j)

/-- The loop (trust_region_minimizer.cc:86-136). -/
def loop (o : TrustRegion.Opts K) (P : Parts S X D K J V) :
    Nat → J → St S X D K → Prog (Call X) (TRAnswer K J) (Outcome S X D K)
  | 0, _, _ => .ret .outOfFuel
  | fuel + 1, j, s =>
    if (TrustRegion.finalize o (P.env j) (P.strategy j) s).2 then
      (body o P j (TrustRegion.finalize o (P.env j) (P.strategy j) s).1).bind fun n =>
        match n with
        | (.cont s', j') => loop o P fuel j' s'
        | (.stop s', _) => .ret (.done s')
        | (.abort, _) => .ret .abort
    else .ret (.done (TrustRegion.finalize o (P.env j) (P.strategy j) s).1)

/-- `Minimize` (trust_region_minimizer.cc:68-137); `j0` is what the buffers hold initially. -/
def minimize (o : TrustRegion.Opts K) (P : Parts S X D K J V) (s0 : S) (x0 : X) (j0 : J)
    (fuel : Nat) : Prog (Call X) (TRAnswer K J) (Outcome S X D K) :=
  (iterationZero o P j0 (TrustRegion.init o (P.env j0) s0 x0)).bind fun z =>
    if z.1.2 then
      loop o P fuel z.2
        { z.1.1 with
          ev := Evaluator.mk' z.1.1.xCost (if o.nonmono then o.maxNonmono else 0) }
    else .ret (.done z.1.1)

end TrustRegionMinimizer

end Ceres.EvalCallback
