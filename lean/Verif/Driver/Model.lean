import Verif.Program.Reduce
import Verif.TrustRegion.Model

/-!
# Model of `Solver::Solve` around the minimizer
(solver.cc, minimizer.cc, callbacks.cc, preprocessor.cc, gradient_checking_cost_function.cc)

Memory is modelled block by block: `mem b` is the content of the user's memory of parameter block
`b` (C06 relates blocks to cells).  What the minimizer does is an arbitrary interaction with the
outside world: it evaluates the user's functions, reports iterations, and finally returns; the
trust region minimizer and the line search minimizer are instances (`Driver.TrustRegion`,
`Driver.LineSearch`).
-/
namespace Ceres.Driver

open Ceres.TrustRegion (CB Term)
open Ceres.Program (Prog Reduced removeFixedBlocks)

/-- What exists outside the solver: the user's parameter memory, everything else the user's code
can read and change (`aux`), and the flag `gradient_error_detected_` of the gradient checking
callback (gradient_checking_cost_function.h:59-76). -/
structure World (V A : Type) where
  mem : Nat → V
  aux : A
  gradErr : Bool

/-- Which callback it is (ghost). -/
inductive Kind where
  | stateUpdating
  | logging
  | user (j : Nat)
  | gradientChecking
  deriving DecidableEq

/-- An `IterationCallback`.  The first argument is the content of `pp->reduced_parameters`, the
array the minimizer keeps its parameters in, to which `StateUpdatingCallback` has a pointer. -/
structure Callback (V I A : Type) where
  kind : Kind
  run : List V → I → World V A → World V A × CB

/-- Ghost record of one invocation of a callback. -/
structure Call (V I A : Type) where
  kind : Kind
  iteration : I
  params : List V
  seen : World V A
  answer : CB

variable {V I K A : Type}

/-- The loop of `Minimizer::RunCallbacks` (minimizer.cc:60-66): the world afterwards, the status,
and the invocations. -/
def runCallbacks (params : List V) (it : I) :
    List (Callback V I A) → World V A → World V A × CB × List (Call V I A)
  | [], w => (w, .continue, [])
  | c :: cs, w =>
    if (c.run params it w).2 = .continue then
      ((runCallbacks params it cs (c.run params it w).1).1,
        (runCallbacks params it cs (c.run params it w).1).2.1,
        ⟨c.kind, it, params, w, (c.run params it w).2⟩ ::
          (runCallbacks params it cs (c.run params it w).1).2.2)
    else
      ((c.run params it w).1, (c.run params it w).2,
        [⟨c.kind, it, params, w, (c.run params it w).2⟩])

/-- A verdict of the minimizer itself; `crash` is a failed `CHECK`. -/
inductive Own where
  | convergence
  | noConvergence
  | failure
  | crash
  deriving DecidableEq

/-- `TerminationType` of the minimizer's own verdict; `none`: the process is gone. -/
def Own.term : Own → Option Term
  | .convergence => some .convergence
  | .noConvergence => some .noConvergence
  | .failure => some .failure
  | .crash => none

/-- A minimizer (`Minimizer::Minimize`, minimizer.h:181-183) as a tree of its interactions:
* `initial c`: it sets `summary->initial_cost`;
* `evaluate`: it evaluates the problem, which may change `aux` and may raise the flag of the
  gradient checker, and continues depending on what the user's code has become;
* `report`: it appends an iteration summary and calls `RunCallbacks`, `params` being the
  content of its parameter array at that moment;
* `record`: it appends an iteration summary and does not call the callbacks;
* `done`: it returns, leaving `params` in its parameter array. -/
inductive Run (V I K A : Type) where
  | initial (c : K) (next : Run V I K A)
  | evaluate (upd : A → A) (err : A → Bool) (next : A → Run V I K A)
  | report (params : List V) (it : I) (next : A → Run V I K A)
  | record (it : I) (next : Run V I K A)
  | done (params : List V) (t : Own)

/-- What is known when the minimizer returns; `reported` (ghost) are the iterations for which
callbacks were called. -/
structure Result (V I K A : Type) where
  params : List V
  term : Option Term
  initialCost : K
  iters : List I
  world : World V A
  calls : List (Call V I A)
  reported : List I

/-- Execution of a minimizer with given callbacks; the `report` case is the end of
`Minimizer::RunCallbacks` (minimizer.cc:67-88) and the immediate return of both minimizers when it
returns false (trust_region_minimizer.cc:340-342, line_search_minimizer.cc:216-219). -/
def exec (cbs : List (Callback V I A)) : Run V I K A → K → World V A → Result V I K A
  | .initial c next, _, w => exec cbs next c w
  | .evaluate upd err next, k, w =>
    exec cbs (next (upd w.aux)) k
      { w with
        aux := upd w.aux
        gradErr := w.gradErr || err w.aux }
  | .report p it next, k, w =>
    match (runCallbacks p it cbs w).2.1 with
    | .continue =>
      let r := exec cbs (next (runCallbacks p it cbs w).1.aux) k (runCallbacks p it cbs w).1
      { r with
        iters := it :: r.iters
        calls := (runCallbacks p it cbs w).2.2 ++ r.calls
        reported := it :: r.reported }
    | .terminateSuccessfully =>
      ⟨p, some .userSuccess, k, [it], (runCallbacks p it cbs w).1, (runCallbacks p it cbs w).2.2,
        [it]⟩
    | .abort =>
      ⟨p, some .userFailure, k, [it], (runCallbacks p it cbs w).1, (runCallbacks p it cbs w).2.2,
        [it]⟩
  | .record it next, k, w =>
    { exec cbs next k w with iters := it :: (exec cbs next k w).iters }
  | .done p t, k, w => ⟨p, t.term, k, [], w, [], []⟩

/-- `StateVectorToParameterBlocks` followed by `CopyParameterBlockStateToUserState`
(callbacks.cc:51-52, solver.cc:669-672) block by block; see `Program.solution_writeback` for the
same at the level of cells, and for the assumption that no manifold's Jacobian fails. -/
def writeBack : List Nat → List V → (Nat → V) → Nat → V
  | b :: bs, v :: vs, m => writeBack bs vs (fun a => if a = b then v else m a)
  | _, _, m => m

/-- `StateUpdatingCallback` (callbacks.cc:43-54). -/
def stateUpdatingCallback (blocks : List Nat) : Callback V I A :=
  ⟨.stateUpdating, fun params _ w => ({ w with mem := writeBack blocks params w.mem }, .continue)⟩

/-- `LoggingCallback` (callbacks.cc:82-133); the output is not modelled. -/
def loggingCallback : Callback V I A := ⟨.logging, fun _ _ w => (w, .continue)⟩

/-- `GradientCheckingIterationCallback` (gradient_checking_cost_function.cc:138-146). -/
def gradientCheckingCallback : Callback V I A :=
  ⟨.gradientChecking, fun _ _ w => (w, if w.gradErr then .abort else .continue)⟩

/-- A callback of the user: it gets the iteration summary, can read and write the user's memory
and everything else that belongs to the user, and answers. -/
abbrev UserCallback (V I A : Type) := I → (Nat → V) → A → (Nat → V) × A × CB

/-- The options that matter here.  `valid` is the result of `Options::IsValid`. -/
structure Options (V I A : Type) where
  valid : Bool
  checkGradients : Bool
  updateState : Bool
  silent : Bool
  callbacks : List (UserCallback V I A)

/-- The callbacks of the user, with their positions. -/
def userCallbacks (l : List (UserCallback V I A)) : List (Callback V I A) :=
  l.zipIdx.map (fun p => ⟨.user p.2, fun _ it w =>
    ({ w with
        mem := (p.1 it w.mem w.aux).1
        aux := (p.1 it w.mem w.aux).2.1 }, (p.1 it w.mem w.aux).2.2)⟩)

/-- The callbacks the minimizer gets: the gradient checking callback is appended to the user's
(solver.cc:770-772), the logging callback is put in front of them and then the state updating
callback in front of everything (preprocessor.cc:92-106). -/
def minimizerCallbacks (o : Options V I A) (blocks : List Nat) : List (Callback V I A) :=
  let l := if o.checkGradients then userCallbacks o.callbacks ++ [gradientCheckingCallback]
    else userCallbacks o.callbacks
  let l := if o.silent then l else loggingCallback :: l
  if o.updateState then stateUpdatingCallback blocks :: l else l

/-- The problem: program, constant blocks, and the checks of `IsProgramValid`
(trust_region_preprocessor.cc:53-62, line_search_preprocessor.cc:47-53). -/
structure Problem (V K : Type) where
  prog : Prog V K
  isConst : Nat → Bool
  valid : (Nat → V) → Bool

/-- Everything else `Solve` calls.  `prepare`: effect of the evaluations of the preprocessor;
`cudaOk`: `InitCuda` if required; `setupOk`: whether the remaining steps of the preprocessor
succeed; `order`: the order in which it leaves the parameter blocks of the reduced program;
`minimizer`: the minimizer with the fixed cost, the reduced blocks and their initial values. -/
structure Env (V I K A : Type) where
  cudaOk : Bool
  prepare : A → A
  setupOk : List Nat → Bool
  order : List Nat → List Nat
  minimizer : K → List Nat → List V → Run V I K A
  cost : I → K

/-- `Solver::Summary`, the parts that matter here; `params` is a ghost field: the parameters in
the array of the minimizer when it returned, and so are `blocks`, the blocks they belong to, and
`reported`.
`term = none`: the process is gone. -/
structure Summary (V I K A : Type) where
  term : Option Term
  initialCost : K
  finalCost : K
  fixedCost : K
  iters : List I
  calls : List (Call V I A)
  reported : List I
  blocks : List Nat
  params : List V

/-- `IsSolutionUsable` (solver_utils.h:44-49). -/
def usable : Option Term → Bool
  | some t => t.usable
  | none => false

/-- `SetSummaryFinalCost` (solver_utils.h:51-60). -/
def summaryFinalCost [LinearOrder K] (cost : I → K) (initial : K) (iters : List I) : K :=
  iters.foldl (fun acc it => min (cost it) acc) initial

/-- The summary before anything happened (solver.h: `termination_type = FAILURE`,
`initial_cost = final_cost = fixed_cost = -1.0`). -/
def Summary.fresh [Neg K] [One K] : Summary V I K A :=
  ⟨some .failure, -1, -1, -1, [], [], [], [], []⟩

/-- `Minimize` (solver.cc:646-673) followed by `SetSummaryFinalCost` (solver.cc:599) and the report
of a gradient error (solver.cc:848-851; without `check_gradients` the flag is never raised).  If the process is gone nothing more is written. -/
def minimize [LinearOrder K] (o : Options V I A) (env : Env V I K A) (fixedCost unset : K)
    (blocks : List Nat) (w : World V A) : World V A × Summary V I K A :=
  if blocks.length = 0 then
    (w, ⟨some .convergence, fixedCost,
      summaryFinalCost env.cost fixedCost [], fixedCost, [], [], [], [], []⟩)
  else
    let x0 := blocks.map w.mem
    let r := exec (minimizerCallbacks o blocks) (env.minimizer fixedCost blocks x0) unset w
    if r.term = none then
      (r.world, ⟨none, r.initialCost, unset, fixedCost, r.iters, r.calls, r.reported, blocks,
        r.params⟩)
    else
      ({ r.world with
          mem := writeBack blocks (if usable r.term then r.params else x0) r.world.mem },
        ⟨if o.checkGradients && r.world.gradErr then some .failure else r.term, r.initialCost,
          summaryFinalCost env.cost r.initialCost r.iters, fixedCost, r.iters, r.calls,
          r.reported, blocks, r.params⟩)

/-- `Solver::Solve` (solver.cc:734-855), with `Preprocess` (trust_region_preprocessor.cc:378-428,
line_search_preprocessor.cc:72-102).  When `CreateReducedProgram` fails the fixed cost in the
summary is whatever was accumulated; the default is kept here. -/
def solve [LinearOrder K] [Add K] [Zero K] [Neg K] [One K] (o : Options V I A)
    (env : Env V I K A) (p : Problem V K) (w : World V A) : World V A × Summary V I K A :=
  if o.valid = false then (w, .fresh)
  else if env.cudaOk = false then (w, .fresh)
  else if p.valid w.mem = false then (w, .fresh)
  else
    let w := { w with
      aux := env.prepare w.aux
      gradErr := false }
    match removeFixedBlocks p.isConst w.mem p.prog with
    | .error _ => (w, .fresh)
    | .ok red =>
      if red.prog.pblocks.length = 0 then minimize o env red.fixedCost (-1) [] w
      else if env.setupOk red.prog.pblocks = false then
        (w, { Summary.fresh with fixedCost := red.fixedCost })
      else minimize o env red.fixedCost (-1) (env.order red.prog.pblocks) w

end Ceres.Driver
