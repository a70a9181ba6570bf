import Verif.TrustRegion.Descent

/-!
# Concrete runs of the trust region minimizer

Non-vacuity of the theorems on `minimize`, and runs on which plausible stronger claims fail.
-/
namespace Ceres.TrustRegion

/-- Options used below: at most two iterations, monotonic. -/
def wOpts : Opts Rat where
  maxIter := 2
  maxInvalid := 5
  nonmono := false
  maxNonmono := 5
  constrained := false
  lineSearchOn := false
  gradTol := 0
  paramTol := 1 / 100
  funTol := 0
  minRadius := 0
  maxTime := 1000
  minRelDecrease := 1 / 1000
  innerTol := 0
  fixedCost := 0
  big := 1000000
  lowest := -1000000

/-- Costs of the points 0, 1, 2, ...: 10, 5, 4.999, 6. -/
def wCost : Nat → Option Rat
  | 0 => some 10
  | 1 => some 5
  | 2 => some (4999 / 1000)
  | _ => some 6

/-- Every step goes from a point to the next one and promises a decrease of 5. -/
def wEnv : Env Nat Nat Rat where
  plus x d := some (x + d)
  plusFail _ _ old := old
  zero := 0
  cost := wCost
  jac := wCost
  gradNorms _ := some (1, 1)
  modelChange _ _ := 5
  unscale d := d
  lineSearch _ _ d := d
  inner := none
  norm x := x
  dist x y := |(x : Rat) - y|
  callback _ := .continue
  time _ := 0

/-- A strategy of constant radius that always proposes the step 1. -/
def wStrategy : Strategy Unit Nat Nat Rat where
  compute _ _ := ((), .step 1)
  accepted _ q := if 0 < q then some () else none
  rejected _ _ := ()
  invalid _ := ()
  radius _ := 1

/-- The log of a run: the costs recorded, with whether the step was successful. -/
def Outcome.log {S X D K : Type} : Outcome S X D K → Option (List (K × Bool) × Term)
  | .done s => some (s.iters.map (fun it => (it.cost, it.stepSuccessful)), s.term)
  | _ => none

/-- Non-vacuity of C11-C13: two steps, the first accepted, the second (4.999 against 5, where a
decrease of 5 was predicted) rejected, and the iteration limit reached. -/
theorem witness_run :
    (minimize wOpts wEnv wStrategy () 0 3).log =
      some ([(10, true), (5, true), (4999 / 1000, false)], .noConvergence) := by
  decide +kernel

/-- What the user sees: final parameters, `final_cost` and verdict. -/
def Outcome.report {S X D K : Type} [Field K] [LinearOrder K] :
    Outcome S X D K → Option (X × K × Term)
  | .done s => some (s.params, finalCost s, s.term)
  | _ => none

/-- **C11 (finding).**  `Summary::final_cost` can be lower than the cost of the parameters
returned: `SetSummaryFinalCost` (solver_utils.h:51-60) takes the minimum over all iterations,
including rejected ones, whose recorded cost is that of the rejected candidate
(trust_region_minimizer.cc:127).  Here the point 1, of cost 5, is returned with
`final_cost = 4.999`. -/
theorem finalCost_can_be_too_low :
    (minimize wOpts wEnv wStrategy () 0 3).report = some (1, 4999 / 1000, .noConvergence) ∧
    wEnv.jac 1 = some 5 := by
  constructor
  · decide +kernel
  · rfl

/-- The same problem, but `Plus` fails everywhere except at the initial point. -/
def wEnvFail : Env Nat Nat Rat := { wEnv with plus := fun x d => if x = 0 then some (x + d) else none }

/-- **C12 (finding).**  A failing `Plus` (for instance a manifold returning `false`) after a
successful step is reported as CONVERGENCE: the candidate point keeps its previous value, which
is the current point, so the parameter tolerance test (trust_region_minimizer.cc:113, 726-748)
sees a zero step.  Here the gradient norm at the returned point 1 is 1, the gradient tolerance
is 0, and no candidate point was ever computed from 1. -/
theorem failed_plus_reports_convergence :
    (minimize wOpts wEnvFail wStrategy () 0 3).report = some (1, 5, .convergence) ∧
    (∀ d, wEnvFail.plus 1 d = none) ∧ wEnvFail.gradNorms 1 = some (1, 1) ∧ wOpts.gradTol = 0 := by
  refine ⟨by decide +kernel, fun _ => rfl, rfl, rfl⟩

/-- The same problem, with inner iterations that move to the point 9 of cost 20. -/
def wEnvInner : Env Nat Nat Rat :=
  { wEnv with
    cost := fun x => if x = 9 then some 20 else wCost x
    jac := fun x => if x = 9 then some 20 else wCost x
    inner := some (fun _ => 9) }

/-- **C13 (finding).**  The hypothesis that inner iterations do not raise the cost is needed in
`minimize_monotone`: if they do, the model cost change becomes negative
(trust_region_minimizer.cc:562-564), the quality positive, and a step from cost 10 to cost 20 is
accepted in the monotonic mode. -/
theorem inner_increase_accepted :
    ((minimize { wOpts with maxIter := 1 } wEnvInner wStrategy () 0 2).log =
      some ([(10, true), (20, true)], .noConvergence)) := by
  decide +kernel

example : Consistent wEnv ∧ InnerDescends wEnv := ⟨fun _ _ h => h, by intro f h; cases h⟩
example : ∀ x c, wEnv.jac x = some c → c < wOpts.big := by
  intro x c h
  match x, h with
  | 0, h => cases h; norm_num [wOpts]
  | 1, h => cases h; norm_num [wOpts]
  | 2, h => cases h; norm_num [wOpts]
  | n + 3, h => cases h; norm_num [wOpts]
example : ∀ st q, 0 < q → wStrategy.accepted st q ≠ none := by
  intro st q h
  simp [wStrategy, h]

end Ceres.TrustRegion
