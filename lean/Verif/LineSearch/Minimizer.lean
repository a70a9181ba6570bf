import Verif.LineSearch.Direction
import Verif.LineSearch.Wolfe

/-!
# Model of the line search minimizer (line_search_minimizer.cc, minimizer.cc)

The line search is a parameter (`armijo` and `wolfe` of `LineSearch.Model` are the instances), the
clock and the callbacks are an oracle.  Arithmetic is exact over the reals; the cost an evaluation
delivers may be infinite or NaN, gradients are finite (`ResidualBlock::Evaluate` rejects
non-finite residuals and Jacobians, so only an overflow could produce others).
-/
namespace Ceres.LineSearch

variable {X V : Type} [NormedAddCommGroup V] [InnerProductSpace ℝ V]

local notation "⟪" x ", " y "⟫" => @inner ℝ _ _ x y

/-- The evaluator and the norms the minimizer uses.  `eval x g` is the cost and, if `g`, the
gradient; `plus` is `Evaluator::Plus`; `diffSq`, `diffMax` and `dist` are `(x - y).squaredNorm()`,
`(x - y).lpNorm<Infinity>()` and `(x - y).norm()`; `dirNorm` is the maximum norm of a tangent
vector (line_search.cc:147-149). -/
structure LSProblem (X V : Type) where
  eval : X → Bool → Option (Ext ℝ × V)
  plus : X → V → Option X
  diffSq : X → X → ℝ
  diffMax : X → X → ℝ
  dist : X → X → ℝ
  norm : X → ℝ
  dirNorm : V → ℝ

/-- The options of `LineSearchMinimizer::Minimize` that are not handed on to the search. -/
structure LSOptions where
  direction : DirectionType
  maxNumIterations : ℕ
  maxRestarts : ℕ
  gradientTolerance : ℝ
  parameterTolerance : ℝ
  functionTolerance : ℝ

/-- `CallbackReturnType` of all callbacks together (minimizer.cc:57-92). -/
inductive CallbackResult where
  | continue
  | abort
  | terminateSuccessfully
deriving DecidableEq

/-- `Solver::Summary::termination_type` with the reason (`message`). -/
inductive LSStatus where
  /-- `CONVERGENCE`, gradient tolerance. -/
  | gradientTolerance
  /-- `CONVERGENCE`, parameter tolerance. -/
  | parameterTolerance
  /-- `CONVERGENCE`, function tolerance. -/
  | functionTolerance
  /-- `NO_CONVERGENCE`, `max_num_iterations`. -/
  | maxIterations
  /-- `NO_CONVERGENCE`, `max_solver_time_in_seconds`. -/
  | maxTime
  /-- `USER_FAILURE`. -/
  | userFailure
  /-- `USER_SUCCESS`. -/
  | userSuccess
  /-- `FAILURE`: an evaluation or `Plus` failed. -/
  | evaluationFailed
  /-- `FAILURE`: too many restarts of the direction. -/
  | directionFailed
  /-- `FAILURE`: negative initial step size. -/
  | negativeStep
  /-- `FAILURE`: the line search failed. -/
  | searchFailed
  /-- A failed `CHECK`. -/
  | aborted
  /-- The cost or direction is not finite; what follows is not modelled. -/
  | notFinite
  /-- Artefact of the model: the recursion bound was reached (proved impossible). -/
  | outOfFuel
deriving DecidableEq

/-- `IterationSummary` (iteration_callback.h); `x`, `slope` and `estimate` are ghost fields: the
parameters at the end of the iteration, the directional derivative and the initial step of its
search. -/
structure LSRecord (X : Type) where
  iteration : ℕ
  cost : ℝ
  gradientMaxNorm : ℝ
  costChange : ℝ
  stepNorm : ℝ
  stepSize : ℝ
  x : X
  slope : ℝ
  estimate : ℝ

/-- What `Minimize` leaves behind: the parameters, the verdict and `summary->iterations`. -/
structure LSResult (X : Type) where
  x : X
  status : LSStatus
  records : List (LSRecord X)

/-- The `LineSearchFunction` after `Init(x, direction)` (line_search.cc:92-101). -/
noncomputable def LSProblem.fn (P : LSProblem X V) (x : X) (d : V) : Fn ℝ X V where
  position := x
  plus t := P.plus x (t • d)
  eval := P.eval
  slope v := .fin ⟪d, v⟫
  dirNorm := P.dirNorm d

/-- `EvaluateGradientNorms` (line_search_minimizer.cc:67-83). -/
def LSProblem.norms (P : LSProblem X V) (x : X) (g : V) : Option (ℝ × ℝ) :=
  (P.plus x (-g)).map fun y => (P.diffSq x y, P.diffMax x y)

/-- A line search: function, initial step, cost and slope at zero. -/
abbrev Search (X V : Type) := Fn ℝ X V → ℝ → ℝ → ℝ → Summary ℝ X V

/-- `initial_step_size` (line_search_minimizer.cc:302-307).  `none` is minus infinity, the
quotient of a negative number and zero (a zero slope counts as `+0.0`; other quotients by zero are
`+inf` or NaN, and `std::min(1.0, .)` makes them one). -/
noncomputable def initialStep (fresh : Bool) (gradientMaxNorm cost previousCost slope : ℝ) :
    Option ℝ :=
  if fresh then some (min 1 (1 / gradientMaxNorm))
  else if slope = 0 then
    if 2 * (cost - previousCost) < 0 then none else some 1
  else some (min 1 (2 * (cost - previousCost) / slope))

/-- The search direction of an iteration (line_search_minimizer.cc:246-290): the direction object,
the restart counter, whether the iteration counts as fresh, the direction; or the verdict. -/
noncomputable def chooseDirection (o : LSOptions) (iteration restarts : ℕ) (dir : Direction V)
    (previous current : LSState V) : LSStatus ⊕ (Direction V × ℕ × Bool × V) :=
  if iteration = 1 then .inr (dir, restarts, true, -current.gradient)
  else
    match (dir.next previous current).2 with
    | .aborted => .inl .aborted
    | .notFinite => .inl .notFinite
    | .ok d => .inr ((dir.next previous current).1, restarts, false, d)
    | .failed =>
      if o.maxRestarts ≤ restarts then .inl .directionFailed
      else .inr (Direction.create o.direction, restarts + 1, true, -current.gradient)

/-- The point a search found, with its cost and gradient (line_search_minimizer.cc:346-373). -/
def takePoint (P : LSProblem X V) (s : Sample ℝ X V) : LSStatus ⊕ (X × ℝ × V) :=
  match s.vx with
  | none => .inl .aborted
  | some y =>
    match s.vg with
    | some g => .inr (y, s.value, g)
    | none =>
      match P.eval y true with
      | none => .inl .evaluationFailed
      | some (.fin c, g) => .inr (y, c, g)
      | some _ => .inl .notFinite

/-- The loop of `Minimize` (line_search_minimizer.cc:214-478).  `last` is
`summary->iterations.back()`, `records` what came before it. -/
noncomputable def minimizeLoop (search : Search X V) (P : LSProblem X V) (o : LSOptions)
    (oracle : ℕ → CallbackResult × Bool) :
    ℕ → X → LSState V → LSState V → Direction V → ℕ → List (LSRecord X) → LSRecord X → LSResult X
  | fuel, x, previous, current, dir, restarts, records, last =>
    let all := records ++ [last]
    if (oracle last.iteration).1 = .abort then ⟨x, .userFailure, all⟩
    else if (oracle last.iteration).1 = .terminateSuccessfully then ⟨x, .userSuccess, all⟩
    else if o.maxNumIterations ≤ last.iteration then ⟨x, .maxIterations, all⟩
    else if (oracle last.iteration).2 = true then ⟨x, .maxTime, all⟩
    else
      match chooseDirection o (last.iteration + 1) restarts dir previous current with
      | .inl status => ⟨x, status, all⟩
      | .inr (dir', restarts', fresh, d) =>
        let slope := ⟪current.gradient, d⟫
        match initialStep fresh current.gradientMaxNorm current.cost previous.cost slope with
        | none => ⟨x, .negativeStep, all⟩
        | some estimate =>
          if estimate < 0 then ⟨x, .negativeStep, all⟩
          else
            let S := search (P.fn x d) estimate current.cost slope
            if S.status = .aborted then ⟨x, .aborted, all⟩
            else if S.status ≠ .success then ⟨x, .searchFailed, all⟩
            else
              match takePoint P S.optimal with
              | .inl status => ⟨x, status, all⟩
              | .inr (y, cost, gradient) =>
                match P.norms y gradient with
                | none => ⟨x, .evaluationFailed, all⟩
                | some (sq, mx) =>
                  let previous' := { current with
                    searchDirection := d
                    directionalDerivative := slope
                    stepSize := S.optimal.x }
                  let current' : LSState V := ⟨cost, gradient, sq, mx, d, slope, S.optimal.x⟩
                  let record : LSRecord X :=
                    ⟨last.iteration + 1, cost, mx, current.cost - cost, P.dist y x, S.optimal.x,
                      y, slope, estimate⟩
                  if P.dist y x ≤
                      o.parameterTolerance * (P.norm x + o.parameterTolerance) then
                    ⟨y, .parameterTolerance, all ++ [record]⟩
                  else if mx ≤ o.gradientTolerance then
                    ⟨y, .gradientTolerance, all ++ [record]⟩
                  else if |current.cost - cost| ≤ o.functionTolerance * |current.cost| then
                    ⟨y, .functionTolerance, all ++ [record]⟩
                  else
                    match fuel with
                    | 0 => ⟨y, .outOfFuel, all ++ [record]⟩
                    | fuel + 1 =>
                      minimizeLoop search P o oracle fuel y previous' current' dir' restarts'
                        all record

/-- `LineSearchMinimizer::Minimize` (line_search_minimizer.cc:87-479).  `fixed_cost` is left out
of the recorded costs.  If the gradient tolerance is met initially the code returns before it
pushes the first iteration summary (lines 149-158). -/
noncomputable def minimize (search : Search X V) (P : LSProblem X V) (o : LSOptions)
    (oracle : ℕ → CallbackResult × Bool) (x : X) : LSResult X :=
  match P.eval x true with
  | none => ⟨x, .evaluationFailed, []⟩
  | some (.fin cost, gradient) =>
    match P.norms x gradient with
    | none => ⟨x, .evaluationFailed, []⟩
    | some (sq, mx) =>
      if mx ≤ o.gradientTolerance then ⟨x, .gradientTolerance, []⟩
      else
        minimizeLoop search P o oracle o.maxNumIterations x ⟨0, 0, 0, 0, 0, 0, 0⟩
          ⟨cost, gradient, sq, mx, 0, 0, 0⟩ (.create o.direction) 0 []
          ⟨0, cost, mx, 0, 0, 0, x, 0, 0⟩
  | some _ => ⟨x, .notFinite, []⟩

/-! ## Specification -/

/-- The cost of a point does not depend on whether the gradient is computed with it. -/
def CostConsistent (P : LSProblem X V) : Prop :=
  ∀ x c v c' v', P.eval x false = some (c, v) → P.eval x true = some (c', v') → c' = c

/-- `Plus` of a zero step moves nowhere, and a point differs from itself by zero. -/
structure PlusZero (P : LSProblem X V) : Prop where
  plus : ∀ x, P.plus x 0 = some x
  diff : ∀ x, P.diffMax x x = 0

/-- What the minimizer needs of a line search with parameter `c` (`sufficient_decrease`): it does
not abort, and if it succeeds then it returns the starting point or a point it evaluated ahead of
it, with sufficient decrease. -/
def SearchOk (c : ℝ) (search : Search X V) : Prop :=
  ∀ (F : Fn ℝ X V) (estimate cost slope : ℝ), 0 ≤ estimate → FiniteSlopes F →
    (search F estimate cost slope).status ≠ .aborted ∧
    ((search F estimate cost slope).status = .success →
      let s := (search F estimate cost slope).optimal
      (s = .initial F.position cost slope ∨ ∃ t g, 0 ≤ t ∧ s = F.evaluate t g) ∧
        Decreases c cost slope s)

/-- The Armijo search meets the contract. -/
theorem armijo_searchOk {mp : List (Sample ℝ X V) → ℝ → ℝ → ℝ} (hmp : StaysInside mp)
    {o : Opts ℝ} (ho : ArmijoOpts o) : SearchOk o.sufficientDecrease (armijo mp o) := by
  intro F estimate cost slope he _
  refine ⟨?_, ?_⟩
  · rcases (armijo_result hmp ho F cost slope he).outcome with ⟨h, _⟩ | ⟨h, _⟩ | ⟨h, _⟩ <;>
      rw [h] <;> simp
  · intro hs
    obtain ⟨h1, h2, _, _, h5, _⟩ := armijo_success hmp ho F cost slope he hs
    exact ⟨Or.inr ⟨_, _, h5, h2⟩, h1⟩

/-- The Wolfe search meets the contract. -/
theorem wolfe_searchOk {mp : List (Sample ℝ X V) → ℝ → ℝ → ℝ} (hmp : StaysInside mp)
    {o : Opts ℝ} (ho : WolfeOpts o) : SearchOk o.sufficientDecrease (wolfe mp o) := by
  intro F estimate cost slope he hF
  refine ⟨(wolfe_bounded hmp ho F cost slope he).2.2.2.2 hF, ?_⟩
  intro hs
  obtain ⟨h1, h2, _, _, _, h5, _, h7⟩ := wolfe_success hmp ho F cost slope he hs
  refine ⟨?_, (h7 hF).1⟩
  rcases List.mem_cons.mp h1 with h | h
  · exact Or.inl h
  · exact Or.inr ⟨_, _, h5, h2 _ h⟩

/-! ## Proofs -/

omit [InnerProductSpace ℝ V] [NormedAddCommGroup V] in
theorem Fn.evaluate_valid {F : Fn ℝ X V} {t : ℝ} {g : Bool}
    (h : (F.evaluate t g).valueValid = true) :
    ∃ x v, F.plus t = some x ∧ (F.evaluate t g).vx = some x ∧
      F.eval x g = some (.fin (F.evaluate t g).value, v) ∧
      ((F.evaluate t g).vg = none ∨ (g = true ∧ (F.evaluate t g).vg = some v)) := by
  unfold Fn.evaluate at h ⊢
  cases hp : F.plus t with
  | none => rw [hp] at h; simp [Sample.empty] at h
  | some x =>
    simp only [hp] at h ⊢
    cases he : F.eval x g with
    | none => rw [he] at h; simp at h
    | some p =>
      obtain ⟨c, v⟩ := p
      cases c with
      | fin c =>
        simp only
        cases g with
        | false => exact ⟨x, v, by simp_all⟩
        | true =>
          simp only [if_true]
          by_cases hf : (F.slope v).finite = true
          · rw [if_pos hf]
            exact ⟨x, v, by simp_all⟩
          · rw [if_neg hf]
            exact ⟨x, v, by simp_all⟩
      | pinf => rw [he] at h; simp at h
      | ninf => rw [he] at h; simp at h
      | nan => rw [he] at h; simp at h

theorem fn_finiteSlopes (P : LSProblem X V) (x : X) (d : V) : FiniteSlopes (P.fn x d) := by
  intro t h
  unfold Fn.evaluate at h ⊢
  cases hp : (P.fn x d).plus t with
  | none => rw [hp] at h; simp [Sample.empty] at h
  | some y =>
    simp only [hp] at h ⊢
    cases he : (P.fn x d).eval y true with
    | none => rw [he] at h; simp at h
    | some p =>
      obtain ⟨c, v⟩ := p
      cases c with
      | fin c => simp [LSProblem.fn, Ext.finite]
      | pinf => rw [he] at h; simp at h
      | ninf => rw [he] at h; simp at h
      | nan => rw [he] at h; simp at h

/-- The direction object is in a state `Create` and `NextDirection` can leave it in. -/
def Direction.Good : Direction V → Prop
  | .steepest => True
  | .ncg _ tol => 0 < tol
  | .bfgs s => s.Good
  | .lbfgs s => s.isPositiveDefinite = true ∧ s.hessian.Inv ∧ 0 < s.hessian.maxCorrections

/-- `max_lbfgs_rank` is positive (solver.cc:470). -/
def DirectionType.Ok : DirectionType → Prop
  | .lbfgs rank _ => 0 < rank
  | _ => True

theorem Direction.create_good {t : DirectionType} (h : t.Ok) :
    (Direction.create t : Direction V).Good := by
  cases t with
  | steepest => trivial
  | ncg type => simp only [Direction.create, Direction.Good]; positivity
  | bfgs u => exact BFGSState.new_good u
  | lbfgs r u => exact ⟨rfl, LowRank.new_inv r u, h⟩

/-- A good direction object, given a nonzero gradient, stays good and delivers a direction that
goes strictly downhill, or divides by zero (conjugate gradients only). -/
theorem Direction.next_good {D : Direction V} (hD : D.Good) (previous current : LSState V)
    (hg : current.gradient ≠ 0) :
    (D.next previous current).1.Good ∧
      ((∃ d, (D.next previous current).2 = .ok d ∧ ⟪current.gradient, d⟫ < 0) ∨
        ((D.next previous current).2 = .notFinite ∧ ∃ t tol, D = .ncg t tol)) := by
  have hself : ⟪current.gradient, -current.gradient⟫ < 0 := by
    rw [inner_neg_right, neg_lt_zero]; exact real_inner_self_pos.mpr hg
  cases D with
  | steepest => exact ⟨trivial, Or.inl ⟨_, rfl, hself⟩⟩
  | ncg type tol =>
    refine ⟨hD, ?_⟩
    simp only [Direction.next]
    cases hn : ncgNext type tol previous current with
    | none => exact Or.inr ⟨rfl, _, _, rfl⟩
    | some d =>
      refine Or.inl ⟨d, rfl, ?_⟩
      rcases ncg_descends _ _ _ _ hn with h1 | h1
      · have : (0 : ℝ) < tol := hD
        linarith
      · rw [h1]; exact hself
  | bfgs s =>
    obtain ⟨h1, h2⟩ := bfgs_next hD previous current hg
    exact ⟨h1, Or.inl h2⟩
  | lbfgs s =>
    obtain ⟨⟨h1, h2, h3⟩, h4⟩ := lbfgs_next hD.1 hD.2.1 hD.2.2 previous current hg
    exact ⟨⟨h1, h2, by rw [h3]; exact hD.2.2⟩, Or.inl h4⟩

/-- One recorded step: `a` the iteration before, `b` the iteration. -/
structure StepOk (P : LSProblem X V) (c : ℝ) (a b : LSRecord X) : Prop where
  iteration : b.iteration = a.iteration + 1
  slope : b.slope < 0
  estimate : 0 < b.estimate ∧ b.estimate ≤ 1
  stepSize : 0 ≤ b.stepSize
  decrease : b.cost ≤ a.cost + c * b.slope * b.stepSize
  costChange : b.costChange = a.cost - b.cost
  reached : b.x = a.x ∧ b.stepSize = 0 ∨
    ∃ d g, P.eval a.x true = some (.fin a.cost, g) ∧ b.slope = ⟪g, d⟫ ∧
      P.plus a.x (b.stepSize • d) = some b.x

/-- The facts about the records of a run that started at `x₀`. -/
structure RecordsOk (P : LSProblem X V) (c : ℝ) (o : LSOptions) (x₀ : X)
    (rs : List (LSRecord X)) : Prop where
  first : ∀ r, rs.head? = some r → r.iteration = 0 ∧ r.x = x₀
  bounded : rs.length ≤ o.maxNumIterations + 1
  cost : ∀ r ∈ rs, ∃ g, P.eval r.x true = some (.fin r.cost, g) ∧
    ∃ y, P.plus r.x (-g) = some y ∧ P.diffMax r.x y = r.gradientMaxNorm
  steps : rs.IsChain (StepOk P c)

/-- Why the run stopped. -/
def Verdict (P : LSProblem X V) (o : LSOptions) (oracle : ℕ → CallbackResult × Bool)
    (r : LSResult X) : Prop :=
  ∃ last, r.records.getLast? = some last ∧ r.x = last.x ∧
    match r.status with
    | .gradientTolerance => last.gradientMaxNorm ≤ o.gradientTolerance
    | .parameterTolerance => ∃ a ∈ r.records,
        P.dist last.x a.x ≤ o.parameterTolerance * (P.norm a.x + o.parameterTolerance)
    | .functionTolerance => ∃ a ∈ r.records, last.costChange = a.cost - last.cost ∧
        |last.costChange| ≤ o.functionTolerance * |a.cost|
    | .maxIterations => last.iteration = o.maxNumIterations
    | .maxTime => (oracle last.iteration).2 = true
    | .userFailure => (oracle last.iteration).1 = .abort
    | .userSuccess => (oracle last.iteration).1 = .terminateSuccessfully
    | .evaluationFailed => True
    | .searchFailed => True
    | .notFinite => ∃ t, o.direction = .ncg t
    | .directionFailed => False
    | .negativeStep => False
    | .aborted => False
    | .outOfFuel => False

/-- The tolerances are not negative (solver.cc, `CommonOptionsAreValid`) and the L-BFGS rank is
positive. -/
structure OptionsOk (o : LSOptions) : Prop where
  gradient : 0 ≤ o.gradientTolerance
  function : 0 ≤ o.functionTolerance
  direction : o.direction.Ok

/-- Invariant at the top of the loop. -/
structure LoopInv (P : LSProblem X V) (c : ℝ) (o : LSOptions) (x₀ x : X)
    (previous current : LSState V) (dir : Direction V) (records : List (LSRecord X))
    (last : LSRecord X) : Prop where
  recs : RecordsOk P c o x₀ (records ++ [last])
  number : last.iteration = records.length
  le : last.iteration ≤ o.maxNumIterations
  lastx : last.x = x
  lastcost : last.cost = current.cost
  lastmax : last.gradientMaxNorm = current.gradientMaxNorm
  eval : P.eval x true = some (.fin current.cost, current.gradient)
  norms : ∃ y, P.plus x (-current.gradient) = some y ∧ P.diffMax x y = current.gradientMaxNorm
  big : o.gradientTolerance < current.gradientMaxNorm
  down : 0 < last.iteration → current.cost < previous.cost
  good : dir.Good
  kind : ∀ t tol, dir = .ncg t tol → ∃ t', o.direction = .ncg t'

theorem LoopInv.gradient_ne {P : LSProblem X V} (hP : PlusZero P) {c : ℝ} {o : LSOptions}
    (ho : OptionsOk o) {x₀ x : X} {previous current : LSState V} {dir : Direction V}
    {records : List (LSRecord X)} {last : LSRecord X}
    (I : LoopInv P c o x₀ x previous current dir records last) : current.gradient ≠ 0 := by
  intro h0
  obtain ⟨y, h1, h2⟩ := I.norms
  rw [h0, neg_zero, hP.plus, Option.some.injEq] at h1
  subst h1
  rw [hP.diff] at h2
  have := I.big
  have := ho.gradient
  linarith

theorem Direction.next_kind (D : Direction V) (previous current : LSState V) (t : NCGType)
    (tol : ℝ) (h : (D.next previous current).1 = .ncg t tol) : D = .ncg t tol := by
  cases D with
  | steepest => cases h
  | ncg t' tol' => exact h
  | bfgs s => cases h
  | lbfgs s => cases h

theorem minimizeLoop_ok {search : Search X V} {c : ℝ} (hc : 0 ≤ c) (hsearch : SearchOk c search)
    {P : LSProblem X V} (hP : PlusZero P) (hcost : CostConsistent P) {o : LSOptions}
    (ho : OptionsOk o) (oracle : ℕ → CallbackResult × Bool) (x₀ : X) :
    ∀ (fuel : ℕ) (x : X) (previous current : LSState V) (dir : Direction V) (restarts : ℕ)
      (records : List (LSRecord X)) (last : LSRecord X),
      LoopInv P c o x₀ x previous current dir records last →
      o.maxNumIterations ≤ last.iteration + fuel →
      let r := minimizeLoop search P o oracle fuel x previous current dir restarts records last
      RecordsOk P c o x₀ r.records ∧ Verdict P o oracle r := by
  intro fuel
  induction fuel with
  | zero =>
    intro x previous current dir restarts records last I hf
    have hl : (records ++ [last]).getLast? = some last := by simp
    rw [minimizeLoop]
    simp only
    by_cases h1 : (oracle last.iteration).1 = .abort
    · rw [if_pos h1]; exact ⟨I.recs, last, hl, I.lastx.symm, h1⟩
    rw [if_neg h1]
    by_cases h2 : (oracle last.iteration).1 = .terminateSuccessfully
    · rw [if_pos h2]; exact ⟨I.recs, last, hl, I.lastx.symm, h2⟩
    rw [if_neg h2]
    have h3 : o.maxNumIterations ≤ last.iteration := by omega
    rw [if_pos h3]; exact ⟨I.recs, last, hl, I.lastx.symm, le_antisymm I.le h3⟩
  | succ fuel ih =>
    intro x previous current dir restarts records last I hf
    have hl : (records ++ [last]).getLast? = some last := by simp
    have hg := I.gradient_ne hP ho
    rw [minimizeLoop]
    simp only
    by_cases h1 : (oracle last.iteration).1 = .abort
    · rw [if_pos h1]; exact ⟨I.recs, last, hl, I.lastx.symm, h1⟩
    rw [if_neg h1]
    by_cases h2 : (oracle last.iteration).1 = .terminateSuccessfully
    · rw [if_pos h2]; exact ⟨I.recs, last, hl, I.lastx.symm, h2⟩
    rw [if_neg h2]
    by_cases h3 : o.maxNumIterations ≤ last.iteration
    · rw [if_pos h3]; exact ⟨I.recs, last, hl, I.lastx.symm, le_antisymm I.le h3⟩
    rw [if_neg h3]
    by_cases h4 : (oracle last.iteration).2 = true
    · rw [if_pos h4]; exact ⟨I.recs, last, hl, I.lastx.symm, h4⟩
    rw [if_neg h4]
    -- the direction
    have hdir : (∃ dir' restarts' fresh d,
        chooseDirection o (last.iteration + 1) restarts dir previous current =
          .inr (dir', restarts', fresh, d) ∧ ⟪current.gradient, d⟫ < 0 ∧ dir'.Good ∧
          (∀ t tol, dir' = .ncg t tol → ∃ t', o.direction = .ncg t') ∧
          (fresh = false → 0 < last.iteration)) ∨
        (chooseDirection o (last.iteration + 1) restarts dir previous current =
          .inl .notFinite ∧ ∃ t, o.direction = .ncg t) := by
      unfold chooseDirection
      by_cases hi : last.iteration + 1 = 1
      · rw [if_pos hi]
        refine Or.inl ⟨_, _, _, _, rfl, ?_, I.good, I.kind, by simp⟩
        rw [inner_neg_right, neg_lt_zero]; exact real_inner_self_pos.mpr hg
      · rw [if_neg hi]
        obtain ⟨n1, n2⟩ := Direction.next_good I.good previous current hg
        rcases n2 with ⟨d, hd, hneg⟩ | ⟨hd, t, tol, hk⟩
        · rw [hd]
          exact Or.inl ⟨_, _, _, _, rfl, hneg, n1,
            fun t tol h => I.kind t tol (Direction.next_kind _ _ _ _ _ h), fun _ => by omega⟩
        · rw [hd]
          exact Or.inr ⟨rfl, I.kind t tol hk⟩
    rcases hdir with ⟨dir', restarts', fresh, d, hd, hslope, hgood', hkind', hfresh⟩ | ⟨hd, hk⟩
    swap
    · rw [hd]
      exact ⟨I.recs, last, hl, I.lastx.symm, hk⟩
    rw [hd]
    simp only
    -- the initial step
    have hest : ∃ e, initialStep fresh current.gradientMaxNorm current.cost previous.cost
        ⟪current.gradient, d⟫ = some e ∧ 0 < e ∧ e ≤ 1 := by
      unfold initialStep
      cases fresh with
      | true =>
        refine ⟨_, rfl, lt_min one_pos ?_, min_le_left _ _⟩
        have : 0 < current.gradientMaxNorm := lt_of_le_of_lt ho.gradient I.big
        positivity
      | false =>
        simp only [Bool.false_eq_true, if_false]
        rw [if_neg hslope.ne]
        refine ⟨_, rfl, lt_min one_pos ?_, min_le_left _ _⟩
        have := I.down (hfresh rfl)
        exact div_pos_of_neg_of_neg (by linarith) hslope
    obtain ⟨e, he, he0, he1⟩ := hest
    rw [he]
    simp only
    rw [if_neg (not_lt.mpr he0.le)]
    obtain ⟨hna, hok⟩ := hsearch (P.fn x d) e current.cost ⟪current.gradient, d⟫ he0.le
      (fn_finiteSlopes P x d)
    rw [if_neg hna]
    generalize hS : search (P.fn x d) e current.cost ⟪current.gradient, d⟫ = S at hna hok
    by_cases h5 : S.status ≠ .success
    · rw [if_pos h5]; exact ⟨I.recs, last, hl, I.lastx.symm, trivial⟩
    rw [if_neg h5]
    push Not at h5
    obtain ⟨hpt, hval, hdec⟩ := hok h5
    -- the point
    have htake : takePoint P S.optimal = .inl .evaluationFailed ∨
        ∃ y g, takePoint P S.optimal = .inr (y, S.optimal.value, g) ∧
          P.eval y true = some (.fin S.optimal.value, g) ∧ 0 ≤ S.optimal.x ∧
          (y = x ∧ S.optimal.x = 0 ∨ P.plus x (S.optimal.x • d) = some y) := by
      rcases hpt with hpt | ⟨t, g, ht, hpt⟩
      · rw [hpt]
        refine Or.inr ⟨x, current.gradient, ?_, ?_, le_rfl, Or.inl ⟨rfl, rfl⟩⟩
        · unfold takePoint Sample.initial
          simp only [LSProblem.fn]
          rw [I.eval]
        · exact I.eval
      · rw [hpt] at hval
        obtain ⟨y, v, e1, e2, e3, e4⟩ := Fn.evaluate_valid hval
        have ex : S.optimal.x = t := by rw [hpt, evaluate_x]
        rw [← hpt] at e2 e3 e4
        have e1' : P.plus x (S.optimal.x • d) = some y := by rw [ex]; exact e1
        unfold takePoint
        rw [e2]
        simp only
        rcases e4 with e4 | ⟨rfl, e4⟩
        · rw [e4]
          simp only
          cases hev : P.eval y true with
          | none => exact Or.inl rfl
          | some p =>
            obtain ⟨c', v'⟩ := p
            have : c' = .fin S.optimal.value := by
              cases g with
              | true =>
                have : P.eval y true = some (.fin S.optimal.value, v) := e3
                rw [hev] at this
                simp only [Option.some.injEq, Prod.mk.injEq] at this
                exact this.1
              | false => exact hcost y _ _ _ _ e3 hev
            subst this
            exact Or.inr ⟨y, v', rfl, hev, by rw [ex]; exact ht, Or.inr e1'⟩
        · rw [e4]
          exact Or.inr ⟨y, v, rfl, e3, by rw [ex]; exact ht, Or.inr e1'⟩
    rcases htake with htake | ⟨y, g, htake, hyev, hx0, hreach⟩
    · rw [htake]; exact ⟨I.recs, last, hl, I.lastx.symm, trivial⟩
    rw [htake]
    simp only
    cases hn : P.norms y g with
    | none => exact ⟨I.recs, last, hl, I.lastx.symm, trivial⟩
    | some p =>
      obtain ⟨sq, mx⟩ := p
      simp only
      have hnorm : ∃ z, P.plus y (-g) = some z ∧ P.diffMax y z = mx := by
        unfold LSProblem.norms at hn
        obtain ⟨z, hz, hz2⟩ := Option.map_eq_some_iff.mp hn
        simp only [Prod.mk.injEq] at hz2
        exact ⟨z, hz, hz2.2⟩
      generalize hrec : (⟨last.iteration + 1, S.optimal.value, mx,
        current.cost - S.optimal.value, P.dist y x, S.optimal.x, y, ⟪current.gradient, d⟫, e⟩ :
          LSRecord X) = rec
      have hstep : StepOk P c last rec := by
        rw [← hrec]
        refine ⟨rfl, hslope, ⟨he0, he1⟩, hx0, by rw [I.lastcost]; exact hdec,
          by rw [I.lastcost], ?_⟩
        rw [I.lastx, I.lastcost]
        rcases hreach with h | h
        · exact Or.inl h
        · exact Or.inr ⟨d, current.gradient, I.eval, rfl, h⟩
      have hrecs : RecordsOk P c o x₀ (records ++ [last] ++ [rec]) := by
        refine ⟨?_, ?_, ?_, ?_⟩
        · intro r hr
          refine I.recs.first r ?_
          rw [List.head?_append] at hr
          cases hh : (records ++ [last]).head? with
          | none => simp at hh
          | some q => rw [hh] at hr; exact hr
        · simp only [List.length_append, List.length_singleton]
          have := I.number
          omega
        · intro r hr
          rcases List.mem_append.mp hr with h | h
          · exact I.recs.cost r h
          · rw [List.mem_singleton.mp h, ← hrec]
            exact ⟨g, hyev, hnorm⟩
        · rw [List.isChain_append]
          refine ⟨I.recs.steps, by simp, ?_⟩
          intro a ha b hb
          rw [hl] at ha
          simp only [Option.mem_def, Option.some.injEq, List.head?_cons] at ha hb
          rw [← ha, ← hb]
          exact hstep
      have hl' : (records ++ [last] ++ [rec]).getLast? = some rec := by simp
      have hrx : y = rec.x := by rw [← hrec]
      have hlastmem : last ∈ records ++ [last] ++ [rec] := by simp
      by_cases h6 : P.dist y x ≤ o.parameterTolerance * (P.norm x + o.parameterTolerance)
      · rw [if_pos h6]
        refine ⟨hrecs, rec, hl', hrx, last, hlastmem, ?_⟩
        rw [← hrx, I.lastx]; exact h6
      rw [if_neg h6]
      by_cases h7 : mx ≤ o.gradientTolerance
      · rw [if_pos h7]
        refine ⟨hrecs, rec, hl', hrx, ?_⟩
        rw [← hrec]; exact h7
      rw [if_neg h7]
      by_cases h8 : |current.cost - S.optimal.value| ≤ o.functionTolerance * |current.cost|
      · rw [if_pos h8]
        refine ⟨hrecs, rec, hl', hrx, last, hlastmem, ?_⟩
        rw [← hrec, I.lastcost]
        exact ⟨rfl, h8⟩
      rw [if_neg h8]
      refine ih y _ _ dir' restarts' _ rec ?_ ?_
      · have hlen : rec.iteration = last.iteration + 1 := by rw [← hrec]
        refine ⟨hrecs, ?_, ?_, hrx.symm, by rw [← hrec], by rw [← hrec], hyev, hnorm,
          not_le.mp h7, ?_, hgood', hkind'⟩
        · rw [hlen, I.number]; simp
        · omega
        · intro _
          simp only
          have hle : S.optimal.value ≤ current.cost := by
            have : c * ⟪current.gradient, d⟫ * S.optimal.x ≤ 0 :=
              mul_nonpos_of_nonpos_of_nonneg
                (mul_nonpos_of_nonneg_of_nonpos hc hslope.le) hx0
            linarith
          rcases lt_or_eq_of_le hle with h | h
          · exact h
          · exfalso
            apply h8
            rw [h, sub_self, abs_zero]
            exact mul_nonneg ho.function (abs_nonneg _)
      · rw [← hrec]
        simp only
        omega

/-- What happens before the first iteration is recorded. -/
def EarlyExit (P : LSProblem X V) (o : LSOptions) (x₀ : X) (r : LSResult X) : Prop :=
  r.records = [] ∧ r.x = x₀ ∧
    ((r.status = .evaluationFailed ∧ (P.eval x₀ true = none ∨ ∃ c g,
        P.eval x₀ true = some (c, g) ∧ P.plus x₀ (-g) = none)) ∨
      (r.status = .notFinite ∧ ∃ c g, P.eval x₀ true = some (c, g) ∧ c.finite = false) ∨
      (r.status = .gradientTolerance ∧ ∃ c g y, P.eval x₀ true = some (.fin c, g) ∧
        P.plus x₀ (-g) = some y ∧ P.diffMax x₀ y ≤ o.gradientTolerance))

/-- **C19.** Every run of the line search minimizer, with any direction, any search that meets the
contract, any clock and any callbacks: it stops within `max_num_iterations`; the recorded costs
are the costs of the recorded points and every step decreases the cost sufficiently; the
parameters returned are those of the last recorded iteration; the verdict states why it stopped;
and it never aborts, never runs out of directions and never sees a negative step. -/
theorem minimize_ok {search : Search X V} {c : ℝ} (hc : 0 ≤ c) (hsearch : SearchOk c search)
    {P : LSProblem X V} (hP : PlusZero P) (hcost : CostConsistent P) {o : LSOptions}
    (ho : OptionsOk o) (oracle : ℕ → CallbackResult × Bool) (x₀ : X) :
    EarlyExit P o x₀ (minimize search P o oracle x₀) ∨
      (RecordsOk P c o x₀ (minimize search P o oracle x₀).records ∧
        Verdict P o oracle (minimize search P o oracle x₀)) := by
  unfold minimize
  cases he : P.eval x₀ true with
  | none => exact Or.inl ⟨rfl, rfl, Or.inl ⟨rfl, Or.inl he⟩⟩
  | some p =>
    obtain ⟨cost, g⟩ := p
    cases cost with
    | fin cost =>
      simp only
      cases hn : P.norms x₀ g with
      | none =>
        refine Or.inl ⟨rfl, rfl, Or.inl ⟨rfl, Or.inr ⟨_, _, he, ?_⟩⟩⟩
        unfold LSProblem.norms at hn
        simpa using hn
      | some p =>
        obtain ⟨sq, mx⟩ := p
        have hnorm : ∃ z, P.plus x₀ (-g) = some z ∧ P.diffMax x₀ z = mx := by
          unfold LSProblem.norms at hn
          obtain ⟨z, hz, hz2⟩ := Option.map_eq_some_iff.mp hn
          simp only [Prod.mk.injEq] at hz2
          exact ⟨z, hz, hz2.2⟩
        simp only
        by_cases h : mx ≤ o.gradientTolerance
        · rw [if_pos h]
          obtain ⟨z, h1, h2⟩ := hnorm
          exact Or.inl ⟨rfl, rfl, Or.inr (Or.inr ⟨rfl, _, _, z, he, h1, by rw [h2]; exact h⟩)⟩
        · rw [if_neg h]
          right
          refine minimizeLoop_ok hc hsearch hP hcost ho oracle x₀ _ _ _ _ _ _ _ _ ?_ (by simp)
          refine ⟨⟨?_, by simp, ?_, by simp⟩, rfl, Nat.zero_le _, rfl, rfl, rfl, he, hnorm,
            not_le.mp h, fun h => absurd h (lt_irrefl _), Direction.create_good ho.direction, ?_⟩
          · intro r hr
            simp only [List.nil_append, List.head?_cons, Option.some.injEq] at hr
            rw [← hr]
            exact ⟨rfl, rfl⟩
          · intro r hr
            simp only [List.nil_append, List.mem_singleton] at hr
            rw [hr]
            exact ⟨g, he, hnorm⟩
          · intro t tol ht
            cases hd : o.direction with
            | ncg t' => exact ⟨t', rfl⟩
            | steepest => rw [hd] at ht; cases ht
            | bfgs u => rw [hd] at ht; cases ht
            | lbfgs r u => rw [hd] at ht; cases ht
    | pinf => exact Or.inl ⟨rfl, rfl, Or.inr (Or.inl ⟨rfl, _, _, he, rfl⟩)⟩
    | ninf => exact Or.inl ⟨rfl, rfl, Or.inr (Or.inl ⟨rfl, _, _, he, rfl⟩)⟩
    | nan => exact Or.inl ⟨rfl, rfl, Or.inr (Or.inl ⟨rfl, _, _, he, rfl⟩)⟩

/-- **C19.** The recorded costs never increase. -/
theorem minimize_monotone {search : Search X V} {c : ℝ} (hc : 0 ≤ c) (hsearch : SearchOk c search)
    {P : LSProblem X V} (hP : PlusZero P) (hcost : CostConsistent P) {o : LSOptions}
    (ho : OptionsOk o) (oracle : ℕ → CallbackResult × Bool) (x₀ : X) :
    ((minimize search P o oracle x₀).records.map LSRecord.cost).Pairwise (· ≥ ·) := by
  rcases minimize_ok hc hsearch hP hcost ho oracle x₀ with h | h
  · rw [h.1]; simp
  · rw [← List.isChain_iff_pairwise, List.isChain_map]
    refine h.1.steps.imp ?_
    intro a b hab
    have := hab.decrease
    have h2 : c * b.slope * b.stepSize ≤ 0 :=
      mul_nonpos_of_nonpos_of_nonneg (mul_nonpos_of_nonneg_of_nonpos hc hab.slope.le) hab.stepSize
    simp only [ge_iff_le]
    linarith

/-- **C19.** The parameters handed back never have a higher cost than the initial ones: if the
initial cost is finite, the returned point has a finite cost that is no larger, whatever the
verdict. -/
theorem minimize_no_worse {search : Search X V} {c : ℝ} (hc : 0 ≤ c) (hsearch : SearchOk c search)
    {P : LSProblem X V} (hP : PlusZero P) (hcost : CostConsistent P) {o : LSOptions}
    (ho : OptionsOk o) (oracle : ℕ → CallbackResult × Bool) (x₀ : X) {c₀ : ℝ} {g₀ : V}
    (h₀ : P.eval x₀ true = some (.fin c₀, g₀)) :
    ∃ c₁ g₁, P.eval (minimize search P o oracle x₀).x true = some (.fin c₁, g₁) ∧ c₁ ≤ c₀ := by
  rcases minimize_ok hc hsearch hP hcost ho oracle x₀ with h | ⟨hR, last, hlast, hx, _⟩
  · rw [h.2.1]; exact ⟨c₀, g₀, h₀, le_rfl⟩
  · have hmono := minimize_monotone hc hsearch hP hcost ho oracle x₀
    rw [hx]
    have hmem := List.mem_of_getLast? hlast
    obtain ⟨g₁, e1, _⟩ := hR.cost last hmem
    refine ⟨last.cost, g₁, e1, ?_⟩
    generalize (minimize search P o oracle x₀).records = rs at *
    cases rs with
    | nil => simp at hmem
    | cons r rs =>
      obtain ⟨_, hrx⟩ := hR.first r rfl
      obtain ⟨g', e2, _⟩ := hR.cost r (by simp)
      rw [hrx, h₀] at e2
      simp only [Option.some.injEq, Prod.mk.injEq, Ext.fin.injEq] at e2
      rcases List.mem_cons.mp hmem with h | h
      · rw [h, e2.1]
      · rw [List.map_cons, List.pairwise_cons] at hmono
        have := hmono.1 last.cost (List.mem_map_of_mem h)
        rw [e2.1]; exact this

/-! ### The hypotheses can be met -/

/-- `f(x) = x^2 / 2` on the line. -/
noncomputable def squareProblem : LSProblem ℝ ℝ where
  eval x _ := some (.fin (x ^ 2 / 2), x)
  plus x d := some (x + d)
  diffSq x y := (x - y) ^ 2
  diffMax x y := |x - y|
  dist x y := |x - y|
  norm x := |x|
  dirNorm d := |d|

example : PlusZero squareProblem :=
  ⟨fun x => by simp [squareProblem], fun x => by simp [squareProblem]⟩

example : CostConsistent squareProblem := by
  intro x c v c' v' h1 h2
  simp only [squareProblem, Option.some.injEq, Prod.mk.injEq] at h1 h2
  rw [← h1.1, ← h2.1]

example : OptionsOk ⟨.lbfgs 20 true, 50, 5, 1 / 10 ^ 10, 1 / 10 ^ 8, 1 / 10 ^ 6⟩ :=
  ⟨by norm_num, by norm_num, by simp [DirectionType.Ok]⟩

/-- A search that evaluates the estimated step and takes it if it decreases the cost enough. -/
noncomputable def tryOnce : Search ℝ ℝ := fun F e cost slope =>
  if sufficient ⟨.bisection, 1 / 10, 1 / 10, 9 / 10, 0, 1, 9 / 10, 10⟩ cost slope
      (F.evaluate e true) = true
  then ⟨.success, F.evaluate e true, 1, 1, 0, [F.evaluate e true]⟩
  else ⟨.stepTooSmall, .empty, 1, 1, 0, [F.evaluate e true]⟩

example : SearchOk (1 / 10) tryOnce := by
  intro F e cost slope he _
  unfold tryOnce
  split
  · next h =>
    rw [sufficient_iff] at h
    exact ⟨by simp, fun _ => ⟨Or.inr ⟨e, true, he, rfl⟩, h⟩⟩
  · exact ⟨by simp, by simp⟩

/-- A run that is not an early exit: from `x = 4` the first gradient is too large. -/
example : (minimize tryOnce squareProblem
    ⟨.lbfgs 20 true, 0, 5, 1 / 10 ^ 10, 1 / 10 ^ 8, 1 / 10 ^ 6⟩ (fun _ => (.continue, false))
    4).status = .maxIterations := by
  have h : ¬ (4 : ℝ) ≤ (10 ^ 10)⁻¹ := by norm_num
  simp [minimize, minimizeLoop, squareProblem, LSProblem.norms, h]

end Ceres.LineSearch
