import Verif.GradientProblem.Gradient

/-!
# Examples, and what the solver does not guarantee (C83)
-/
namespace Ceres.GradientProblem

open Ceres.Manifold (Vec Buf Manifold toBuf norm2 squaredNorm euclideanManifold)
open Ceres.LineSearch (Ext LSProblem LSOptions LSRecord LSState Numerics armijo Direction)
open Ceres.Driver (World lsStep lsMinimizer lsRun exec)
open Ceres.Options (Build Dbl)

noncomputable section

/-- Half the square of a number. -/
def square : FirstOrderFunction := ⟨1, fun x _ => some (.fin (x 0 ^ 2 / 2), x)⟩

/-- The problem of minimising it. -/
def problem : Problem := ⟨square, euclideanManifold 1, rfl⟩

example : create square none = some problem := rfl

example : create square (some (euclideanManifold 2)) = none := by
  simp [create, square, euclideanManifold]

theorem square_consistent : square.Consistent := by
  intro x c g c' g' h h'
  simp only [square, Option.some.injEq] at h h'
  exact (congrArg Prod.fst h').symm.trans (congrArg Prod.fst h)

theorem problem_zeroStep : problem.ZeroStep := euclidean_zeroStep square

/-- The gradient is right. -/
theorem square_gradient (x : Vec 1) : IsGradient (fun x => x 0 ^ 2 / 2) x x := by
  unfold IsGradient
  have h : HasFDerivAt (fun x : Vec 1 => x 0) (ContinuousLinearMap.proj (R := ℝ) (φ := fun _ : Fin 1 => ℝ) 0) x :=
    (ContinuousLinearMap.proj (R := ℝ) (φ := fun _ : Fin 1 => ℝ) 0).hasFDerivAt
  have h2 := (h.mul h).mul_const (1 / 2 : ℝ)
  have h3 : (fun x : Vec 1 => x 0 ^ 2 / 2) = fun x => x 0 * x 0 * (1 / 2) := by funext x; ring
  rw [h3]
  refine HasFDerivAt.congr_fderiv h2 ?_
  ext v
  simp
  ring

theorem le_fin {a b : ℚ} (h : a ≤ b) : (Dbl.fin a).Le (.fin b) := ⟨_, rfl, _, rfl, by exact_mod_cast h⟩

theorem lt_fin {a b : ℚ} (h : a < b) : (Dbl.fin a).Lt (.fin b) := ⟨_, rfl, _, rfl, by exact_mod_cast h⟩

/-- The default options are valid and finite. -/
theorem defaults_valid (n : ℕ) (A : Type) : ValidOptions (defaults n A) ∧ FiniteOptions (defaults n A) := by
  refine ⟨⟨(by decide : (0 : ℤ) ≤ 50), le_fin (by norm_num), le_fin (by norm_num), le_fin (by norm_num),
    le_fin (by norm_num), (by decide : (1 : ℤ) ≤ 20), lt_fin (by norm_num), lt_fin (by norm_num), lt_fin (by norm_num),
    le_fin (by norm_num), (by decide : (1 : ℤ) ≤ 20), lt_fin (by norm_num), lt_fin (by norm_num), lt_fin (by norm_num),
    lt_fin (by norm_num), fun _ => rfl⟩, ?_⟩
  simp [defaults, FiniteOptions]

/-- Steepest descent with a callback that gives up at iteration 1. -/
def givesUp : Options 1 Unit :=
  { defaults 1 Unit with
    direction := .STEEPEST_DESCENT
    lineSearch := .ARMIJO
    interp := .bisection
    silent := true
    updateState := true
    callbacks := [fun it m a => (m, a, if it.iteration = 0 then .continue else .abort)] }

theorem givesUp_valid : ValidOptions givesUp ∧ FiniteOptions givesUp ∧ ReadOnly givesUp := by
  refine ⟨⟨by decide, le_fin (by norm_num), le_fin (by norm_num), le_fin (by norm_num), le_fin (by norm_num), by decide,
    lt_fin (by norm_num), lt_fin (by norm_num), lt_fin (by norm_num), le_fin (by norm_num), by decide,
    lt_fin (by norm_num), lt_fin (by norm_num), lt_fin (by norm_num), lt_fin (by norm_num), by
      simp [givesUp]⟩, ?_, ?_⟩
  · simp [givesUp, defaults, FiniteOptions]
  · simp [givesUp, ReadOnly]

/-- Its evaluator, with the sizes written out. -/
def E (junk : Buf) : LSProblem (Vec 1) (EuclideanSpace ℝ (Fin 1)) := problem.evaluator junk

theorem problem_gradient (junk : Buf) (x : Vec 1) :
    (E junk).eval x true = some (.fin (x 0 ^ 2 / 2), WithLp.toLp 2 x) := by
  exact euclidean_evaluate square junk x rfl

theorem problem_value (junk : Buf) (x : Vec 1) :
    (E junk).eval x false = some (.fin (x 0 ^ 2 / 2), 0) := rfl

theorem problem_plus (junk : Buf) (x : Vec 1) (d : EuclideanSpace ℝ (Fin 1)) :
    (E junk).plus x d = some (fun i => x i + d i) := rfl

theorem problem_norms (junk : Buf) (x y : Vec 1) : (E junk).diffSq x y = squaredNorm (x - y) ∧
    (E junk).diffMax x y = ‖x - y‖ ∧ (E junk).dist x y = norm2 (x - y) ∧ (E junk).norm x = norm2 x :=
  ⟨rfl, rfl, rfl, rfl⟩

/-- The first step from 2 leads to 1. -/
theorem first_step (b : Build) (N : Numerics) (junk : Buf) : ∃ p c d n r,
    lsStep (lineSearch N (toSolverOptions b givesUp) givesUp) (E junk)
      (minimizerOptions (toSolverOptions b givesUp) givesUp) false (fun _ : Fin 1 => (2 : ℝ)) ⟨0, 0, 0, 0, 0, 0, 0⟩
      ⟨2, WithLp.toLp 2 (fun _ : Fin 1 => (2 : ℝ)), 4, 2, 0, 0, 0⟩ .steepest 0
      ⟨0, 2, 2, 0, 0, 0, fun _ => 2, 0, 0⟩ = .next p c d n r ∧ r.iteration = 1 ∧ r.x = fun _ => 1 := by
  have hmax : (minimizerOptions (toSolverOptions b givesUp) givesUp).maxNumIterations = 50 := rfl
  set g : EuclideanSpace ℝ (Fin 1) := WithLp.toLp 2 (fun _ : Fin 1 => (2 : ℝ)) with hg
  have hslope : inner ℝ g (-g) = -4 := by
    rw [hg]; simp [EuclideanSpace.real_norm_sq_eq, inner_neg_right]; norm_num
  have hy : (fun i : Fin 1 => (2 : ℝ) + (((1 / 2 : ℝ) • -g : EuclideanSpace ℝ (Fin 1)) i)) = fun _ => 1 := by
    funext i; simp [hg]; norm_num
  have he : ((E junk).fn (fun _ : Fin 1 => (2 : ℝ)) (-g)).evaluate (1 / 2) false =
      ⟨1 / 2, some (fun _ => 1), 1 / 2, true, none, .fin 0, false⟩ := by
    unfold LineSearch.Fn.evaluate
    have h1 : ((E junk).fn (fun _ : Fin 1 => (2 : ℝ)) (-g)).plus (1 / 2) = some fun _ => 1 := by
      rw [← hy]; rfl
    have h2 : ((E junk).fn (fun _ : Fin 1 => (2 : ℝ)) (-g)).eval (fun _ => 1) false =
      some (.fin (1 / 2), 0) := by
      show (E junk).eval (fun _ : Fin 1 => (1 : ℝ)) false = _
      rw [problem_value]; norm_num
    rw [h1]
    simp only [h2]
    rfl
  have hs : lineSearch N (toSolverOptions b givesUp) givesUp ((E junk).fn (fun _ : Fin 1 => (2 : ℝ)) (-g))
      (1 / 2) 2 (-4) = ⟨.success, ⟨1 / 2, some (fun _ => 1), 1 / 2, true, none, .fin 0, false⟩, 1, 0, 0,
        [⟨1 / 2, some (fun _ => 1), 1 / 2, true, none, .fin 0, false⟩]⟩ := by
    change armijo _ (searchOptions (toSolverOptions b givesUp) givesUp) _ _ _ _ = _
    have o1 : (searchOptions (toSolverOptions b givesUp) givesUp).sufficientDecrease = 1 / 10 ^ 4 := by
      show ((1 / 10 ^ 4 : ℚ) : ℝ) = _
      push_cast; rfl
    have o2 : (searchOptions (toSolverOptions b givesUp) givesUp).maxNumIterations = 20 := rfl
    have o3 : (searchOptions (toSolverOptions b givesUp) givesUp).interp = .bisection := rfl
    have hd : (LineSearch.Interp.bisection == LineSearch.Interp.cubic) = false := rfl
    unfold armijo
    rw [if_pos (by rw [o1, o2]; norm_num), o3, hd, he]
    unfold LineSearch.armijoLoop
    rw [if_pos (by simp only [LineSearch.sufficient, o1]; norm_num)]
    rfl
  have hn : (E junk).norms (fun _ : Fin 1 => (1 : ℝ)) (WithLp.toLp 2 (fun _ : Fin 1 => (1 : ℝ))) =
      some (1, 1) := by
    have h0 : (fun i : Fin 1 => (1 : ℝ) + (-(WithLp.toLp 2 (fun _ : Fin 1 => (1 : ℝ))) : EuclideanSpace ℝ (Fin 1)) i) =
        fun _ => 0 := by
      funext i; simp
    unfold LSProblem.norms
    rw [problem_plus, h0]
    have h1 : (E junk).diffSq (fun _ : Fin 1 => (1 : ℝ)) (fun _ => 0) = 1 := by
      rw [(problem_norms junk _ _).1]
      simp [squaredNorm]
    have h2 : (E junk).diffMax (fun _ : Fin 1 => (1 : ℝ)) (fun _ => 0) = 1 := by
      rw [(problem_norms junk _ _).2.1]
      rw [show ((fun _ : Fin 1 => (1 : ℝ)) - fun _ => 0) = fun _ => (1 : ℝ) by funext i; simp]
      rw [pi_norm_const]
      simp
    rw [Option.map_some, h1, h2]
  have ht : (E junk).eval (fun _ : Fin 1 => (1 : ℝ)) true =
      some (.fin (1 / 2), WithLp.toLp 2 (fun _ : Fin 1 => (1 : ℝ))) := by
    rw [problem_gradient]
    congr 3
    norm_num
  have hd : (E junk).dist (fun _ : Fin 1 => (1 : ℝ)) (fun _ => 2) = 1 := by
    rw [(problem_norms junk _ _).2.2.1]
    simp [norm2, squaredNorm]
    norm_num
  have hx : (E junk).norm (fun _ : Fin 1 => (2 : ℝ)) = 2 := by
    show norm2 (fun _ : Fin 1 => (2 : ℝ)) = 2
    simp [norm2, squaredNorm]
  have p1 : (minimizerOptions (toSolverOptions b givesUp) givesUp).parameterTolerance = 1 / 10 ^ 8 := by
    show ((1 / 10 ^ 8 : ℚ) : ℝ) = _
    push_cast; rfl
  have p2 : (minimizerOptions (toSolverOptions b givesUp) givesUp).gradientTolerance = 1 / 10 ^ 10 := by
    show ((1 / 10 ^ 10 : ℚ) : ℝ) = _
    push_cast; rfl
  have p3 : (minimizerOptions (toSolverOptions b givesUp) givesUp).functionTolerance = 1 / 10 ^ 6 := by
    show ((1 / 10 ^ 6 : ℚ) : ℝ) = _
    push_cast; rfl
  have hm : min (1 : ℝ) (1 / 2) = 1 / 2 := by norm_num
  unfold lsStep
  rw [if_neg (by rw [hmax]; decide), if_neg (by decide)]
  simp only [LineSearch.chooseDirection, LineSearch.initialStep, if_true, zero_add, hm]
  rw [if_neg (by norm_num)]
  rw [hslope, hs]
  simp only [ LineSearch.takePoint, ht, hn, hd, hx, p1, p2, p3]
  rw [if_neg (by decide), if_neg (by decide), if_neg (by norm_num), if_neg (by norm_num), if_neg (by norm_num)]
  exact ⟨_, _, _, _, _, rfl, rfl, rfl⟩

/-- The run of the minimizer up to the second round of callbacks. -/
theorem two_rounds (b : Build) (N : Numerics) (junk : Buf) : ∃ r₀ r : LSRecord (Vec 1),
    r₀.iteration = 0 ∧ r.iteration = 1 ∧ r.x = (fun _ => 1) ∧ ∃ next,
    (lsMinimizer (fun x => [x]) (lineSearch N (toSolverOptions b givesUp) givesUp) (E junk)
      (minimizerOptions (toSolverOptions b givesUp) givesUp) (fun _ => false) 0 (fun _ : Fin 1 => (2 : ℝ)) :
        Driver.Run (Vec 1) (LSRecord (Vec 1)) ℝ Unit) =
      .initial 2 (.report [fun _ => 2] r₀ fun _ => .report [r.x] r next) := by
  obtain ⟨p, c, d, n, r, h, h1, h2⟩ := first_step b N junk
  have he : (E junk).eval (fun _ : Fin 1 => (2 : ℝ)) true = some (.fin 2, WithLp.toLp 2 (fun _ : Fin 1 => (2 : ℝ))) := by
    rw [problem_gradient]
    congr 3
    norm_num
  have hn : (E junk).norms (fun _ : Fin 1 => (2 : ℝ)) (WithLp.toLp 2 (fun _ : Fin 1 => (2 : ℝ))) = some (4, 2) := by
    have h0 : (fun i : Fin 1 => (2 : ℝ) + (-(WithLp.toLp 2 (fun _ : Fin 1 => (2 : ℝ))) : EuclideanSpace ℝ (Fin 1)) i) =
        fun _ => 0 := by
      funext i; simp
    unfold LSProblem.norms
    rw [problem_plus, h0, Option.map_some, (problem_norms junk _ _).1, (problem_norms junk _ _).2.1]
    rw [show ((fun _ : Fin 1 => (2 : ℝ)) - fun _ => 0) = fun _ => (2 : ℝ) by funext i; simp]
    rw [pi_norm_const]
    simp [squaredNorm]
    norm_num
  have p2 : (minimizerOptions (toSolverOptions b givesUp) givesUp).gradientTolerance = 1 / 10 ^ 10 := by
    show ((1 / 10 ^ 10 : ℚ) : ℝ) = _
    push_cast; rfl
  have hmax : (minimizerOptions (toSolverOptions b givesUp) givesUp).maxNumIterations = 50 := rfl
  unfold lsMinimizer
  rw [he]
  simp only [hn]
  rw [if_neg (by rw [p2]; norm_num), hmax, add_zero]
  unfold lsRun
  have hd : Direction.create (minimizerOptions (toSolverOptions b givesUp) givesUp).direction =
      (.steepest : Direction (EuclideanSpace ℝ (Fin 1))) := rfl
  rw [hd]
  simp only [h]
  unfold lsRun
  exact ⟨_, Driver.addFixed 0 r, rfl, h1, h2, _, rfl⟩

/-- **Finding.**  After `USER_FAILURE` the array of the user does not hold the point they passed: with
`update_state_every_iteration` a callback that gives up at iteration 1 leaves the point of that iteration there
(`Solver::Solve` restores the parameters in the same situation, see C77). -/
theorem array_not_restored (b : Build) (N : Numerics) (junk : Buf) :
    let r := solve b N junk (fun _ => false) problem givesUp ⟨fun _ _ => (2 : ℝ), (), false⟩
    r.2.term = some .userFailure ∧ r.1.mem 0 = fun _ => 1 := by
  intro r
  obtain ⟨e1, -, -, -, -, -, e7⟩ := solve_eq b N junk (fun _ => false) problem givesUp ⟨fun _ _ => (2 : ℝ), (), false⟩
    givesUp_valid.1
  obtain ⟨q₀, q, h0, h1, h2, next, h3⟩ := two_rounds b N junk
  have hr : theRun b N junk (fun _ => false) problem givesUp ⟨fun _ _ => (2 : ℝ), (), false⟩ =
      exec (callbacks givesUp) (.initial 2 (.report [fun _ => 2] q₀ fun _ => .report [q.x] q next)) (-1)
        ⟨fun _ _ => (2 : ℝ), (), false⟩ := by
    rw [← h3]; rfl
  have hc : callbacks givesUp = [stateUpdatingCallback, ⟨.user 0, fun _ it w =>
      (w, if it.iteration = 0 then .continue else .abort)⟩] := by
    rfl
  rw [hc] at hr
  have hx : ∀ (w : World (Vec 1) Unit) s, s = exec [stateUpdatingCallback, ⟨.user 0, fun _ it w =>
      (w, if it.iteration = 0 then .continue else .abort)⟩] (.initial (2 : ℝ) (.report [fun _ => 2] q₀ fun _ =>
        .report [q.x] q next)) (-1) w → s.term = some .userFailure ∧ s.world.mem 0 = fun _ => 1 := by
    intro w s hs
    rw [hs]
    simp [exec, Driver.runCallbacks, stateUpdatingCallback, Driver.writeBack, h0, h1, h2]
  obtain ⟨g1, g2⟩ := hx ⟨fun _ _ => (2 : ℝ), (), false⟩ _ rfl
  have ht : (theRun b N junk (fun _ => false) problem givesUp ⟨fun _ _ => (2 : ℝ), (), false⟩).term =
      some .userFailure := by rw [hr]; exact g1
  refine ⟨e1.trans ht, ?_⟩
  refine (congrFun (e7 (by rw [ht]; rfl)) 0).trans ?_
  rw [hr]
  exact g2

/-- The hypotheses of the theorems above are met by this run, which does not end with a usable solution. -/
example (b : Build) (N : Numerics) (junk : Buf) :
    Driver.usable (solve b N junk (fun _ => false) problem givesUp ⟨fun _ _ => (2 : ℝ), (), false⟩).2.term = false := by
  rw [(array_not_restored b N junk).1]
  rfl

end

end Ceres.GradientProblem
