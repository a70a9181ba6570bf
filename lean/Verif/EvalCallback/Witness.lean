import Verif.EvalCallback.Props

/-!
# Concrete runs with an evaluation callback
-/
namespace Ceres.EvalCallback

open LineSearch (Ext Sample Opts LSOptions LSResult CallbackResult)

/-! ### Trust region -/

/-- User code that computes the square of the point and its derivative in the callback, unless the
point is not new; the cost function only copies what the callback left behind. -/
def squareUser : UserCode (ℚ × ℚ) ℚ (TRAnswer ℚ ℚ) where
  stateOk _ := true
  prepare x _ isNew u := if isNew then (x * x, 2 * x) else u
  residuals u _ _ := some u
  failed := none

/-- Cost and derivative without shared data. -/
def square (x : ℚ) (_ : Bool) : TRAnswer ℚ ℚ := some (x * x, 2 * x)

theorem squareUser_honours :
    Honours squareUser square (fun u x _ => u = (x * x, 2 * x)) where
  fresh u x j := rfl
  again u x j j' h := h
  answer u x j _ h := by rw [h]; rfl
  failed x j h := by simp [squareUser] at h

/-- Minimising over `[-2, ∞)` with steps along the negative derivative. -/
def squareParts : Parts ℚ ℚ ℚ ℚ ℚ ℚ where
  plus x d := some (max (-2) (x + d))
  plusFail _ _ old := old
  zero := 0
  gradNorms j _ := some (|j|, |j|)
  modelChange _ _ _ := 2
  unscale d := d
  norm x := |x|
  dist x y := |x - y|
  callback _ := .continue
  time _ := 0
  compute j r _ := (r, .step (-(r * j)))
  accepted r _ := some r
  rejected r _ := r / 2
  invalid r := r / 2
  radius r := r
  smul t d := t * d
  slope j d := j * d
  gradient j := j
  along d v := .fin (d * v)
  dirNorm d := |d|
  lsOpts := ⟨.bisection, 1 / 10000, 1 / 1000, 6 / 10, 1 / 1000000, 3, 9 / 10, 10⟩
  mp _ lo hi := (lo + hi) / 2

def squareOpts : TrustRegion.Opts ℚ :=
  ⟨2, 5, false, 5, true, true, 0, 1 / 100, 0, 0, 1000, 1 / 1000, 0, 0, 1000000, -1000000⟩

/-- The square minimised from `x0`; a residual block with constant parameters is evaluated first. -/
def squareRun (x0 : ℚ) :=
  exec squareUser true
    (afterFixed true succeeded x0 .abort (minimize squareOpts squareParts 1 x0 0 10))
    ⟨x0, (0, 0), []⟩

/-- Non-vacuity: the first step ends at the bound, the second one needs a trial of the line search
(2 is no better than -2), and each accepted step is followed by an evaluation at a point that is
not new. -/
theorem squareRun_events : (squareRun 3).1.events =
    [.prepare 3 false true, .residuals 3 false, .prepare 3 true true, .residuals 3 true,
     .prepare (-2) false true, .residuals (-2) false, .prepare (-2) false true,
     .residuals (-2) false, .prepare (-2) true false, .residuals (-2) true,
     .prepare 2 false true, .residuals 2 false, .prepare 0 false true, .residuals 0 false,
     .prepare 0 false true, .residuals 0 false, .prepare 0 true false, .residuals 0 true] := by
  decide +kernel

/-- The theorems apply to this run. -/
example : Protocol (squareRun 3).1.events :=
  trust_region_protocol squareOpts squareParts (by decide +kernel) squareUser rfl true 3 .abort
    1 3 0 10 3 (0, 0)

example : (squareRun 3).2 =
    TrustRegion.minimize squareOpts (squareParts.answered square 0)
      (squareParts.answeredStrategy square 0) 1 3 10 := by
  have := trust_region_cached squareOpts squareParts (by decide +kernel) squareUser rfl square _
    squareUser_honours true 3 .abort 1 3 0 10 3 (0, 0)
  rw [if_neg (by simp [square])] at this
  exact this

/-- A user who starts outside of the bounds still sees only points inside. -/
example : SeesOnly (fun x : ℚ => -2 ≤ x)
    (exec squareUser true (minimize squareOpts squareParts 1 (-3) 0 10) ⟨-3, (0, 0), []⟩).1.events :=
  trust_region_seesOnly squareOpts squareParts (by decide +kernel) squareUser true _
    (fun x d y h => by
      have : max (-2) (x + d) = y := Option.some.inj h
      rw [← this]; exact le_max_left _ _)
    1 (-3) (Or.inl rfl) 0 10 (-3) (0, 0)

/-! ### Line search -/

/-- The same kind of user code for `x + 6 x^2`. -/
noncomputable def lineUser : UserCode (ℝ × ℝ) ℝ (LSAnswer ℝ) where
  stateOk _ := true
  prepare x _ isNew u := if isNew then (x + 6 * x ^ 2, 1 + 12 * x) else u
  residuals u _ _ := some (.fin u.1, u.2)
  failed := none

noncomputable def lineCost (x : ℝ) (_ : Bool) : LSAnswer ℝ :=
  some (.fin (x + 6 * x ^ 2), 1 + 12 * x)

theorem lineUser_honours :
    Honours lineUser lineCost (fun u x _ => u = (x + 6 * x ^ 2, 1 + 12 * x)) where
  fresh u x j := rfl
  again u x j j' h := h
  answer u x j _ h := by rw [h]; rfl
  failed x j h := by simp [lineUser] at h

noncomputable def lineParts : LSParts ℝ ℝ where
  plus x d := some (x + d)
  diffSq x y := (x - y) ^ 2
  diffMax x y := |x - y|
  dist x y := |x - y|
  norm x := |x|
  dirNorm d := |d|

/-- One step size iteration. -/
noncomputable def lineOpts : Opts ℝ :=
  ⟨.bisection, 1 / 10000, 1 / 1000, 6 / 10, 1 / 1000000, 1, 9 / 10, 10⟩

noncomputable def lineMinOpts : LSOptions where
  direction := .steepest
  maxNumIterations := 5
  maxRestarts := 5
  gradientTolerance := 0
  parameterTolerance := 1 / 100
  functionTolerance := 0

noncomputable def wolfeRun (hasCallback : Bool) :=
  exec lineUser hasCallback
    (lsMinimize (wolfe (fun _ lo hi => (lo + hi) / 2) lineOpts) lineParts lineMinOpts
      (fun _ => (.continue, false)) 0)
    ⟨0, (0, 0), []⟩

example (mp : List (Sample ℝ ℝ ℝ) → ℝ → ℝ → ℝ) (oracle : ℕ → CallbackResult × Bool) (x : ℝ) :
    Protocol (exec lineUser true
      (afterFixed false answered x ⟨x, .evaluationFailed, []⟩
        (lsMinimize (armijo mp lineOpts) lineParts lineMinOpts oracle x))
      ⟨x, (0, 0), []⟩).1.events :=
  line_search_protocol mp lineOpts lineParts lineMinOpts oracle lineUser rfl false x _ x x (0, 0)

theorem exec_bind {U X R A B : Type} (c : UserCode U X R) (b : Bool) (p : Prog (Call X) R A)
    (k : A → Prog (Call X) R B) (w : World U X) :
    exec c b (p.bind k) w = exec c b (k (exec c b p w).2) (exec c b p w).1 := by
  induction p generalizing w with
  | ret a => rfl
  | ask q m ih => exact ih _ _

/-- The search from 0 along -1: the trial at -1 has cost 5, and the search returns 0. -/
theorem wolfe_search (u : ℝ × ℝ) (l : List (Event ℝ)) :
    ∃ t, exec lineUser true (wolfe (fun _ lo hi => (lo + hi) / 2) lineOpts (lineParts.fn 0 (-1))
      1 0 (-1)) ⟨0, u, l⟩ =
    (⟨-1, (5, -11), l ++ [.prepare (-1) true true] ++ [.residuals (-1) true]⟩,
      ⟨.success, .initial 0 0 (-1), 1, 1, 1, t⟩) := by
  have hw : (0 : ℝ) ≤ 1 ∧ 0 < lineOpts.sufficientDecrease ∧
      lineOpts.sufficientDecrease < lineOpts.sufficientCurvatureDecrease ∧
      lineOpts.sufficientCurvatureDecrease < 1 ∧ 1 < lineOpts.maxExpansion := by
    norm_num [lineOpts]
  have he : exec lineUser true ((lineParts.fn 0 (-1)).evaluate 1 true) ⟨0, u, l⟩ =
      (⟨-1, (5, -11), l ++ [.prepare (-1) true true] ++ [.residuals (-1) true]⟩,
        ⟨1, some (-1), 5, true, some (-11), .fin 11, true⟩) := by
    simp only [Fn.evaluate, LSParts.fn, lineParts, exec, evaluate, lineUser, Fn.sample]
    norm_num [Ext.finite]
  refine ⟨[⟨1, some (-1), 5, true, some (-11), .fin 11, true⟩], ?_⟩
  unfold wolfe
  rw [if_pos hw, exec_bind]
  unfold bracketing
  rw [exec_bind, he]
  simp only
  rw [bracketLoop, if_pos (by norm_num [lineOpts])]
  simp only [exec]
  rw [wolfeFinish]
  have hz : (bracketEnd lineOpts (lineParts.fn 0 (-1)) (.initial 0 0 (-1))
      (⟨1, some (-1), 5, true, some (-11), .fin 11, true⟩ : Sample ℝ ℝ ℝ) true 1 1
      [⟨1, some (-1), 5, true, some (-11), .fin 11, true⟩]).zoom = true := by
    norm_num [bracketEnd, lineOpts, lineParts, LSParts.fn, Sample.initial]
  rw [if_neg (by simp [bracketEnd]), if_neg (by erw [hz]; simp)]
  unfold zoomPhase
  rw [if_neg (by simp [bracketEnd, Sample.initial]), if_neg (by simp [bracketEnd]),
    if_neg (by norm_num [bracketEnd, Sample.initial, Ext.mulNonneg])]
  rw [zoomLoop, if_pos (by simp [bracketEnd, lineOpts])]
  simp only [Prog.bind, exec]
  simp [afterZoom, bracketEnd, Sample.initial, LSParts.fn]

/-- The program of `wolfeRun`. -/
noncomputable def wolfeProg : Prog (Call ℝ) (LSAnswer ℝ) (LSResult ℝ) :=
  lsMinimize (wolfe (fun _ lo hi => (lo + hi) / 2) lineOpts) lineParts lineMinOpts
      (fun _ => (.continue, false)) 0

/-- The program, with its first iteration unfolded. -/
theorem wolfeProg_start : ∃ k : LSAnswer ℝ → Prog (Call ℝ) (LSAnswer ℝ) (LSResult ℝ),
    wolfeProg = .ask ⟨0, true, true⟩ k ∧
    ∃ m : LineSearch.Summary ℝ ℝ ℝ → Prog (Call ℝ) (LSAnswer ℝ) (LSResult ℝ),
      k (some (.fin 0, 1)) = (wolfe (fun _ lo hi => (lo + hi) / 2) lineOpts
        (lineParts.fn 0 (-1)) 1 0 (-1)).bind m ∧
      ∀ a b c t, ∃ n, m ⟨.success, .initial 0 0 (-1), a, b, c, t⟩ = .ask ⟨0, true, false⟩ n ∧
        ∀ e g, ∃ z, n (some (.fin e, g)) = .ret z ∧ z.status = .parameterTolerance ∧
          z.records.map (·.cost) = [0, e] := by
  refine ⟨_, rfl, ?_⟩
  simp only [LSParts.norms, lineParts, Option.map]
  rw [if_neg (by norm_num [lineMinOpts]), lsLoop_eq, if_neg (by simp), if_neg (by simp)]
  unfold lsStep
  rw [if_neg (by norm_num [lineMinOpts]), if_neg (by simp)]
  simp only [LineSearch.chooseDirection, LineSearch.initialStep]
  norm_num
  rw [Prog.bind_assoc]
  refine ⟨_, rfl, ?_⟩
  intro a b c t
  refine ⟨_, rfl, ?_⟩
  intro e g
  simp only [Prog.bind, lsAccept, LSParts.norms, Option.map]
  rw [if_pos (by norm_num [lineMinOpts])]
  exact ⟨_, rfl, rfl, by simp⟩

theorem wolfeRun_events : (wolfeRun true).1.events =
      [.prepare 0 true true, .residuals 0 true, .prepare (-1) true true, .residuals (-1) true,
       .prepare 0 true false, .residuals 0 true] ∧
    (wolfeRun true).2.status = .parameterTolerance ∧
    (wolfeRun true).2.records.map (·.cost) = [0, 5] := by
  obtain ⟨k, hk, m, hm, hn⟩ := wolfeProg_start
  obtain ⟨t, ht⟩ := wolfe_search (0, 1) [.prepare 0 true true, .residuals 0 true]
  obtain ⟨n, hn, hz⟩ := hn 1 1 1 t
  obtain ⟨z, hz, hs, hc⟩ := hz 5 (-11)
  have hrun : wolfeRun true = exec lineUser true wolfeProg ⟨0, (0, 0), []⟩ := rfl
  have h0 : evaluate lineUser true ⟨0, (0, 0), []⟩ (⟨0, true, true⟩ : Call ℝ) =
      (⟨0, (0, 1), [.prepare 0 true true, .residuals 0 true]⟩, some (.fin 0, 1)) := by
    simp [evaluate, lineUser]
  rw [hrun, hk, exec, h0]
  simp only
  rw [hm, exec_bind, ht]
  simp only
  rw [hn, exec]
  have h1 : ∀ l, evaluate lineUser true ⟨-1, (5, -11), l⟩ (⟨0, true, false⟩ : Call ℝ) =
      (⟨0, (5, -11), l ++ [.prepare 0 true false] ++ [.residuals 0 true]⟩,
        some (.fin 5, -11)) := by
    intro l
    simp [evaluate, lineUser]
  rw [h1]
  simp only
  rw [hz]
  exact ⟨rfl, hs, hc⟩

/-- **C60 (finding).**  With the Wolfe line search the contract does not hold.  `x + 6 x^2` is
minimised from 0, with one step size iteration.  The search tries -1, where the cost is 5, and
returns its starting point.  The minimizer then evaluates there and tells the callback that the
point is not new (line_search_minimizer.cc:358-365), although -1 was prepared in between.  The cost
functions deliver the data of -1: the summary's last iteration says that the cost is 5, where
cost functions without shared data make it say 0. -/
theorem wolfe_contract_fails :
    ¬ Protocol (wolfeRun true).1.events ∧
    (wolfeRun true).2.records.map (·.cost) = [0, 5] ∧
    (LineSearch.minimize (LineSearch.wolfe (fun _ lo hi => (lo + hi) / 2) lineOpts)
      (lineParts.answered lineCost) lineMinOpts (fun _ => (.continue, false)) 0).records.map
        (·.cost) = [0, 0] := by
  refine ⟨?_, wolfeRun_events.2.2, ?_⟩
  · rw [wolfeRun_events.1]
    intro h
    have := h.truthful 4 0 true false rfl (by simp [lastPrepared])
    simp at this
  · rw [← lsMinimize_run (wolfe_computes _ _)]
    show (wolfeProg.run fun q => lineCost q.point q.jacobians).records.map (·.cost) = [0, 0]
    obtain ⟨k, hk, m, hm, hn⟩ := wolfeProg_start
    obtain ⟨t, ht⟩ := wolfe_search (0, 1) [.prepare 0 true true, .residuals 0 true]
    have hsearch : (wolfe (fun _ lo hi => (lo + hi) / 2) lineOpts (lineParts.fn 0 (-1))
        1 0 (-1)).run (fun q => lineCost q.point q.jacobians) =
        ⟨.success, .initial 0 0 (-1), 1, 1, 1, t⟩ := by
      rw [← exec_honours (ok := answered) lineUser_honours rfl
        (wolfe_fine (C := Truthful) (fun v => rfl) (by intro l t x _ h; simp at h) _ _ _ _ _ none)
        ⟨0, (0, 1), [.prepare 0 true true, .residuals 0 true]⟩ (by intro x h; simp at h), ht]
    obtain ⟨n, hn, hz⟩ := hn 1 1 1 t
    obtain ⟨z, hz, hs, hc⟩ := hz 0 1
    have h0 : lineCost 0 true = some (.fin 0, 1) := by simp [lineCost]
    rw [hk, Prog.run]
    simp only
    rw [h0, hm, Prog.run_bind, hsearch, hn, Prog.run]
    simp only
    rw [h0, hz]
    exact hc

/-- `line_search_wolfe_parameters` applies to this run: the parameters returned are right. -/
example : (wolfeRun true).2.x =
    (LineSearch.minimize (LineSearch.wolfe (fun _ lo hi => (lo + hi) / 2) lineOpts)
      (lineParts.answered lineCost) lineMinOpts (fun _ => (.continue, false)) 0).x :=
  line_search_wolfe_parameters _ _ _ (fun x => by simp [lineParts])
    (fun x => abs_nonneg x) _ (by norm_num [lineMinOpts]) _ _ rfl _ _ lineUser_honours _ _ _

/-- **C60 (finding).**  With `check_gradients` the callback is not called: the cost functions
deliver whatever the shared data hold.  Here the solver reports convergence at 0, where the
derivative is 1, because the data are all zero. -/
theorem check_gradients_no_callback :
    (wolfeRun (callbackInSolve true true)).1.events = [.residuals 0 true] ∧
    (wolfeRun (callbackInSolve true true)).2.status = .gradientTolerance ∧
    lineCost 0 true = some (.fin 0, 1) := by
  have h0 : evaluate lineUser false ⟨0, (0, 0), []⟩ (⟨0, true, true⟩ : Call ℝ) =
      (⟨0, (0, 0), [.residuals 0 true]⟩, some (.fin 0, 0)) := by
    simp [evaluate, lineUser]
  have hrun : wolfeRun (callbackInSolve true true) =
      (⟨0, (0, 0), [.residuals 0 true]⟩, ⟨0, .gradientTolerance, []⟩) := by
    rw [wolfeRun, lsMinimize, exec, show callbackInSolve true true = false from rfl, h0]
    simp only [LSParts.norms, lineParts, Option.map]
    rw [if_pos (by norm_num [lineMinOpts])]
    rfl
  rw [hrun]
  exact ⟨rfl, rfl, by simp [lineCost]⟩

end Ceres.EvalCallback
