import Verif.Options.Create
import Verif.LineSearch.Minimizer
import Mathlib.Tactic.FinCases

/-! # Default options, consequences for the minimizers, and the gaps -/

namespace Ceres.Options

/-- cuDSS is the only sparse library of the build. -/
def Build.OnlyCudss (b : Build) : Prop :=
  b.suiteSparse = false ∧ b.accelerate = false ∧ b.eigenSparse = false ∧ b.cudss = true

theorem defaults_solver {b : Build} (h : ¬b.OnlyCudss) : LinearSolverValid b (defaults b) := by
  constructor <;>
    simp [defaults, UsesDense, UsesSparseCholesky, HasDense, Build.noSparse]
  all_goals
    simp only [Build.OnlyCudss] at h
    cases h1 : b.suiteSparse <;> cases h2 : b.accelerate <;> cases h3 : b.eigenSparse <;>
      cases h4 : b.cudss <;> simp_all [CanFactor]

theorem defaults_common (b : Build) : CommonValid (defaults b) := by
  constructor <;> simp [defaults, Dbl.fin_le]

theorem defaults_lineSearch (b : Build) : LineSearchValid (defaults b) := by
  constructor <;> simp [defaults, Dbl.fin_le, Dbl.fin_lt] <;> norm_num

/-- **C55.** A default-constructed `Options` is valid in every build of the library, except when
cuDSS is the only sparse library. -/
theorem defaults_valid_iff (b : Build) : isValid b (defaults b) = .ok () ↔ ¬b.OnlyCudss := by
  rw [isValid_iff]
  constructor
  · intro h ho
    obtain ⟨h1, h2, h3, h4⟩ := ho
    have := (h.trustRegion rfl).solver.sparse
      (.inl (by simp [defaults, Build.noSparse, h1, h2, h3, h4]))
    simp [defaults, h1, h2, h3, CanFactor] at this
  · intro h
    refine ⟨defaults_common b, fun _ => ?_, defaults_lineSearch b⟩
    refine ⟨?_, ?_, ?_, ?_, ?_, ?_, ?_, ?_, ?_, ?_, ?_, ?_, defaults_solver h, ?_⟩ <;>
      simp [defaults, Dbl.fin_le, Dbl.fin_lt] <;> norm_num

/-- And they are carried out. -/
theorem defaults_carried_out {b : Build} (h : ¬b.OnlyCudss) (noE fBlocks : Bool) :
    Carried b noE fBlocks (defaults b) := by
  refine (accepted_options_carried_out ((defaults_valid_iff b).2 h) rfl noE fBlocks).2 ?_
  rintro (hu | ⟨-, hu, -⟩)
  · simp [defaults] at hu
  · simp only [defaults] at hu
    split at hu <;> cases hu

/-! ### What the minimizers can assume -/

theorem Dbl.fin_of_bounds {x : Dbl} {a b : ℚ} (h : (Dbl.fin a).Le x) (h' : x.Le (.fin b)) :
    ∃ q, x = .fin q ∧ a ≤ q ∧ q ≤ b := by
  rw [← Dbl.le_iff] at h h'
  cases x with
  | nan => simp [Dbl.le] at h
  | ninf => simp [Dbl.le] at h
  | pinf => simp [Dbl.le] at h'
  | fin q => exact ⟨q, rfl, by simpa [Dbl.le] using h, by simpa [Dbl.le] using h'⟩

/-- **C55.** Accepted options make the hypotheses of the theorems about both line searches true:
the constants are finite numbers with `0 < max contraction < min contraction ≤ 1`,
`0 < sufficient decrease < curvature decrease < 1`, and the expansion factor exceeds one. -/
theorem valid_lineSearch {b : Build} {o : Opts} (h : isValid b o = .ok ())
    {minStep expansion : ℚ} (h1 : o.minStepSize = .fin minStep)
    (h2 : o.maxStepExpansion = .fin expansion)
    (hi : o.minimizerType = .LINE_SEARCH ∨ o.maxStepSizeIterations ≠ 0)
    (interp : LineSearch.Interp) :
    ∃ decrease curvature maxC minC : ℚ,
      o.sufficientFunctionDecrease = .fin decrease ∧
      o.sufficientCurvatureDecrease = .fin curvature ∧
      o.maxStepContraction = .fin maxC ∧ o.minStepContraction = .fin minC ∧
      let p : LineSearch.Opts ℚ := ⟨interp, decrease, maxC, minC, minStep,
        o.maxStepSizeIterations.toNat, curvature, expansion⟩
      LineSearch.ArmijoOpts p ∧ LineSearch.WolfeOpts p ∧ 0 < minStep := by
  obtain ⟨-, -, hl⟩ := (isValid_iff b o).1 h
  obtain ⟨q1, e1, l1, u1⟩ := Dbl.fin_of_bounds hl.decrease.le
    (hl.decreaseCurvature.le.trans hl.curvature.le)
  obtain ⟨q2, e2, l2, u2⟩ := Dbl.fin_of_bounds
    (hl.decrease.le.trans hl.decreaseCurvature.le) hl.curvature.le
  obtain ⟨q3, e3, l3, u3⟩ := Dbl.fin_of_bounds hl.maxContraction.le
    (hl.contraction.le.trans hl.minContraction)
  obtain ⟨q4, e4, l4, u4⟩ := Dbl.fin_of_bounds
    (hl.maxContraction.le.trans hl.contraction.le) hl.minContraction
  have a1 := hl.decrease
  have a2 := hl.decreaseCurvature
  have a3 := hl.curvature
  have a4 := hl.maxContraction
  have a5 := hl.contraction
  have a6 := hl.expansion
  have a7 := hl.minStep
  rw [e1, Dbl.fin_lt] at a1
  rw [e1, e2, Dbl.fin_lt] at a2
  rw [e2, Dbl.fin_lt] at a3
  rw [e3, Dbl.fin_lt] at a4
  rw [e3, e4, Dbl.fin_lt] at a5
  rw [h2, Dbl.fin_lt] at a6
  rw [h1, Dbl.fin_lt] at a7
  have hit : 0 < o.maxStepSizeIterations.toNat := by
    have := hl.iterations
    rcases hi with hi | hi
    · have := hl.iterationsLineSearch hi
      omega
    · omega
  exact ⟨q1, q2, q3, q4, e1, e2, e3, e4, ⟨a1, a2.trans a3, a4, a5, u4, hit⟩,
    ⟨a1, a2, a3, a6, hit⟩, a7⟩

/-- **C55.** Accepted options give the trust region a positive radius within its limits, and a
non-empty range for the diagonal. -/
theorem valid_trustRegion {b : Build} {o : Opts} (h : isValid b o = .ok ())
    (ht : o.minimizerType = .TRUST_REGION) :
    (Dbl.fin 0).Lt o.initialRadius ∧ o.initialRadius.Le o.maxRadius ∧
      o.minRadius.Le o.initialRadius ∧ (Dbl.fin 0).Lt o.minRadius ∧
      (Dbl.fin 0).Le o.minLmDiagonal ∧ o.minLmDiagonal.Le o.maxLmDiagonal := by
  have hv := ((isValid_iff b o).1 h).trustRegion ht
  exact ⟨hv.minRadius.trans_le hv.minInitial, hv.initialMax, hv.minInitial, hv.minRadius,
    hv.minDiagonal, hv.minMaxDiagonal⟩

/-- **C55.** NaN is never accepted for an option that is always looked at. -/
theorem nan_refused {b : Build} {o : Opts} (h : isValid b o = .ok ()) :
    o.functionTolerance ≠ .nan ∧ o.gradientTolerance ≠ .nan ∧ o.parameterTolerance ≠ .nan ∧
      o.maxSolverTime ≠ .nan ∧ o.minStepSize ≠ .nan ∧ o.maxStepExpansion ≠ .nan ∧
      (o.minimizerType = .TRUST_REGION →
        o.initialRadius ≠ .nan ∧ o.minRadius ≠ .nan ∧ o.maxRadius ≠ .nan ∧
        o.minRelativeDecrease ≠ .nan ∧ o.minLmDiagonal ≠ .nan ∧ o.maxLmDiagonal ≠ .nan ∧
        o.eta ≠ .nan) := by
  obtain ⟨hc, ht, hl⟩ := (isValid_iff b o).1 h
  have ne : ∀ {x y : Dbl}, x.Le y → x ≠ .nan ∧ y ≠ .nan := by
    rintro x y ⟨a, ha, c, hb, -⟩
    constructor <;> rintro rfl
    · simp [Dbl.val] at ha
    · simp [Dbl.val] at hb
  refine ⟨(ne hc.function).2, (ne hc.gradient).2, (ne hc.parameter).2, (ne hc.time).2,
    (ne hl.minStep.le).2, (ne hl.expansion.le).2, fun hm => ?_⟩
  have hv := ht hm
  exact ⟨(ne hv.minInitial).2, (ne hv.minInitial).1, (ne hv.initialMax).2,
    (ne hv.relativeDecrease).2, (ne hv.minDiagonal).2, (ne hv.minMaxDiagonal).2, (ne hv.eta.le).2⟩

/-! ### Gaps -/

/-- A build with the usual libraries and CUDA. -/
def exampleBuild : Build where
  suiteSparse := true
  suiteSparseNesdis := true
  cholmodFloat := true
  accelerate := false
  eigenSparse := true
  eigenMetis := true
  lapack := true
  cuda := true
  cudss := true

/-- `min_lm_diagonal = 0` is accepted, and the constructor of the trust region strategy aborts
the process. -/
theorem zero_min_diagonal_aborts :
    let o := { defaults exampleBuild with minLmDiagonal := .fin 0 }
    isValid exampleBuild o = .ok () ∧
      build exampleBuild false true o = .error .strategyOptions := by
  refine ⟨?_, by decide +kernel⟩
  decide +kernel

/-- `ITERATIVE_SCHUR` with the power series preconditioner is accepted; if every block of the
user's first elimination group is constant, the solver is switched to `CGNR` but the
preconditioner is kept, and the constructor of `CgnrSolver` aborts the process. -/
theorem spse_without_e_blocks_aborts :
    let o := { defaults exampleBuild with
      linearSolver := .ITERATIVE_SCHUR
      preconditioner := .SCHUR_POWER_SERIES_EXPANSION }
    isValid exampleBuild o = .ok () ∧
      build exampleBuild false true o = .ok (.blockSparse, .blockSparse) ∧
      build exampleBuild true true o = .error .preconditioner := by
  refine ⟨?_, by decide +kernel, by decide +kernel⟩
  decide +kernel

/-- `ITERATIVE_SCHUR` with `CUDA_SPARSE` is accepted although it does not use CUDA, so CUDA is
not initialised; after the switch to `CGNR` the CUDA solver aborts the process. -/
theorem cuda_without_e_blocks_aborts :
    let o := { defaults exampleBuild with
      linearSolver := .ITERATIVE_SCHUR
      preconditioner := .SCHUR_JACOBI
      sparseLib := .CUDA_SPARSE }
    isValid exampleBuild o = .ok () ∧
      build exampleBuild false true o = .ok (.blockSparse, .blockSparse) ∧
      build exampleBuild true true o = .error .cudaNotInitialized := by
  refine ⟨?_, by decide +kernel, by decide +kernel⟩
  decide +kernel

/-- The same options in a build without CUDA: they are accepted, and after the switch to `CGNR`
the evaluator makes a compressed row matrix which the CPU solver casts to a block sparse
matrix. -/
theorem cuda_without_e_blocks_wrong_cast :
    let b := { exampleBuild with
      cuda := false
      cudss := false }
    let o := { defaults b with
      linearSolver := .ITERATIVE_SCHUR
      preconditioner := .SCHUR_JACOBI
      sparseLib := .CUDA_SPARSE }
    isValid b o = .ok () ∧ build b true true o = .ok (.blockSparse, .compressedRow) := by
  refine ⟨?_, by decide +kernel⟩
  decide +kernel

/-- The documentation asks for `min_line_search_step_contraction < 1`; one is accepted. -/
theorem contraction_one_accepted :
    isValid exampleBuild { defaults exampleBuild with minStepContraction := .fin 1 } = .ok () := by
  decide +kernel

/-- With cuDSS as the only sparse library the default options are refused. -/
theorem defaults_refused_only_cudss :
    let b := { exampleBuild with
      suiteSparse := false
      eigenSparse := false }
    isValid b (defaults b) = .error .noSparse := by
  decide +kernel

/-! ### Refusals name the reason -/

example : isValid exampleBuild { defaults exampleBuild with functionTolerance := .nan } =
    .error (.range .functionTolerance .ge (.lit 0)) := by decide +kernel

example : isValid exampleBuild { defaults exampleBuild with maxRadius := .fin 1 } =
    .error (.range .initialRadius .le (.field .maxRadius)) := by decide +kernel

example : isValid exampleBuild
    { defaults exampleBuild with
      strategy := .DOGLEG
      linearSolver := .CGNR } = .error .doglegIterative := by decide +kernel

example : ¬exampleBuild.OnlyCudss := by simp [exampleBuild, Build.OnlyCudss]

end Ceres.Options
