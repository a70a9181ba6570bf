import Verif.GradientProblem.Spec

/-!
# Solving gradient problems (C83)
-/
namespace Ceres.GradientProblem

open Ceres.Manifold (Vec Buf Manifold toBuf norm2 squaredNorm euclideanManifold)
open Ceres.LineSearch (Ext LSProblem LSOptions LSRecord LSResult LSStatus Search NCGType Interp Numerics armijo wolfe
  minimizeInterpolating PlusZero CostConsistent OptionsOk SearchOk ArmijoOpts WolfeOpts RecordsOk Verdict EarlyExit)
open Ceres.Driver
open Ceres.TrustRegion (CB Term)
open Ceres.Options (Dbl Build)

noncomputable section

variable {n : ℕ} {A : Type}

/-! ### Options -/

/-- **C83.**  The options are accepted exactly if they are valid as documented, however the library was built. -/
theorem isValid_iff (b : Build) (o : Options n A) : isValid b o = true ↔ ValidOptions o := by
  have h : isValid b o = true ↔ Options.isValid b (toSolverOptions b o) = .ok () := by
    unfold isValid
    cases Options.isValid b (toSolverOptions b o) <;> simp
  rw [h, Ceres.Options.isValid_iff]
  constructor
  · rintro ⟨hc, -, hl⟩
    exact ⟨hc.iterations, hc.time, hc.function, hc.gradient, hc.parameter, hl.rank, hl.minStep, hl.maxContraction,
      hl.contraction, hl.minContraction, hl.iterationsLineSearch rfl, hl.decrease, hl.decreaseCurvature, hl.curvature,
      hl.expansion, hl.wolfe⟩
  · intro h
    refine ⟨⟨h.iterations, h.time, h.function, h.gradient, h.parameter, by simp [toSolverOptions, Options.defaults],
      by simp [toSolverOptions, Options.defaults]⟩, by simp [toSolverOptions], ?_⟩
    have h1 := h.searchIterations
    exact ⟨h.rank, h.minStep, h.maxContraction, h.contraction, h.minContraction,
      by show 0 ≤ o.maxStepSizeIterations; omega, fun _ => h1, h.decrease, h.decreaseCurvature, h.curvature,
      h.expansion, h.wolfe⟩

theorem finite_between {x : Dbl} {a b : ℚ} (h1 : (Dbl.fin a).Le x) (h2 : x.Le (.fin b)) : ∃ q, x = .fin q := by
  rw [← Ceres.Options.Dbl.le_iff] at h1 h2
  cases x <;> simp_all [Dbl.le]

theorem real_le {x y : Dbl} (h : x.Le y) (hx : ∃ q, x = .fin q) (hy : ∃ q, y = .fin q) : real x ≤ real y := by
  obtain ⟨q, rfl⟩ := hx
  obtain ⟨r, rfl⟩ := hy
  rw [Ceres.Options.Dbl.fin_le] at h
  simpa [real] using h

theorem real_lt {x y : Dbl} (h : x.Lt y) (hx : ∃ q, x = .fin q) (hy : ∃ q, y = .fin q) : real x < real y := by
  obtain ⟨q, rfl⟩ := hx
  obtain ⟨r, rfl⟩ := hy
  rw [Ceres.Options.Dbl.fin_lt] at h
  simpa [real] using h

theorem real_zero : real (.fin 0) = 0 := by simp [real]

theorem real_one : real (.fin 1) = 1 := by simp [real]

/-- The line search the options ask for does what the minimizer needs. -/
theorem lineSearch_ok {X V : Type} [NormedAddCommGroup V] [InnerProductSpace ℝ V] (b : Build) (N : Numerics)
    {o : Options n A} (hv : ValidOptions o) (hf : FiniteOptions o) :
    0 ≤ real o.sufficientFunctionDecrease ∧
    SearchOk (X := X) (V := V) (real o.sufficientFunctionDecrease) (lineSearch N (toSolverOptions b o) o) := by
  have fz : ∃ q, Dbl.fin 0 = .fin q := ⟨_, rfl⟩
  have fo : ∃ q, Dbl.fin 1 = .fin q := ⟨_, rfl⟩
  have f1 : ∃ q, o.sufficientCurvatureDecrease = .fin q :=
    finite_between (hv.decrease.le.trans hv.decreaseCurvature.le) hv.curvature.le
  have f2 : ∃ q, o.sufficientFunctionDecrease = .fin q :=
    finite_between hv.decrease.le (hv.decreaseCurvature.le.trans hv.curvature.le)
  have f3 : ∃ q, o.minStepContraction = .fin q :=
    finite_between (hv.maxContraction.le.trans hv.contraction.le) hv.minContraction
  have f4 : ∃ q, o.maxStepContraction = .fin q :=
    finite_between hv.maxContraction.le (hv.contraction.le.trans hv.minContraction)
  have f5 : ∃ q, o.maxStepExpansion = .fin q := hf _ (by simp)
  have d1 := real_lt hv.decrease fz f2
  have d2 := real_lt hv.decreaseCurvature f2 f1
  have d3 := real_lt hv.curvature f1 fo
  have d4 := real_lt hv.maxContraction fz f4
  have d5 := real_lt hv.contraction f4 f3
  have d6 := real_le hv.minContraction f3 fo
  have d7 := real_lt hv.expansion fo f5
  rw [real_zero] at d1 d4
  rw [real_one] at d3 d6 d7
  have d8 : 0 < o.maxStepSizeIterations.toNat := by have := hv.searchIterations; omega
  refine ⟨d1.le, ?_⟩
  show SearchOk _ (match o.lineSearch with
    | .ARMIJO => _
    | .WOLFE => _)
  cases o.lineSearch with
  | ARMIJO =>
    exact LineSearch.armijo_searchOk (LineSearch.minimizeInterpolating_inside N)
      (o := searchOptions (toSolverOptions b o) o) ⟨d1, d2.trans d3, d4, d5, d6, d8⟩
  | WOLFE =>
    exact LineSearch.wolfe_searchOk (LineSearch.minimizeInterpolating_inside N)
      (o := searchOptions (toSolverOptions b o) o) ⟨d1, d2, d3, d7, d8⟩

/-- The tolerances and the rank are as the minimizer needs them. -/
theorem minimizerOptions_ok (b : Build) {o : Options n A} (hv : ValidOptions o) (hf : FiniteOptions o) :
    OptionsOk (minimizerOptions (toSolverOptions b o) o) := by
  have fz : ∃ q, Dbl.fin 0 = .fin q := ⟨_, rfl⟩
  refine ⟨?_, ?_, ?_⟩
  · have := real_le hv.gradient fz (hf _ (by simp))
    rw [real_zero] at this
    exact this
  · have := real_le hv.function fz (hf _ (by simp))
    rw [real_zero] at this
    exact this
  · show (match o.direction with
      | .STEEPEST_DESCENT => LineSearch.DirectionType.steepest
      | .NONLINEAR_CONJUGATE_GRADIENT => .ncg o.ncg
      | .BFGS => .bfgs o.bfgsScaling
      | .LBFGS => .lbfgs o.maxLbfgsRank.toNat o.bfgsScaling).Ok
    have := hv.rank
    cases o.direction <;> simp only [LineSearch.DirectionType.Ok]
    omega

/-! ### The evaluator -/

theorem evaluate_costIs {p : Problem} {junk : Buf} {x : p.Point} {c : ℝ} {g : p.Tangent}
    (h : (p.evaluator junk).eval x true = some (.fin c, g)) : p.CostIs x c := by
  change p.evaluate junk x true = _ at h
  unfold Problem.evaluate at h
  cases he : p.function.evaluate (fun i => x (Fin.cast p.sizes i)) true with
  | none => rw [he] at h; cases h
  | some q =>
    obtain ⟨c', g'⟩ := q
    rw [he] at h
    simp only [if_true] at h
    split at h
    · simp only [Option.some.injEq, Prod.mk.injEq] at h
      exact ⟨g', by rw [he, h.1]⟩
    · cases h

theorem evaluator_plusZero {p : Problem} (junk : Buf) (hp : p.ZeroStep) : PlusZero (p.evaluator junk) :=
  ⟨fun x => hp x, fun x => by simp [Problem.evaluator]⟩

theorem evaluator_consistent {p : Problem} (junk : Buf) (hf : p.function.Consistent) :
    CostConsistent (p.evaluator junk) := by
  intro x c v c' v' h1 h2
  change p.evaluate junk x false = _ at h1
  change p.evaluate junk x true = _ at h2
  unfold Problem.evaluate at h1 h2
  cases e1 : p.function.evaluate (fun i => x (Fin.cast p.sizes i)) false with
  | none => rw [e1] at h1; cases h1
  | some q1 =>
    cases e2 : p.function.evaluate (fun i => x (Fin.cast p.sizes i)) true with
    | none => rw [e2] at h2; cases h2
    | some q2 =>
      rw [e1] at h1
      rw [e2] at h2
      simp only [Bool.false_eq_true, if_false, Option.some.injEq, Prod.mk.injEq] at h1
      simp only [if_true] at h2
      split at h2
      · simp only [Option.some.injEq, Prod.mk.injEq] at h2
        have := hf _ q1.1 q1.2 q2.1 q2.2 e1 e2
        rw [← h1.1, ← h2.1, this]
      · cases h2

/-! ### Callbacks and memory -/

/-- What a round of callbacks does to the memory if the user's callbacks do not write it. -/
theorem round_memory (o : Options n A) (hro : ReadOnly o) (base : ℕ → Vec n) (it : LSRecord (Vec n))
    (w : World (Vec n) A) (hw : (∀ b, b ≠ 0 → w.mem b = base b) ∧ (o.updateState = false → w.mem = base))
    (h0 : it.iteration = 0 → w.mem = base ∧ it.x = base 0) :
    let m := if o.updateState then Function.update base 0 it.x else base
    (runCallbacks [it.x] it (callbacks o) w).1.mem = m ∧
    ∀ c ∈ (runCallbacks [it.x] it (callbacks o) w).2.2, ∀ j, c.kind = .user j → c.seen.mem = m := by
  intro m
  have tail : ∀ (cbs : List (Callback (Vec n) (LSRecord (Vec n)) A)) (w : World (Vec n) A),
      (∀ cb ∈ cbs, cb = loggingCallback ∨ cb ∈ userCallbacks o.callbacks) → w.mem = m →
      (runCallbacks [it.x] it cbs w).1.mem = m ∧
      ∀ c ∈ (runCallbacks [it.x] it cbs w).2.2, c.seen.mem = m := by
    intro cbs
    induction cbs with
    | nil => intro w _ hm; exact ⟨hm, by simp [runCallbacks]⟩
    | cons cb cbs ih =>
      intro w hcb hm
      have h1 : (cb.run [it.x] it w).1.mem = m := by
        rcases hcb cb (by simp) with rfl | h
        · exact hm
        · obtain ⟨j, f, hf, -, hr⟩ := mem_userCallbacks _ _ h
          rw [hr]
          simp only
          rw [hro f (List.mem_of_getElem? hf)]
          exact hm
      obtain ⟨i1, i2⟩ := ih _ (fun c' hc' => hcb c' (by simp [hc'])) h1
      unfold runCallbacks
      split
      · refine ⟨i1, ?_⟩
        intro c hc
        simp only [List.mem_cons] at hc
        rcases hc with rfl | hc
        · exact hm
        · exact i2 c hc
      · refine ⟨h1, ?_⟩
        intro c hc
        simp only [List.mem_singleton] at hc
        subst hc
        exact hm
  have hrest : ∀ cb ∈ (if o.silent then userCallbacks o.callbacks else loggingCallback :: userCallbacks o.callbacks),
      cb = loggingCallback ∨ cb ∈ userCallbacks o.callbacks := by
    intro cb hcb
    cases h : o.silent <;> simp only [h, if_true, if_false, Bool.false_eq_true, List.mem_cons] at hcb <;> tauto
  by_cases hu : o.updateState = true
  · have hm : m = Function.update base 0 it.x := if_pos hu
    have hcs : callbacks o = stateUpdatingCallback ::
        (if o.silent then userCallbacks o.callbacks else loggingCallback :: userCallbacks o.callbacks) := by
      unfold callbacks
      simp only
      rw [if_pos hu]
    have hmem : (stateUpdatingCallback.run [it.x] it w).1.mem = m := by
      rw [hm]
      unfold stateUpdatingCallback
      simp only
      split
      · funext a
        simp only [writeBack]
        by_cases ha : a = 0
        · subst ha; simp
        · rw [if_neg ha, Function.update_of_ne ha]; exact hw.1 a ha
      · next hi =>
        obtain ⟨e1, e2⟩ := h0 (by simpa using hi)
        rw [e1, e2, Function.update_eq_self]
    rw [hcs]
    obtain ⟨t1, t2⟩ := tail _ _ hrest hmem
    unfold runCallbacks
    rw [if_pos (by rfl)]
    refine ⟨t1, ?_⟩
    intro c hc j hj
    simp only [List.mem_cons] at hc
    rcases hc with rfl | hc
    · cases hj
    · exact t2 c hc
  · have hm : m = base := if_neg hu
    have hcs : callbacks o =
        (if o.silent then userCallbacks o.callbacks else loggingCallback :: userCallbacks o.callbacks) := by
      unfold callbacks
      simp only
      rw [if_neg hu]
    rw [hcs]
    obtain ⟨t1, t2⟩ := tail _ w hrest (by rw [hm]; exact hw.2 (by simpa using hu))
    exact ⟨t1, fun c hc _ _ => t2 c hc⟩

/-- What a whole run does to the memory if the user's callbacks do not write it. -/
theorem exec_memory (o : Options n A) (hro : ReadOnly o) (base : ℕ → Vec n) {k : ℝ} {h : List (LSRecord (Vec n))}
    {run : Run (Vec n) (LSRecord (Vec n)) ℝ A} {Q : ℝ → List (LSRecord (Vec n)) → List (Vec n) → Own → Prop}
    (hr : run.Along (fun _ h p it => p = [it.x] ∧ (it.iteration = 0 → h = [] ∧ it.x = base 0)) Q k h)
    (w : World (Vec n) A) (hw : (∀ b, b ≠ 0 → w.mem b = base b) ∧ (o.updateState = false → w.mem = base))
    (h0 : h = [] → w.mem = base) :
    (exec (callbacks o) run k w).world.mem =
      (if o.updateState then
        match (exec (callbacks o) run k w).reported.getLast? with
        | none => w.mem
        | some it => Function.update base 0 it.x
      else base) ∧
    ∀ c ∈ (exec (callbacks o) run k w).calls, ∀ j, c.kind = .user j →
      c.seen.mem = if o.updateState then Function.update base 0 c.iteration.x else base := by
  induction hr generalizing w with
  | initial k h c next _ ih => exact ih w hw h0
  | evaluate k h upd err next _ ih => exact ih _ _ hw h0
  | record k h it next _ ih =>
    exact ih w hw (by simp)
  | done k h p t hq =>
    refine ⟨?_, by simp [exec]⟩
    simp only [exec, List.getLast?_nil]
    split
    · rfl
    · next hu => exact hw.2 (by simpa using hu)
  | report k h p it next hp _ ih =>
    obtain ⟨rfl, hp2⟩ := hp
    obtain ⟨r1, r2⟩ := round_memory o hro base it w hw (fun hi => ⟨h0 (hp2 hi).1, (hp2 hi).2⟩)
    have hcit : ∀ c ∈ (runCallbacks [it.x] it (callbacks o) w).2.2, c.iteration = it := by
      obtain ⟨called, rest, e1, e2, -⟩ := runCallbacks_spec [it.x] it (callbacks o) w
      intro c hc
      have : (c.kind, c.iteration, c.params) ∈ called.map (fun c => (c.kind, it, [it.x])) := by
        rw [← e2]; exact List.mem_map.2 ⟨c, hc, rfl⟩
      obtain ⟨d, -, hd⟩ := List.mem_map.1 this
      simp only [Prod.mk.injEq] at hd
      exact hd.2.1.symm
    have r3 : ∀ c ∈ (runCallbacks [it.x] it (callbacks o) w).2.2, ∀ j, c.kind = .user j →
        c.seen.mem = if o.updateState then Function.update base 0 c.iteration.x else base := by
      intro c hc j hj
      rw [hcit c hc]
      exact r2 c hc j hj
    unfold exec
    split
    · obtain ⟨i1, i2⟩ := ih (runCallbacks [it.x] it (callbacks o) w).1.aux (runCallbacks [it.x] it (callbacks o) w).1
        ⟨fun a ha => by
          rw [r1]
          split
          · rw [Function.update_of_ne ha]
          · rfl, fun hu => by rw [r1, if_neg (by simp [hu])]⟩ (by simp)
      refine ⟨?_, ?_⟩
      · simp only
        rw [i1]
        split
        · next hu =>
          rw [List.getLast?_cons]
          cases hl : (exec (callbacks o) (next (runCallbacks [it.x] it (callbacks o) w).1.aux) k
            (runCallbacks [it.x] it (callbacks o) w).1).reported.getLast? with
          | none =>
            simp only [Option.getD_none]
            rw [r1, if_pos hu]
          | some it' => rfl
        · rfl
      · intro c hc j hj
        rcases List.mem_append.1 hc with hc | hc
        · exact r3 c hc j hj
        · exact i2 c hc j hj
    · exact ⟨by simpa using r1, r3⟩
    · exact ⟨by simpa using r1, r3⟩

end

end Ceres.GradientProblem
