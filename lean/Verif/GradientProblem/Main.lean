import Verif.GradientProblem.Solve

/-!
# What `GradientProblemSolver::Solve` returns (C83)
-/
namespace Ceres.GradientProblem

open Ceres.Manifold (Vec Buf Manifold toBuf norm2 squaredNorm euclideanManifold)
open Ceres.LineSearch (Ext LSProblem LSOptions LSRecord LSResult LSStatus Search NCGType Interp Numerics armijo wolfe
  minimizeInterpolating PlusZero CostConsistent OptionsOk SearchOk ArmijoOpts WolfeOpts RecordsOk Verdict EarlyExit
  CallbackResult)
open Ceres.Driver hiding Options ReadOnly Summary Problem solve stateUpdatingCallback exec_memory
open Ceres.TrustRegion (CB Term)
open Ceres.Options (Dbl Build)

noncomputable section

variable {n : ℕ} {A : Type}

/-- The array of the minimizer holds the point of every iteration it reports, and iteration 0 is the first one. -/
theorem lsMinimizer_points {D : Type} [NormedAddCommGroup D] [InnerProductSpace ℝ D] {X : Type} (search : Search X D)
    (P : LSProblem X D) (o : LSOptions) (late : ℕ → Bool) (fixed : ℝ) (x : X) (k : ℝ) :
    (lsMinimizer (fun x => [x]) search P o late fixed x : Run X (LSRecord X) ℝ A).Along
      (fun _ h p it => p = [it.x] ∧ (it.iteration = 0 → h = [] ∧ it.x = x)) (fun _ _ _ _ => True) k [] := by
  have main : ∀ fuel y previous current dir restarts last k (h : List (LSRecord X)), last.x = y →
      (last.iteration = 0 → h = [] ∧ y = x) →
      (lsRun (fun x => [x]) search P o late fixed fuel y previous current dir restarts last :
        Run X (LSRecord X) ℝ A).Along
      (fun _ h p it => p = [it.x] ∧ (it.iteration = 0 → h = [] ∧ it.x = x)) (fun _ _ _ _ => True) k h := by
    intro fuel
    induction fuel with
    | zero =>
      intro y previous current dir restarts last k h hx h0
      unfold lsRun
      refine .report _ _ _ _ _ ⟨by simp [addFixed, hx], fun hi => ?_⟩ (fun a => ?_)
      · have := h0 hi
        exact ⟨this.1, by simp only [addFixed]; rw [hx]; exact this.2⟩
      cases lsStep search P o (late last.iteration) y previous current dir restarts last with
      | stop s => exact .done _ _ _ _ trivial
      | final r s => exact .record _ _ _ _ (.done _ _ _ _ trivial)
      | next p c d n r => exact .record _ _ _ _ (.done _ _ _ _ trivial)
    | succ fuel ih =>
      intro y previous current dir restarts last k h hx h0
      unfold lsRun
      refine .report _ _ _ _ _ ⟨by simp [addFixed, hx], fun hi => ?_⟩ (fun a => ?_)
      · have := h0 hi
        exact ⟨this.1, by simp only [addFixed]; rw [hx]; exact this.2⟩
      cases hs : lsStep search P o (late last.iteration) y previous current dir restarts last with
      | stop s => exact .done _ _ _ _ trivial
      | final r s => exact .record _ _ _ _ (.done _ _ _ _ trivial)
      | next p c d n r =>
        refine ih _ _ _ _ _ _ _ _ rfl (fun hi => ?_)
        have := lsStep_next hs
        omega
  unfold lsMinimizer
  split
  · exact .done _ _ _ _ trivial
  · split
    · exact .done _ _ _ _ trivial
    · refine .initial _ _ _ _ ?_
      split
      · exact .done _ _ _ _ trivial
      · exact main _ _ _ _ _ _ _ _ _ rfl (fun _ => ⟨rfl, rfl⟩)
  · exact .done _ _ _ _ trivial

/-- The facts about a run that are used below. -/
structure RunOk (b : Build) (N : Numerics) (junk : Buf) (p : Problem) (o : Options p.manifold.ambientSize A)
    (w : World p.Point A) (r : Result p.Point (LSRecord p.Point) ℝ A) (R : LSResult p.Point)
    (oracle : ℕ → CallbackResult × Bool) : Prop where
  params : r.params = [R.x]
  term : r.term = lsTerm R.status
  iters : r.iters = R.records
  initial : ∀ c g, (p.evaluator junk).eval (w.mem 0) true = some (.fin c, g) →
    ((p.evaluator junk).plus (w.mem 0) (-g)).isSome → r.initialCost = c
  outcome : EarlyExit (p.evaluator junk) (minimizerOptions (toSolverOptions b o) o) (w.mem 0) R ∨
    (RecordsOk (p.evaluator junk) (real o.sufficientFunctionDecrease) (minimizerOptions (toSolverOptions b o) o)
      (w.mem 0) R.records ∧ Verdict (p.evaluator junk) (minimizerOptions (toSolverOptions b o) o) oracle R)
  monotone : (R.records.map LSRecord.cost).Pairwise (· ≥ ·)

/-- The execution of the minimizer in `Solve`. -/
def theRun (b : Build) (N : Numerics) (junk : Buf) (late : ℕ → Bool) (p : Problem)
    (o : Options p.manifold.ambientSize A) (w : World p.Point A) : Result p.Point (LSRecord p.Point) ℝ A :=
  exec (callbacks o) (lsMinimizer (fun x => [x]) (lineSearch N (toSolverOptions b o) o) (p.evaluator junk)
    (minimizerOptions (toSolverOptions b o) o) late 0 (w.mem 0)) (-1) w

theorem theRun_ok (b : Build) (N : Numerics) (junk : Buf) (late : ℕ → Bool) {p : Problem} (hz : p.ZeroStep)
    (hc : p.function.Consistent) {o : Options p.manifold.ambientSize A} (hv : ValidOptions o) (hf : FiniteOptions o)
    (w : World p.Point A) : ∃ R oracle, RunOk b N junk p o w (theRun b N junk late p o w) R oracle ∧
      ∀ i, (oracle i).2 = late i := by
  obtain ⟨orc, hl, ⟨h1, h2, h3⟩, h4⟩ := exec_lsMinimizer (fun x => [x]) (lineSearch N (toSolverOptions b o) o)
    (p.evaluator junk) (minimizerOptions (toSolverOptions b o) o) late 0 (w.mem 0) (callbacks o) (-1) w
  obtain ⟨s1, s2⟩ := lineSearch_ok (X := p.Point) (V := p.Tangent) b N hv hf
  have ok := minimizerOptions_ok b hv hf
  refine ⟨_, orc, ⟨h1, h2, ?_, ?_, LineSearch.minimize_ok s1 s2 (evaluator_plusZero junk hz)
    (evaluator_consistent junk hc) ok orc _, LineSearch.minimize_monotone s1 s2 (evaluator_plusZero junk hz)
    (evaluator_consistent junk hc) ok orc _⟩, hl⟩
  · simp only [List.map_nil, List.nil_append] at h3
    have ha : (addFixed 0 : LSRecord p.Point → LSRecord p.Point) = id := by funext r; simp [addFixed]
    rw [ha, List.map_id] at h3
    exact h3
  · intro c g he hp
    have := h4 c g he hp
    rw [add_zero] at this
    exact this

theorem solve_invalid (b : Build) (N : Numerics) (junk : Buf) (late : ℕ → Bool) (p : Problem)
    (o : Options p.manifold.ambientSize A) (w : World p.Point A) (hv : ¬ValidOptions o) :
    (solve b N junk late p o w).1 = w ∧ (solve b N junk late p o w).2.term = some .failure ∧
      (solve b N junk late p o w).2.iters = [] ∧ (solve b N junk late p o w).2.calls = [] := by
  have h : isValid b o = false := by
    rw [← Bool.not_eq_true, isValid_iff]; exact hv
  unfold solve
  simp only
  rw [if_pos h]
  exact ⟨rfl, rfl, rfl, rfl⟩

theorem solve_eq (b : Build) (N : Numerics) (junk : Buf) (late : ℕ → Bool) (p : Problem)
    (o : Options p.manifold.ambientSize A) (w : World p.Point A) (hv : ValidOptions o) :
    let r := theRun b N junk late p o w
    (solve b N junk late p o w).2.term = r.term ∧ (solve b N junk late p o w).2.initialCost = r.initialCost ∧
    (solve b N junk late p o w).2.iters = r.iters ∧ (solve b N junk late p o w).2.calls = r.calls ∧
    (solve b N junk late p o w).2.reported = r.reported ∧
    (usable r.term = true → (solve b N junk late p o w).1.mem = writeBack [0] r.params r.world.mem ∧
      (solve b N junk late p o w).2.finalCost = summaryFinalCost LSRecord.cost r.initialCost r.iters) ∧
    (usable r.term = false → (solve b N junk late p o w).1.mem = r.world.mem) := by
  intro r
  have h : ¬isValid b o = false := by
    rw [Bool.not_eq_false, isValid_iff]; exact hv
  have hs : solve b N junk late p o w = if r.term = none then
      (r.world, ⟨p.function.numParameters, p.manifold.tangentSize, none, r.initialCost, -1, r.iters, r.calls, r.reported⟩)
    else if usable r.term then
      ({ r.world with mem := writeBack [0] r.params r.world.mem },
        ⟨p.function.numParameters, p.manifold.tangentSize, r.term, r.initialCost,
          summaryFinalCost LSRecord.cost r.initialCost r.iters, r.iters, r.calls, r.reported⟩)
    else
      (r.world, ⟨p.function.numParameters, p.manifold.tangentSize, r.term, r.initialCost, -1, r.iters, r.calls,
        r.reported⟩) := by
    unfold solve
    simp only
    rw [if_neg h]
    rfl
  rw [hs]
  by_cases ht : r.term = none
  · rw [if_pos ht, ht]
    exact ⟨rfl, rfl, rfl, rfl, rfl, by simp [usable], fun _ => rfl⟩
  · rw [if_neg ht]
    by_cases hu : usable r.term = true
    · rw [if_pos hu]
      exact ⟨rfl, rfl, rfl, rfl, rfl, fun _ => ⟨rfl, rfl⟩, fun h => by rw [hu] at h; cases h⟩
    · rw [if_neg hu]
      exact ⟨rfl, rfl, rfl, rfl, rfl, fun h => absurd h hu, fun _ => rfl⟩

/-- The initial cost and its relation to the iterations. -/
theorem RunOk.start {b : Build} {N : Numerics} {junk : Buf} {p : Problem} {o : Options p.manifold.ambientSize A}
    {w : World p.Point A} {r : Result p.Point (LSRecord p.Point) ℝ A} {R : LSResult p.Point}
    {oracle : ℕ → CallbackResult × Bool} (h : RunOk b N junk p o w r R oracle)
    (hr : r.iters ≠ [] ∨ usable r.term = true) :
    p.CostIs (w.mem 0) r.initialCost ∧ (r.initialCost :: r.iters.map LSRecord.cost).Pairwise (· ≥ ·) ∧
    ((r.iters = [] ∧ R.x = w.mem 0) ∨ ∃ last, r.iters.getLast? = some last ∧ R.x = last.x ∧
      ∃ first, r.iters.head? = some first ∧ first.x = w.mem 0 ∧ first.cost = r.initialCost) := by
  rcases h.outcome with ⟨e1, e2, e3⟩ | ⟨hR, last, hl, hlx, -⟩
  · have hu : usable r.term = true := by
      rcases hr with hr | hr
      · rw [h.iters, e1] at hr; exact absurd rfl hr
      · exact hr
    rcases e3 with q | q | q
    · rw [h.term, q.1] at hu; simp [lsTerm, ownOfLs, Own.term, usable, Term.usable] at hu
    · rw [h.term, q.1] at hu; simp [lsTerm, ownOfLs, Own.term, usable] at hu
    · obtain ⟨c, g, y, g1, g2, -⟩ := q.2
      have hi := h.initial c g g1 (by rw [g2]; rfl)
      refine ⟨by rw [hi]; exact evaluate_costIs g1, by rw [h.iters, e1]; simp, Or.inl ⟨by rw [h.iters, e1], e2⟩⟩
  · cases hh : R.records with
    | nil => rw [hh] at hl; simp at hl
    | cons first rs =>
      obtain ⟨-, f2⟩ := hR.first first (by rw [hh]; rfl)
      obtain ⟨g, g1, y, g2, -⟩ := hR.cost first (by rw [hh]; simp)
      rw [f2] at g1 g2
      have hi := h.initial first.cost g g1 (by rw [g2]; rfl)
      have hm := h.monotone
      refine ⟨by rw [hi]; exact evaluate_costIs g1, ?_, Or.inr ⟨last, by rw [h.iters]; exact hl, hlx, first, by
        rw [h.iters, hh]; rfl, f2, hi.symm⟩⟩
      rw [h.iters, hh, hi]
      rw [hh] at hm
      rw [List.map_cons] at hm ⊢
      rw [List.pairwise_cons]
      refine ⟨?_, hm⟩
      intro a ha
      rw [List.mem_cons] at ha
      rcases ha with rfl | ha
      · exact le_rfl
      · exact (List.pairwise_cons.1 hm).1 a ha

/-- **C83 (iterations).**  Whatever the function, the manifold, the callbacks (which may also write the parameters), the
clock and the outcome: every recorded iteration carries the value of the objective at its point; the values never
increase; the first point is the one the user passed; and there are at most `max_num_iterations` iterations after
iteration 0. -/
theorem solve_iterations (b : Build) (N : Numerics) (junk : Buf) (late : ℕ → Bool) {p : Problem} (hz : p.ZeroStep)
    (hc : p.function.Consistent) {o : Options p.manifold.ambientSize A} (hv : ValidOptions o) (hf : FiniteOptions o)
    (w : World p.Point A) :
    let s := (solve b N junk late p o w).2
    (∀ it ∈ s.iters, p.CostIs it.x it.cost ∧ it.cost ≤ s.initialCost) ∧
    (s.iters.map LSRecord.cost).Pairwise (· ≥ ·) ∧
    (∀ it, s.iters.head? = some it → it.iteration = 0 ∧ it.x = w.mem 0 ∧ it.cost = s.initialCost) ∧
    (s.iters.length : ℤ) ≤ o.maxNumIterations + 1 := by
  intro s
  obtain ⟨R, orc, ok, -⟩ := theRun_ok b N junk late hz hc hv hf w
  obtain ⟨e1, e2, e3, e4, e5, -, -⟩ := solve_eq b N junk late p o w hv
  change s.term = _ at e1
  change s.initialCost = _ at e2
  change s.iters = _ at e3
  rcases ok.outcome with h | ⟨hR, -⟩
  · have : s.iters = [] := by rw [e3, ok.iters, h.1]
    rw [this]
    have := hv.iterations
    refine ⟨by simp, by simp, by simp, ?_⟩
    simp only [List.length_nil, Nat.cast_zero]
    omega
  · refine ⟨?_, by rw [e3, ok.iters]; exact ok.monotone, ?_, ?_⟩
    · intro it hit
      rw [e3] at hit
      obtain ⟨-, hp, -⟩ := ok.start (Or.inl (List.ne_nil_of_mem hit))
      have hle := (List.pairwise_cons.1 hp).1 it.cost (List.mem_map_of_mem hit)
      rw [ok.iters] at hit
      obtain ⟨g, g1, -⟩ := hR.cost it hit
      exact ⟨evaluate_costIs g1, by rw [e2]; exact hle⟩
    · intro it hit
      rw [e3] at hit
      obtain ⟨-, -, h3⟩ := ok.start (Or.inl (by rintro hn; rw [hn] at hit; cases hit))
      rw [e2]
      have h0 := hR.first it (by rw [← ok.iters]; exact hit)
      rcases h3 with h3 | ⟨_, _, _, first, f1, f2, f3⟩
      · rw [h3.1] at hit; cases hit
      · rw [f1, Option.some.injEq] at hit
        subst hit
        exact ⟨h0.1, f2, f3⟩
    · rw [e3, ok.iters]
      have h1 := hR.bounded
      have h2 : (minimizerOptions (toSolverOptions b o) o).maxNumIterations = o.maxNumIterations.toNat := rfl
      have := hv.iterations
      omega

/-- **C83 (result).**  If the summary says that the solution is usable, then, whatever the callbacks did to the array in
between: the objective is `initial_cost` at the point the user passed, `final_cost` at the point that is in the user's
array afterwards, and `final_cost` is at most `initial_cost`. -/
theorem solve_usable (b : Build) (N : Numerics) (junk : Buf) (late : ℕ → Bool) {p : Problem} (hz : p.ZeroStep)
    (hc : p.function.Consistent) {o : Options p.manifold.ambientSize A} (hv : ValidOptions o) (hf : FiniteOptions o)
    (w : World p.Point A) (hu : usable (solve b N junk late p o w).2.term = true) :
    let s := (solve b N junk late p o w).2
    p.CostIs (w.mem 0) s.initialCost ∧ p.CostIs ((solve b N junk late p o w).1.mem 0) s.finalCost ∧
      s.finalCost ≤ s.initialCost ∧
      (∀ last, s.iters.getLast? = some last → (solve b N junk late p o w).1.mem 0 = last.x) := by
  intro s
  obtain ⟨R, orc, ok, -⟩ := theRun_ok b N junk late hz hc hv hf w
  obtain ⟨e1, e2, e3, e4, e5, e6, -⟩ := solve_eq b N junk late p o w hv
  have hI := (solve_iterations b N junk late hz hc hv hf w).1
  rw [e1] at hu
  obtain ⟨m1, m2⟩ := e6 hu
  obtain ⟨h1, h2, h3⟩ := ok.start (Or.inr hu)
  have hmem : (solve b N junk late p o w).1.mem 0 = R.x := by
    rw [m1, ok.params]
    simp [writeBack]
  have hfc := summaryFinalCost_desc LSRecord.cost _ _ h2
  rw [← m2] at hfc
  rw [hmem]
  change s.initialCost = _ at e2
  rw [e2]
  refine ⟨h1, ?_, ?_, ?_⟩
  · rcases h3 with ⟨q1, q2⟩ | ⟨last, q1, q2, -⟩
    · rw [q1] at hfc
      simp only [List.getLast?_nil] at hfc
      rw [hfc, q2]
      exact h1
    · rw [q1] at hfc
      simp only at hfc
      rw [hfc, q2]
      exact (hI last (by rw [e3]; exact List.mem_of_getLast? q1)).1
  · change s.finalCost = _ at hfc
    rw [hfc]
    cases hl : (theRun b N junk late p o w).iters.getLast? with
    | none => exact le_rfl
    | some it => exact (List.pairwise_cons.1 h2).1 _ (List.mem_map_of_mem (List.mem_of_getLast? hl))
  · intro last hlast
    change s.iters = _ at e3
    rw [e3] at hlast
    rcases h3 with ⟨q1, q2⟩ | ⟨last', q1, q2, -⟩
    · rw [q1] at hlast; cases hlast
    · rw [q1, Option.some.injEq] at hlast
      rw [← hlast]; exact q2

/-- **C83 (no solution).**  If the solution is not usable and the user's callbacks do not write the parameters: without
`update_state_every_iteration` the array is untouched; with it, it holds the point of the last recorded iteration, whose
value is at most the initial one. -/
theorem solve_unusable (b : Build) (N : Numerics) (junk : Buf) (late : ℕ → Bool) {p : Problem} (hz : p.ZeroStep)
    (hc : p.function.Consistent) {o : Options p.manifold.ambientSize A} (hv : ValidOptions o) (hf : FiniteOptions o)
    (hro : ReadOnly o) (w : World p.Point A) (hu : usable (solve b N junk late p o w).2.term = false)
    (hp : (solve b N junk late p o w).2.term ≠ none) :
    let s := (solve b N junk late p o w).2
    (solve b N junk late p o w).1.mem =
      if o.updateState then
        match s.iters.getLast? with
        | none => w.mem
        | some last => Function.update w.mem 0 last.x
      else w.mem := by
  intro s
  obtain ⟨e1, e2, e3, e4, e5, -, e7⟩ := solve_eq b N junk late p o w hv
  have hmem : (theRun b N junk late p o w).world.mem = (if o.updateState then
        match (theRun b N junk late p o w).reported.getLast? with
        | none => w.mem
        | some it => Function.update w.mem 0 it.x
      else w.mem) := by
    have h := (exec_memory o hro w.mem (lsMinimizer_points (A := A) (lineSearch N (toSolverOptions b o) o)
      (p.evaluator junk) (minimizerOptions (toSolverOptions b o) o) late 0 (w.mem 0) (-1)) w
      ⟨fun _ _ => rfl, fun _ => rfl⟩ (fun _ => rfl)).1
    unfold theRun
    rw [h]
    cases o.updateState
    · rfl
    · simp only [if_true]
      cases (exec (callbacks o) (lsMinimizer (fun x => [x]) (lineSearch N (toSolverOptions b o) o) (p.evaluator junk)
        (minimizerOptions (toSolverOptions b o) o) late 0 (w.mem 0)) (-1) w).reported.getLast? <;> rfl
  have hrep := exec_reported (callbacks o) (lsMinimizer_reporting (A := A) (fun x => [x])
    (lineSearch N (toSolverOptions b o) o) (p.evaluator junk) (minimizerOptions (toSolverOptions b o) o) late 0
    (w.mem 0)) (-1) w
  change (theRun b N junk late p o w).iters = (theRun b N junk late p o w).reported ∨ _ ∧ _ ∧
    ((theRun b N junk late p o w).term = _ ∨ (theRun b N junk late p o w).term = _) at hrep
  have hir : s.iters = (theRun b N junk late p o w).reported := by
    change s.iters = _ at e3
    rw [e3]
    rcases hrep with h | ⟨-, -, h | h⟩
    · exact h
    · rw [e1, h] at hu; simp [usable, Term.usable] at hu
    · rw [e1] at hp; exact absurd h hp
  rw [e1] at hu
  rw [e7 hu, hir]
  exact hmem

/-- **C83 (callbacks).**  If the user's callbacks do not write the parameters, then a callback that is called for an
iteration finds in the array the point of that iteration if `update_state_every_iteration` is set, and the point the
user passed otherwise. -/
theorem solve_callbacks (b : Build) (N : Numerics) (junk : Buf) (late : ℕ → Bool) {p : Problem}
    {o : Options p.manifold.ambientSize A} (hv : ValidOptions o) (hro : ReadOnly o) (w : World p.Point A) :
    ∀ c ∈ (solve b N junk late p o w).2.calls, ∀ j, c.kind = .user j →
      c.seen.mem = if o.updateState then Function.update w.mem 0 c.iteration.x else w.mem := by
  obtain ⟨e1, e2, e3, e4, e5, -, e7⟩ := solve_eq b N junk late p o w hv
  rw [e4]
  exact (exec_memory o hro w.mem (lsMinimizer_points (A := A) (lineSearch N (toSolverOptions b o) o)
    (p.evaluator junk) (minimizerOptions (toSolverOptions b o) o) late 0 (w.mem 0) (-1)) w ⟨fun _ _ => rfl, fun _ => rfl⟩
    (fun _ => rfl)).2

/-- **C83 (which callbacks).**  The callbacks of the user are called once per iteration, in their order, until one of
them does not answer `SOLVER_CONTINUE`, for every recorded iteration, except possibly for the last one, in which the
minimizer converged. -/
theorem solve_called (b : Build) (N : Numerics) (junk : Buf) (late : ℕ → Bool) {p : Problem}
    {o : Options p.manifold.ambientSize A} (hv : ValidOptions o) (w : World p.Point A) :
    let s := (solve b N junk late p o w).2
    (s.iters = s.reported ∨ ((∃ it, s.iters = s.reported ++ [it]) ∧ (s.term = some .convergence ∨ s.term = none))) ∧
    (s.calls.map (fun c => (c.iteration, c.kind)) <+: s.reported.flatMap (fun it =>
      ((if o.updateState then [Kind.stateUpdating] else []) ++ (if o.silent then [] else [Kind.logging]) ++
        (List.range o.callbacks.length).map Kind.user).map (fun k => (it, k)))) ∧
    ((∀ c ∈ s.calls, c.answer = .continue) → s.calls.map (fun c => (c.iteration, c.kind)) =
      s.reported.flatMap (fun it =>
      ((if o.updateState then [Kind.stateUpdating] else []) ++ (if o.silent then [] else [Kind.logging]) ++
        (List.range o.callbacks.length).map Kind.user).map (fun k => (it, k)))) ∧
    (∀ c ∈ s.calls, c.answer ≠ .continue →
      s.term = some (if c.answer = .abort then .userFailure else .userSuccess) ∧ s.iters.getLast? = some c.iteration) := by
  intro s
  obtain ⟨e1, e2, e3, e4, e5, -, e7⟩ := solve_eq b N junk late p o w hv
  have hrep := exec_reported (callbacks o) (lsMinimizer_reporting (A := A) (fun x => [x])
    (lineSearch N (toSolverOptions b o) o) (p.evaluator junk) (minimizerOptions (toSolverOptions b o) o) late 0
    (w.mem 0)) (-1) w
  have hok := exec_callsOk (callbacks o) (lsMinimizer (fun x => [x]) (lineSearch N (toSolverOptions b o) o)
    (p.evaluator junk) (minimizerOptions (toSolverOptions b o) o) late 0 (w.mem 0)) (-1) w
  change CallsOk (callbacks o) (theRun b N junk late p o w) at hok
  change (theRun b N junk late p o w).iters = (theRun b N junk late p o w).reported ∨ _ ∧
    (∃ it, (theRun b N junk late p o w).iters = (theRun b N junk late p o w).reported ++ [it]) ∧
    ((theRun b N junk late p o w).term = _ ∨ (theRun b N junk late p o w).term = _) at hrep
  change s.term = _ at e1
  change s.iters = _ at e3
  change s.calls = _ at e4
  change s.reported = _ at e5
  have hu : ∀ (l : List (UserCallback p.Point (LSRecord p.Point) A)),
      (userCallbacks l).map Callback.kind = (List.range l.length).map Kind.user := by
    intro l
    unfold userCallbacks
    rw [List.map_map]
    apply List.ext_getElem?
    intro i
    simp only [List.getElem?_map, List.getElem?_zipIdx]
    by_cases hi : i < l.length
    · rw [List.getElem?_eq_getElem hi]; simp [hi]
    · rw [List.getElem?_eq_none (by omega)]; simp [hi]
  have hk : ∀ it : LSRecord p.Point, (callbacks o).map (fun cb => (it, cb.kind)) =
      ((if o.updateState then [Kind.stateUpdating] else []) ++ (if o.silent then [] else [Kind.logging]) ++
        (List.range o.callbacks.length).map Kind.user).map fun k => (it, k) := by
    intro it
    have : (callbacks o).map Callback.kind = (if o.updateState then [Kind.stateUpdating] else []) ++
        (if o.silent then [] else [Kind.logging]) ++ (List.range o.callbacks.length).map Kind.user := by
      unfold callbacks
      cases o.silent <;> cases o.updateState <;> simp [hu, loggingCallback, stateUpdatingCallback]
    rw [← this, List.map_map]
    rfl
  rw [e1, e3, e4, e5]
  refine ⟨?_, ?_, ?_, ?_⟩
  · rcases hrep with h | ⟨-, h⟩
    · exact Or.inl h
    · exact Or.inr h
  · have := hok.order
    simp only [hk] at this
    exact this
  · intro h
    have := hok.through h
    simp only [hk] at this
    exact this
  · intro c hcm hne
    obtain ⟨pre, post, hpp⟩ := List.append_of_mem hcm
    obtain ⟨g1, g2, g3, g4⟩ := hok.stop pre c post hpp hne
    exact ⟨g4, g2⟩

/-- **C83 (verdict).**  Why the solver stopped, from `termination_type`, in terms of the iterations: CONVERGENCE means
that the gradient, the step or the change of the objective met its tolerance; NO_CONVERGENCE that the iterations or the
time were used up; and the process goes on unless the initial value is not finite or the directions are nonlinear
conjugate gradients (which may divide by zero). -/
theorem solve_verdict (b : Build) (N : Numerics) (junk : Buf) (late : ℕ → Bool) {p : Problem} (hz : p.ZeroStep)
    (hc : p.function.Consistent) {o : Options p.manifold.ambientSize A} (hv : ValidOptions o) (hf : FiniteOptions o)
    (w : World p.Point A) :
    let s := (solve b N junk late p o w).2
    (s.term = some .convergence →
      (s.iters = [] ∧ ∃ c g y, (p.evaluator junk).eval (w.mem 0) true = some (.fin c, g) ∧
        p.manifold.plus (w.mem 0) (WithLp.ofLp (-g)) = some y ∧ ‖w.mem 0 - y‖ ≤ real o.gradientTolerance) ∨
      ∃ last, s.iters.getLast? = some last ∧ (last.gradientMaxNorm ≤ real o.gradientTolerance ∨
        (∃ a ∈ s.iters, norm2 (last.x - a.x) ≤ real o.parameterTolerance * (norm2 a.x + real o.parameterTolerance)) ∨
        ∃ a ∈ s.iters, |a.cost - last.cost| ≤ real o.functionTolerance * |a.cost|)) ∧
    (s.term = some .noConvergence → ∃ last, s.iters.getLast? = some last ∧
      ((last.iteration : ℤ) = o.maxNumIterations ∨ late last.iteration = true)) ∧
    (∀ it ∈ s.iters, ∃ g y, (p.evaluator junk).eval it.x true = some (.fin it.cost, g) ∧
        p.manifold.plus it.x (WithLp.ofLp (-g)) = some y ∧ it.gradientMaxNorm = ‖it.x - y‖) ∧
    (s.term = none → (∃ c g, (p.evaluator junk).eval (w.mem 0) true = some (c, g) ∧ c.finite = false) ∨
      o.direction = .NONLINEAR_CONJUGATE_GRADIENT) := by
  intro s
  obtain ⟨R, orc, ok, hlate⟩ := theRun_ok b N junk late hz hc hv hf w
  obtain ⟨e1, e2, e3, e4, e5, -, -⟩ := solve_eq b N junk late p o w hv
  change s.term = _ at e1
  change s.iters = _ at e3
  rw [e1, e3, ok.term, ok.iters]
  rcases ok.outcome with ⟨q1, q2, q3⟩ | ⟨hR, last, hl, hlx, hV⟩
  · rw [q1]
    rcases q3 with ⟨h, -⟩ | ⟨h, h'⟩ | ⟨h, c, g, y, g1, g2, g3⟩
    · rw [h]; simp [lsTerm, ownOfLs, Own.term]
    · rw [h]
      refine ⟨by simp [lsTerm, ownOfLs, Own.term], by simp [lsTerm, ownOfLs, Own.term], by simp, fun _ => Or.inl h'⟩
    · rw [h]
      refine ⟨fun _ => Or.inl ⟨rfl, c, g, y, g1, g2, g3⟩, by simp [lsTerm, ownOfLs, Own.term], by simp,
        by simp [lsTerm, ownOfLs, Own.term]⟩
  · refine ⟨fun h => Or.inr ⟨last, hl, ?_⟩, fun h => ⟨last, hl, ?_⟩, ?_, fun h => Or.inr ?_⟩
    · cases hs : R.status <;> rw [hs] at h hV <;> simp [lsTerm, ownOfLs, Own.term] at h
      · exact Or.inl hV
      · exact Or.inr (Or.inl hV)
      · obtain ⟨a, ha, h1, h2⟩ := hV
        exact Or.inr (Or.inr ⟨a, ha, by rw [← h1]; exact h2⟩)
    · cases hs : R.status <;> rw [hs] at h hV <;> simp [lsTerm, ownOfLs, Own.term] at h
      · left
        have h2 : last.iteration = o.maxNumIterations.toNat := hV
        have := hv.iterations
        omega
      · right
        rw [← hlate]; exact hV
    · intro it hit
      obtain ⟨g, g1, y, g2, g3⟩ := hR.cost it hit
      exact ⟨g, y, g1, g2, g3.symm⟩
    · cases hs : R.status <;> rw [hs] at h hV <;> simp [lsTerm, ownOfLs, Own.term] at h <;> try exact hV.elim
      all_goals first
        | (obtain ⟨t, ht⟩ := hV
           change directionType (toSolverOptions b o) o = _ at ht
           unfold directionType at ht
           change (match o.direction with
            | .STEEPEST_DESCENT => LineSearch.DirectionType.steepest
            | .NONLINEAR_CONJUGATE_GRADIENT => .ncg o.ncg
            | .BFGS => .bfgs o.bfgsScaling
            | .LBFGS => .lbfgs o.maxLbfgsRank.toNat o.bfgsScaling) = _ at ht
           cases hd : o.direction <;> rw [hd] at ht <;> first | rfl | cases ht)

end

end Ceres.GradientProblem
