import Verif.Summary.Spec

/-!
# C95: the numbers of evaluations
-/
namespace Ceres.Summary

open Ceres.EvalCallback (UserCode Call Event)

variable {U Y R A : Type}

theorem timedEvaluate_stats (c : UserCode U Y R) (b : Bool) (w : EvalCallback.World U Y × Stats) (q : Call Y) :
    numResidualEvaluations (timedEvaluate c b w q).1.2 =
      numResidualEvaluations w.2 + (if q.jacobians = false then 1 else 0) ∧
    numJacobianEvaluations (timedEvaluate c b w q).1.2 =
      numJacobianEvaluations w.2 + (if q.jacobians = true then 1 else 0) := by
  unfold timedEvaluate numResidualEvaluations numJacobianEvaluations Stats.increment
  cases q.jacobians <;> simp

/-- The counters change nothing of the run. -/
theorem timedRun_exec (c : UserCode U Y R) (b : Bool) (m : EvalCallback.Prog (Call Y) R A) :
    ∀ w : EvalCallback.World U Y × Stats,
      ((timedRun c b m w).1.1, (timedRun c b m w).2) = EvalCallback.exec c b m w.1 := by
  induction m with
  | ret a => intro w; rfl
  | ask q k ih => intro w; exact ih _ _

/-- **C95.**  `num_residual_evaluations` and `num_jacobian_evaluations` are the numbers of evaluations without and
with derivatives that the minimizer has made, for every minimizer and every behaviour of the user's code. -/
theorem evaluations_counted (c : UserCode U Y R) (b : Bool) (m : EvalCallback.Prog (Call Y) R A) :
    ∀ w : EvalCallback.World U Y × Stats,
      numResidualEvaluations (timedRun c b m w).1.2 = numResidualEvaluations w.2 + (asked c b m w.1).count false ∧
      numJacobianEvaluations (timedRun c b m w).1.2 = numJacobianEvaluations w.2 + (asked c b m w.1).count true := by
  induction m with
  | ret a => intro w; exact ⟨rfl, rfl⟩
  | ask q k ih =>
    intro w
    obtain ⟨h1, h2⟩ := ih (timedEvaluate c b w q).2 (timedEvaluate c b w q).1
    obtain ⟨h3, h4⟩ := timedEvaluate_stats c b w q
    unfold timedRun asked
    rw [h1, h2, h3, h4]
    have hw : (timedEvaluate c b w q).1.1 = (EvalCallback.evaluate c b w.1 q).1 := rfl
    have hr : (timedEvaluate c b w q).2 = (EvalCallback.evaluate c b w.1 q).2 := rfl
    rw [hw, hr]
    cases q.jacobians <;> simp <;> omega

theorem evaluate_runs (c : UserCode U Y R) (b : Bool) (w : EvalCallback.World U Y) (q : Call Y) (j : Bool) :
    runs j (EvalCallback.evaluate c b w q).1.events =
      runs j w.events + (if c.stateOk q.point = true ∧ q.jacobians = j then 1 else 0) ∧
    prepares j (EvalCallback.evaluate c b w q).1.events =
      prepares j w.events + (if b = true ∧ c.stateOk q.point = true ∧ q.jacobians = j then 1 else 0) := by
  unfold EvalCallback.evaluate runs prepares
  by_cases h : c.stateOk q.point = false
  · rw [if_pos h]; simp [h]
  · rw [if_neg h]
    have h' : c.stateOk q.point = true := by simpa using h
    cases b <;> cases hq : q.jacobians <;> cases j <;> simp [h', List.countP_append, List.countP_cons]

/-- **C95.**  The cost functions have been run at most that often; with a callback, `PrepareForEvaluation` has been
called just as often as the cost functions have been run. -/
theorem evaluations_bound (c : UserCode U Y R) (b : Bool) (m : EvalCallback.Prog (Call Y) R A) (j : Bool) :
    ∀ w : EvalCallback.World U Y,
      runs j (EvalCallback.exec c b m w).1.events ≤ runs j w.events + (asked c b m w).count j ∧
      (b = true → prepares j (EvalCallback.exec c b m w).1.events + runs j w.events =
        runs j (EvalCallback.exec c b m w).1.events + prepares j w.events) := by
  induction m with
  | ret a => intro w; exact ⟨le_rfl, fun _ => Nat.add_comm _ _⟩
  | ask q k ih =>
    intro w
    obtain ⟨h1, h2⟩ := ih (EvalCallback.evaluate c b w q).2 (EvalCallback.evaluate c b w q).1
    obtain ⟨h3, h4⟩ := evaluate_runs c b w q j
    unfold EvalCallback.exec asked
    constructor
    · rw [h3] at h1
      rw [List.count_cons]
      by_cases hj : q.jacobians = j
      · have : (if c.stateOk q.point = true ∧ q.jacobians = j then 1 else 0) ≤ 1 := by split_ifs <;> omega
        simp only [hj, beq_self_eq_true, if_true] at *
        omega
      · rw [if_neg (fun h => hj h.2)] at h1
        rw [if_neg (by simpa using hj)]
        omega
    · intro hb
      have h5 := h2 hb
      rw [h3, h4] at h5
      simp only [hb, true_and] at h5 ⊢
      omega

/-- **C95.**  They have been run exactly that often, if every point could be given to the parameter blocks. -/
theorem evaluations_exact (c : UserCode U Y R) (hok : ∀ y, c.stateOk y = true) (b : Bool)
    (m : EvalCallback.Prog (Call Y) R A) (j : Bool) : ∀ w : EvalCallback.World U Y,
      runs j (EvalCallback.exec c b m w).1.events = runs j w.events + (asked c b m w).count j := by
  induction m with
  | ret a => intro w; rfl
  | ask q k ih =>
    intro w
    have h1 := ih (EvalCallback.evaluate c b w q).2 (EvalCallback.evaluate c b w q).1
    obtain ⟨h3, -⟩ := evaluate_runs c b w q j
    unfold EvalCallback.exec asked
    rw [h1, h3, List.count_cons]
    simp only [hok, true_and]
    by_cases hj : q.jacobians = j
    · simp only [hj, beq_self_eq_true, if_true]; omega
    · rw [if_neg hj, if_neg (by simpa using hj)]; omega

end Ceres.Summary
