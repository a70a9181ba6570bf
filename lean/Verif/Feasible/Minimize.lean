import Verif.Feasible.Plus
import Verif.Driver.TrSolve

/-!
# C58: the trust region minimizer stays in any set that `Plus` lands in
-/
namespace Ceres.Feasible

open Ceres.TrustRegion

variable {K : Type} [Field K] [LinearOrder K] {S X D : Type}

/-- `Plus` lands in `F`, and the inner iterations do not leave it. -/
structure Keeps (F : X → Prop) (env : Env X D K) : Prop where
  plus : ∀ x d y, env.plus x d = some y → F y
  inner : ∀ f, env.inner = some f → ∀ x, F x → F (f x)

theorem candidate_keeps {F : X → Prop} {o : Opts K} {env : Env X D K} (hF : Keeps F env)
    (t : St S X D K) :
    ((candidateState o env t).candCost < o.big → F (candidateState o env t).candX) ∧
    ((candidateState o env t).innerUseful = true → F (candidateState o env t).candX) := by
  have h1 : ∀ v : St S X D K, (computeCandidate o env v).candCost < o.big →
      F (computeCandidate o env v).candX := by
    intro v
    unfold computeCandidate
    split
    · intro h; exact absurd h (lt_irrefl _)
    · rename_i y hy
      split <;> intro _ <;> exact hF.plus _ _ _ hy
  have g := h1 (doLineSearch o env t)
  unfold candidateState doInnerIterations
  split
  · exact ⟨g, by simp⟩
  · rename_i hno
    push Not at hno
    split
    · exact ⟨g, by simp⟩
    · rename_i f hf
      split
      · exact ⟨g, by simp⟩
      · exact ⟨fun _ => hF.inner f hf _ (g hno.2), fun _ => hF.inner f hf _ (g hno.2)⟩

theorem judge_point {o : Opts K} {env : Env X D K} {strategy : Strategy S X D K} {pm pn : K}
    {s s' : St S X D K} (h : judge o env strategy pm pn s = .cont s') :
    s'.x = s.x ∨ (s'.x = s.candX ∧ (s.innerUseful = true ∨
      o.minRelDecrease < s.ev.stepQuality o.big o.lowest s.candCost s.modelChange)) := by
  have hp : ∀ u : St S X D K, (parameterToleranceReached o env u).1.x = u.x ∧
      (parameterToleranceReached o env u).1.candX = u.candX ∧
      (parameterToleranceReached o env u).1.innerUseful = u.innerUseful ∧
      (parameterToleranceReached o env u).1.ev = u.ev ∧
      (parameterToleranceReached o env u).1.candCost = u.candCost ∧
      (parameterToleranceReached o env u).1.modelChange = u.modelChange := by
    intro u
    unfold parameterToleranceReached
    split <;> exact ⟨rfl, rfl, rfl, rfl, rfl, rfl⟩
  have hq : ∀ u : St S X D K, (functionToleranceReached o u).1.x = u.x ∧
      (functionToleranceReached o u).1.candX = u.candX ∧
      (functionToleranceReached o u).1.innerUseful = u.innerUseful ∧
      (functionToleranceReached o u).1.ev = u.ev ∧
      (functionToleranceReached o u).1.candCost = u.candCost ∧
      (functionToleranceReached o u).1.modelChange = u.modelChange := by
    intro u
    unfold functionToleranceReached
    split <;> exact ⟨rfl, rfl, rfl, rfl, rfl, rfl⟩
  unfold judge at h
  simp only at h
  by_cases h1 : s.anySucc = true ∧ (parameterToleranceReached o env s).2 = true
  · rw [if_pos h1] at h; cases h
  · rw [if_neg h1] at h
    generalize hs1 : (if s.anySucc = true then (parameterToleranceReached o env s).1 else s) = s1 at h
    have e1 : s1.x = s.x ∧ s1.candX = s.candX ∧ s1.innerUseful = s.innerUseful ∧ s1.ev = s.ev ∧
        s1.candCost = s.candCost ∧ s1.modelChange = s.modelChange := by
      rw [← hs1]
      split
      · exact hp s
      · exact ⟨rfl, rfl, rfl, rfl, rfl, rfl⟩
    by_cases h2 : (functionToleranceReached o s1).2 = true
    · rw [if_pos h2] at h; cases h
    · rw [if_neg h2] at h
      generalize hs2 : (functionToleranceReached o s1).1 = s2 at h
      have e2 := hq s1
      rw [hs2] at e2
      obtain ⟨a1, a2, a3, a4, a5, a6⟩ := e2
      obtain ⟨b1, b2, b3, b4, b5, b6⟩ := e1
      by_cases h3 : (isStepSuccessful o s2).2 = true
      · rw [if_pos h3] at h
        right
        have hacc : s.innerUseful = true ∨
            o.minRelDecrease < s.ev.stepQuality o.big o.lowest s.candCost s.modelChange := by
          simp only [isStepSuccessful, Bool.or_eq_true, decide_eq_true_eq] at h3
          rw [a3, a4, a5, a6, b3, b4, b5, b6] at h3
          exact h3
        refine ⟨?_, hacc⟩
        unfold handleSuccessfulStep at h
        simp only at h
        have hx : ∀ u : St S X D K, (evalGradJac o env u).1.x = u.x := by
          intro u
          unfold evalGradJac
          split
          · rfl
          · split <;> rfl
        split at h
        · split at h
          · cases h
          · simp only [Next.cont.injEq] at h
            subst h
            simp only [hx]
            simp only [isStepSuccessful]
            rw [a2, b2]
        · cases h
      · rw [if_neg h3] at h
        left
        simp only [Next.cont.injEq] at h
        subst h
        simp only [handleUnsuccessfulStep, isStepSuccessful]
        rw [a1, b1]

theorem body_keeps {F : X → Prop} {o : Opts K} {env : Env X D K} {strategy : Strategy S X D K}
    (hF : Keeps F env) (hlow : o.lowest ≤ o.minRelDecrease) {s s' : St S X D K} (hx : F s.x)
    (h : body o env strategy s = .cont s') : F s'.x := by
  rcases body_judge h with ⟨-, h1, -⟩ | ⟨t, ht, hv, hj⟩
  · rw [h1]; exact hx
  · have htx : t.x = s.x := by
      rw [← ht]
      exact (computeStep_spec env strategy
        { s with cur := freshIter (s.cur.iteration + 1) s.x }).2.1
    obtain ⟨f1, f2⟩ := candidate_keeps (o := o) hF t
    rcases judge_point hj with h1 | ⟨h1, h2⟩
    · rw [h1, (candidateState_same o env t).x, htx]; exact hx
    · rw [h1]
      rcases h2 with h2 | h2
      · exact f2 h2
      · refine f1 ?_
        by_contra hb
        unfold Evaluator.stepQuality at h2
        rw [if_pos (not_lt.1 hb)] at h2
        exact absurd h2 (not_lt.2 hlow)

/-- The invariant: the current point and all recorded points are in `F`; the array of the user holds
a point of `F` or still the initial point. -/
structure Inside (F : X → Prop) (x0 : X) (s : St S X D K) : Prop where
  x : F s.x
  log : ∀ it ∈ s.iters, F it.point
  params : s.params = x0 ∨ F s.params

theorem record_inside {F : X → Prop} {strategy : Strategy S X D K} {x0 : X} {s : St S X D K}
    (h : Inside F x0 s) : Inside F x0 (pushIter (recordStep strategy s)) := by
  obtain ⟨h1, h2, h3⟩ := h
  have key : (recordStep strategy s).x = s.x ∧ (recordStep strategy s).iters = s.iters ∧
      ((recordStep strategy s).params = s.params ∨ (recordStep strategy s).params = s.x) ∧
      (recordStep strategy s).cur.point = s.x := by
    unfold recordStep
    split
    · split
      · exact ⟨rfl, rfl, Or.inr rfl, rfl⟩
      · exact ⟨rfl, rfl, Or.inl rfl, rfl⟩
    · exact ⟨rfl, rfl, Or.inl rfl, rfl⟩
  obtain ⟨k1, k2, k3, k4⟩ := key
  refine ⟨?_, ?_, ?_⟩
  · simp only [pushIter]; rw [k1]; exact h1
  · intro it hit
    simp only [pushIter, List.mem_append, List.mem_singleton] at hit
    rcases hit with hit | hit
    · rw [k2] at hit; exact h2 it hit
    · rw [hit, k4]; exact h1
  · simp only [pushIter]
    rcases k3 with k3 | k3
    · rw [k3]; exact h3
    · rw [k3]; exact Or.inr h1

theorem checkContinue_fields (o : Opts K) (env : Env X D K) (s : St S X D K) :
    (checkContinue o env s).1.x = s.x ∧ (checkContinue o env s).1.iters = s.iters ∧
    (checkContinue o env s).1.params = s.params := by
  unfold checkContinue
  split
  · exact ⟨rfl, rfl, rfl⟩
  · exact ⟨rfl, rfl, rfl⟩
  · split
    · exact ⟨rfl, rfl, rfl⟩
    · split
      · exact ⟨rfl, rfl, rfl⟩
      · split
        · exact ⟨rfl, rfl, rfl⟩
        · split <;> exact ⟨rfl, rfl, rfl⟩

theorem finalize_inside {F : X → Prop} {o : Opts K} {env : Env X D K}
    {strategy : Strategy S X D K} {x0 : X} {s : St S X D K} (h : Inside F x0 s) :
    Inside F x0 (finalize o env strategy s).1 := by
  obtain ⟨h1, h2, h3⟩ := record_inside (strategy := strategy) h
  obtain ⟨c1, c2, c3⟩ := checkContinue_fields o env (pushIter (recordStep strategy s))
  exact ⟨by rw [finalize, c1]; exact h1, by rw [finalize, c2]; exact h2,
    by rw [finalize, c3]; exact h3⟩

theorem enter_inside {F : X → Prop} {o : Opts K} {env : Env X D K} {strategy : Strategy S X D K}
    (hF : Keeps F env) {s0 : S} {x0 : X} (hstart : F x0 ∨ o.constrained = true)
    (hz : (iterationZero o env (init o env s0 x0)).2 = true) :
    Inside F x0 (enter o env s0 x0) := by
  obtain ⟨z1, z2, -, -, -, -, z7, -⟩ := iterationZero_spec o env strategy s0 x0
  obtain ⟨y1, -⟩ := z7 hz
  refine ⟨?_, ?_, Or.inl z2⟩
  · show F (iterationZero o env (init o env s0 x0)).1.x
    unfold startPoint at y1
    by_cases hc : o.constrained = true
    · rw [if_pos hc] at y1; exact hF.plus _ _ _ y1
    · rw [if_neg hc, Option.some.injEq] at y1
      rw [← y1]
      exact hstart.resolve_right hc
  · intro it hit
    rw [show (enter o env s0 x0).iters = [] from z1] at hit
    cases hit

theorem body_stop_fields {o : Opts K} {env : Env X D K} {strategy : Strategy S X D K} {x0 : X}
    {s s' : St S X D K} (hinv : s.numInvalid = trailingInvalid s.iters)
    (h : body o env strategy s = .stop s') : s'.iters = s.iters ∧ s'.params = s.params :=
  ⟨(body_stop (x0 := x0) hinv h).1.iters, (body_stop (x0 := x0) hinv h).1.params⟩

/-- **C58 (the minimizer).**  Let `Plus` land in a set `F` wherever it starts from, let the inner
iterations not leave `F`, and let `min_relative_decrease` be at least the quality given to steps that
cannot be evaluated.  If the start is in `F`, or the program is treated as bounds constrained, then
every recorded iteration ended at a point of `F`, and the array of the user holds a point of `F`, or
what it held before if no iteration had a cost below the largest number. -/
theorem minimize_keeps (F : X → Prop) (o : Opts K) (env : Env X D K) (strategy : Strategy S X D K)
    (s0 : S) (x0 : X) (fuel : ℕ) (hF : Keeps F env) (hlow : o.lowest ≤ o.minRelDecrease)
    (hstart : F x0 ∨ o.constrained = true) (s : St S X D K)
    (hs : minimize o env strategy s0 x0 fuel = .done s) :
    (∀ it ∈ s.iters, F it.point) ∧ (s.params = x0 ∨ F s.params) ∧ (F x0 → F s.params) ∧
    ((∀ x c, env.jac x = some c → c < o.big) → s.iters ≠ [] → o.maxIter + 1 ≤ fuel →
      F s.params) := by
  have main : (∀ it ∈ s.iters, F it.point) ∧ (s.params = x0 ∨ F s.params) := by
    have hs' := hs
    unfold minimize at hs'
    simp only at hs'
    by_cases hz : (iterationZero o env (init o env s0 x0)).2 = true
    · rw [if_pos hz] at hs'
      have hl := loop_induction (o := o) (env := env) (strategy := strategy)
        (fun s => HeadInv o env x0 s ∧ Inside F x0 s)
        (by
          intro s s' ⟨i1, i2⟩ hf hb
          have hfin := finalize_inside (o := o) (env := env) (strategy := strategy) i2
          have hB := body_cont hb
          refine ⟨(loop_head i1 hf hb).1, body_keeps hF hlow hfin.x hb, ?_, ?_⟩
          · rw [hB.log.iters]; exact hfin.log
          · rw [hB.log.params]; exact hfin.params)
        fuel (enter o env s0 x0)
        ⟨enter_head o env strategy s0 x0 hz, enter_inside (strategy := strategy) hF hstart hz⟩
      obtain ⟨t, ⟨i1, i2⟩, hr⟩ := hl.1 s hs'
      have hfin := finalize_inside (o := o) (env := env) (strategy := strategy) i2
      rcases hr with hr | ⟨hf, hb⟩
      · rw [hr]; exact ⟨hfin.log, hfin.params⟩
      · have hinv : (finalize o env strategy t).1.numInvalid =
            trailingInvalid (finalize o env strategy t).1.iters := by
          rw [finalize_true i1 hf]
          exact (recordStep_push strategy i1).2.2.2.2.2.2.2.2.2.2.2.2.2.2.2.1
        obtain ⟨e1, e2⟩ := body_stop_fields (x0 := x0) hinv hb
        rw [e1, e2]
        exact ⟨hfin.log, hfin.params⟩
    · rw [if_neg hz] at hs'
      simp only [Outcome.done.injEq] at hs'
      subst hs'
      obtain ⟨z1, z2, -⟩ := iterationZero_spec o env strategy s0 x0
      exact ⟨by rw [z1]; simp, Or.inl z2⟩
  refine ⟨main.1, main.2, ?_, ?_⟩
  · intro h0
    rcases main.2 with h | h
    · rw [h]; exact h0
    · exact h
  · intro hbig hne hfuel
    rcases minimize_returns_best o env strategy s0 x0 fuel hbig s hs hfuel with
      ⟨h, -⟩ | ⟨⟨c, -, ⟨it, hit, -, hpt, -⟩, -⟩, -⟩
    · exact absurd h hne
    · rw [← hpt]; exact main.1 it hit

end Ceres.Feasible
