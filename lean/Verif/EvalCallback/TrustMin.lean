import Verif.EvalCallback.Search

/-!
# The trust region minimizer: what it asks, and that it computes what `TrustRegion.minimize` computes
-/
namespace Ceres.EvalCallback

open LineSearch (Ext Sample Opts Summary)
open TrustRegion (Env Strategy StepOut Iter CB St Next Outcome Evaluator)

variable {S X D K J V : Type} [Field K] [LinearOrder K]

/-! ### Same results as in `TrustRegion.Model` -/

/-- The derivatives at a point, with the answers given by `f`. -/
def derivatives (f : X → Bool → TRAnswer K J) (j0 : J) (x : X) : J :=
  match f x true with
  | some (_, j) => j
  | none => j0

/-- The environment of `TrustRegion.Model` with the answers given by `f`. -/
def Parts.answered (P : Parts S X D K J V) (f : X → Bool → TRAnswer K J) (j0 : J) : Env X D K where
  plus := P.plus
  plusFail := P.plusFail
  zero := P.zero
  cost x := (f x false).map Prod.fst
  jac x := (f x true).map Prod.fst
  gradNorms x := P.gradNorms (derivatives f j0 x) x
  modelChange x := P.modelChange (derivatives f j0 x) x
  unscale := P.unscale
  lineSearch x c d := scaleStep P d (LineSearch.armijo P.mp P.lsOpts ((P.fn x d).answered f) 1 c
    (P.slope (derivatives f j0 x) d))
  inner := none
  norm := P.norm
  dist := P.dist
  callback := P.callback
  time := P.time

/-- The strategy of `TrustRegion.Model` with the answers given by `f`. -/
def Parts.answeredStrategy (P : Parts S X D K J V) (f : X → Bool → TRAnswer K J) (j0 : J) :
    Strategy S X D K where
  compute s x := P.compute (derivatives f j0 x) s x
  accepted := P.accepted
  rejected := P.rejected
  invalid := P.invalid
  radius := P.radius

section Run

variable (o : TrustRegion.Opts K) (P : Parts S X D K J V) (f : X → Bool → TRAnswer K J) (j0 : J)

theorem evalGradJac_run (isNew : Bool) (j : J) (s : St S X D K) :
    ∃ j', (evalGradJac o P isNew j s).run (fun q => f q.point q.jacobians) =
        (TrustRegion.evalGradJac o (P.answered f j0) s, j') ∧
      ((TrustRegion.evalGradJac o (P.answered f j0) s).2 = true →
        j' = derivatives f j0 (TrustRegion.evalGradJac o (P.answered f j0) s).1.x) ∧
      (TrustRegion.evalGradJac o (P.answered f j0) s).1.x = s.x := by
  unfold evalGradJac TrustRegion.evalGradJac
  simp only [Prog.run, Parts.answered, derivatives]
  cases hf : f s.x true with
  | none => exact ⟨j, rfl, by simp, rfl⟩
  | some a =>
    obtain ⟨c, j'⟩ := a
    simp only [Option.map_some]
    cases hg : P.gradNorms j' s.x with
    | none => exact ⟨j', rfl, by simp, rfl⟩
    | some g =>
      obtain ⟨gm, gn⟩ := g
      exact ⟨j', rfl, fun _ => by simp only [hf], rfl⟩

theorem doLineSearch_run (j : J) (s : St S X D K) (hj : j = derivatives f j0 s.x) :
    (doLineSearch o P j s).run (fun q => f q.point q.jacobians) =
      TrustRegion.doLineSearch o (P.answered f j0) s := by
  unfold doLineSearch TrustRegion.doLineSearch
  by_cases h : o.constrained = true ∧ o.lineSearchOn = true
  · rw [if_pos h, if_pos h, Prog.run_bind, armijo_run, hj]; rfl
  · rw [if_neg h, if_neg h]; rfl

theorem computeCandidate_run (s : St S X D K) :
    (computeCandidate o P s).run (fun q => f q.point q.jacobians) =
      TrustRegion.computeCandidate o (P.answered f j0) s := by
  unfold computeCandidate TrustRegion.computeCandidate
  simp only [Parts.answered]
  cases P.plus s.x s.delta with
  | none => rfl
  | some y =>
    simp only [Prog.run]
    cases f y false with
    | none => rfl
    | some a => rfl

theorem computeTrustRegionStep_eq (j : J) (s : St S X D K) (hj : j = derivatives f j0 s.x) :
    TrustRegion.computeTrustRegionStep (P.env j) (P.strategy j) s =
      TrustRegion.computeTrustRegionStep (P.answered f j0) (P.answeredStrategy f j0) s := by
  subst hj
  rfl

end Run

theorem computeTrustRegionStep_x (env : Env X D K) (strategy : Strategy S X D K)
    (s : St S X D K) : (TrustRegion.computeTrustRegionStep env strategy s).1.x = s.x := by
  unfold TrustRegion.computeTrustRegionStep
  split
  · rfl
  · rfl
  · split <;> rfl

theorem doLineSearch_x (o : TrustRegion.Opts K) (env : Env X D K) (s : St S X D K) :
    (TrustRegion.doLineSearch o env s).x = s.x := by
  unfold TrustRegion.doLineSearch
  split <;> rfl

theorem computeCandidate_x (o : TrustRegion.Opts K) (env : Env X D K) (s : St S X D K) :
    (TrustRegion.computeCandidate o env s).x = s.x := by
  unfold TrustRegion.computeCandidate
  split
  · rfl
  · split <;> rfl

theorem doInnerIterations_none (o : TrustRegion.Opts K) {env : Env X D K} (h : env.inner = none)
    (s : St S X D K) :
    TrustRegion.doInnerIterations o env s = { s with innerUseful := false } := by
  unfold TrustRegion.doInnerIterations
  rw [h]
  split <;> rfl

theorem handleInvalidStep_x (o : TrustRegion.Opts K) (strategy : Strategy S X D K) (m n : K)
    (s : St S X D K) : (TrustRegion.handleInvalidStep o strategy m n s).1.x = s.x := by
  unfold TrustRegion.handleInvalidStep
  split <;> rfl

theorem finalize_x (o : TrustRegion.Opts K) (env : Env X D K) (strategy : Strategy S X D K)
    (s : St S X D K) : (TrustRegion.finalize o env strategy s).1.x = s.x := by
  unfold TrustRegion.finalize TrustRegion.checkContinue TrustRegion.pushIter TrustRegion.recordStep
  split
  · split
    · split <;> rfl
    · rfl
  · split
    · split <;> rfl
    · rfl
  · have key : ∀ t : St S X D K, t.x = s.x →
        (if ¬ env.time t.iters.length < o.maxTime then
            (({ t with term := .noConvergence } : St S X D K), false)
          else if ¬ t.cur.iteration < o.maxIter then ({ t with term := .noConvergence }, false)
          else if t.cur.stepSuccessful ∧ ¬ o.gradTol < t.cur.gradMax then
            ({ t with term := .convergence }, false)
          else if ¬ o.minRadius < t.cur.radius then ({ t with term := .convergence }, false)
          else (t, true)).1.x = s.x := by
      intro t ht
      split
      · exact ht
      · split
        · exact ht
        · split
          · exact ht
          · split
            · exact ht
            · exact ht
    apply key
    split
    · split <;> rfl
    · rfl

section Run

variable (o : TrustRegion.Opts K) (P : Parts S X D K J V) (f : X → Bool → TRAnswer K J) (j0 : J)

/-- The outcomes agree, and if the minimizer goes on then `j'` holds the derivatives at the
current point. -/
def Agree (p : Next S X D K × J) (n : Next S X D K) : Prop :=
  p.1 = n ∧ ∀ s', n = .cont s' → p.2 = derivatives f j0 s'.x

theorem handleSuccessfulStep_run (j : J) (s : St S X D K) :
    Agree f j0 ((handleSuccessfulStep o P j s).run (fun q => f q.point q.jacobians))
      (TrustRegion.handleSuccessfulStep o (P.answered f j0) (P.answeredStrategy f j0) s) := by
  unfold handleSuccessfulStep TrustRegion.handleSuccessfulStep
  rw [Prog.run_bind]
  obtain ⟨j', h1, h2, _⟩ := evalGradJac_run o P f j0 false j { s with
    anySucc := true
    x := s.candX }
  rw [h1]
  simp only
  generalize TrustRegion.evalGradJac o (P.answered f j0) { s with
    anySucc := true
    x := s.candX } = t at h2 ⊢
  by_cases ht : t.2 = true
  · rw [if_pos ht, if_pos ht]
    simp only [Parts.answeredStrategy]
    cases P.accepted t.1.strat t.1.cur.relDecrease with
    | none => exact ⟨rfl, by simp⟩
    | some st => exact ⟨rfl, fun s' hs' => by cases hs'; exact h2 ht⟩
  · rw [if_neg ht, if_neg ht]
    exact ⟨rfl, by simp⟩

theorem judge_run (j : J) (m n : K) (s : St S X D K) (hj : j = derivatives f j0 s.x) :
    Agree f j0 ((judge o P j m n s).run (fun q => f q.point q.jacobians))
      (TrustRegion.judge o (P.answered f j0) (P.answeredStrategy f j0) m n s) := by
  unfold judge TrustRegion.judge
  have hpt : TrustRegion.parameterToleranceReached o (P.env j) s =
      TrustRegion.parameterToleranceReached o (P.answered f j0) s := rfl
  rw [hpt]
  by_cases h1 : s.anySucc = true ∧
      (TrustRegion.parameterToleranceReached o (P.answered f j0) s).2 = true
  · rw [if_pos h1, if_pos h1]; exact ⟨rfl, by simp⟩
  rw [if_neg h1, if_neg h1]
  have hx : ∀ b : Bool,
      (if b = true then (TrustRegion.parameterToleranceReached o (P.answered f j0) s).1
        else s).x = s.x := by
    intro b
    unfold TrustRegion.parameterToleranceReached
    split
    · split <;> rfl
    · rfl
  have hx := hx s.anySucc
  generalize (if s.anySucc = true then
    (TrustRegion.parameterToleranceReached o (P.answered f j0) s).1 else s) = s1 at hx
  simp only
  by_cases h2 : (TrustRegion.functionToleranceReached o s1).2 = true
  · rw [if_pos h2, if_pos h2]; exact ⟨rfl, by simp⟩
  rw [if_neg h2, if_neg h2]
  have hx2 : (TrustRegion.functionToleranceReached o s1).1.x = s1.x := by
    unfold TrustRegion.functionToleranceReached
    split <;> rfl
  by_cases h3 : (TrustRegion.isStepSuccessful o
      (TrustRegion.functionToleranceReached o s1).1).2 = true
  · rw [if_pos h3, if_pos h3]
    exact handleSuccessfulStep_run o P f j0 j _
  · rw [if_neg h3, if_neg h3]
    refine ⟨rfl, fun s' hs' => ?_⟩
    cases hs'
    have : (TrustRegion.handleUnsuccessfulStep o (P.answeredStrategy f j0) m n
        (TrustRegion.isStepSuccessful o (TrustRegion.functionToleranceReached o s1).1).1).x =
        (TrustRegion.functionToleranceReached o s1).1.x := rfl
    rw [this, hx2, hx]
    exact hj

theorem body_run (j : J) (s : St S X D K) (hj : j = derivatives f j0 s.x) :
    Agree f j0 ((body o P j s).run (fun q => f q.point q.jacobians))
      (TrustRegion.body o (P.answered f j0) (P.answeredStrategy f j0) s) := by
  unfold body TrustRegion.body
  have ht : TrustRegion.computeTrustRegionStep (P.env j) (P.strategy j)
      { s with cur := TrustRegion.freshIter (s.cur.iteration + 1) s.x } =
    TrustRegion.computeTrustRegionStep (P.answered f j0) (P.answeredStrategy f j0)
      { s with cur := TrustRegion.freshIter (s.cur.iteration + 1) s.x } :=
    computeTrustRegionStep_eq P f j0 j _ hj
  have htx := computeTrustRegionStep_x (P.answered f j0) (P.answeredStrategy f j0)
      { s with cur := TrustRegion.freshIter (s.cur.iteration + 1) s.x }
  rw [ht]
  generalize TrustRegion.computeTrustRegionStep (P.answered f j0) (P.answeredStrategy f j0)
      { s with cur := TrustRegion.freshIter (s.cur.iteration + 1) s.x } = t at htx
  simp only
  have htx : t.1.x = s.x := htx
  by_cases h1 : t.2 = true
  · rw [if_pos h1, if_pos h1]
    by_cases h2 : t.1.cur.stepValid = true
    · rw [if_pos h2, if_pos h2, Prog.run_bind, doLineSearch_run o P f j0 j _ (by rw [htx]; exact hj),
        Prog.run_bind, computeCandidate_run o P f j0]
      rw [doInnerIterations_none o (env := P.env j) rfl,
        doInnerIterations_none o (env := P.answered f j0) rfl]
      refine judge_run o P f j0 j _ _ _ ?_
      simp only
      rw [computeCandidate_x, doLineSearch_x, htx]
      exact hj
    · rw [if_neg h2, if_neg h2]
      have hh : TrustRegion.handleInvalidStep o (P.strategy j) s.cur.gradMax s.cur.gradNorm t.1 =
          TrustRegion.handleInvalidStep o (P.answeredStrategy f j0) s.cur.gradMax s.cur.gradNorm
            t.1 := rfl
      have hhx := handleInvalidStep_x o (P.answeredStrategy f j0) s.cur.gradMax s.cur.gradNorm t.1
      rw [hh]
      generalize TrustRegion.handleInvalidStep o (P.answeredStrategy f j0) s.cur.gradMax
        s.cur.gradNorm t.1 = u at hhx
      by_cases h3 : u.2 = true
      · rw [if_pos h3, if_pos h3]
        exact ⟨rfl, fun s' hs' => by cases hs'; rw [hhx, htx]; exact hj⟩
      · rw [if_neg h3, if_neg h3]
        exact ⟨rfl, by simp⟩
  · rw [if_neg h1, if_neg h1]
    exact ⟨rfl, by simp⟩

theorem loop_run (fuel : ℕ) (j : J) (s : St S X D K) (hj : j = derivatives f j0 s.x) :
    (loop o P fuel j s).run (fun q => f q.point q.jacobians) =
      TrustRegion.loop o (P.answered f j0) (P.answeredStrategy f j0) fuel s := by
  induction fuel generalizing j s with
  | zero => rfl
  | succ fuel ih =>
    rw [loop, TrustRegion.loop]
    have hf : TrustRegion.finalize o (P.env j) (P.strategy j) s =
        TrustRegion.finalize o (P.answered f j0) (P.answeredStrategy f j0) s := rfl
    have hfx := finalize_x o (P.answered f j0) (P.answeredStrategy f j0) s
    rw [hf]
    by_cases h1 : (TrustRegion.finalize o (P.answered f j0) (P.answeredStrategy f j0) s).2 = true
    · rw [if_pos h1, if_pos h1, Prog.run_bind]
      obtain ⟨hb1, hb2⟩ := body_run o P f j0 j
        (TrustRegion.finalize o (P.answered f j0) (P.answeredStrategy f j0) s).1
        (by rw [hfx]; exact hj)
      generalize (body o P j
        (TrustRegion.finalize o (P.answered f j0) (P.answeredStrategy f j0) s).1).run
          (fun q => f q.point q.jacobians) = p at hb1 hb2
      obtain ⟨n, j'⟩ := p
      rw [← hb1]
      rw [← hb1] at hb2
      cases n with
      | cont s' => exact ih j' s' (hb2 s' rfl)
      | stop s' => rfl
      | abort => rfl
    · rw [if_neg h1, if_neg h1]; rfl

theorem iterationZero_run (s : St S X D K) :
    ∃ j', (iterationZero o P j0 s).run (fun q => f q.point q.jacobians) =
        (TrustRegion.iterationZero o (P.answered f j0) s, j') ∧
      ((TrustRegion.iterationZero o (P.answered f j0) s).2 = true →
        j' = derivatives f j0 (TrustRegion.iterationZero o (P.answered f j0) s).1.x) := by
  unfold iterationZero TrustRegion.iterationZero
  have hp : TrustRegion.projectInitial o (P.env j0) s =
      TrustRegion.projectInitial o (P.answered f j0) s := rfl
  rw [hp]
  generalize TrustRegion.projectInitial o (P.answered f j0) s = p
  by_cases h1 : p.2 = true
  · rw [if_pos h1, if_pos h1, Prog.run_bind]
    obtain ⟨j', e1, e2, _⟩ := evalGradJac_run o P f j0 true j0 p.1
    rw [e1]
    simp only
    by_cases h2 : (TrustRegion.evalGradJac o (P.answered f j0) p.1).2 = true
    · rw [if_pos h2, if_pos h2]
      exact ⟨j', rfl, fun _ => e2 h2⟩
    · rw [if_neg h2, if_neg h2]
      exact ⟨j', rfl, fun h => absurd h h2⟩
  · rw [if_neg h1, if_neg h1]
    exact ⟨j0, rfl, fun h => absurd h h1⟩

/-- With the answers given by a function, the trust region minimizer computes what
`TrustRegion.minimize` computes. -/
theorem minimize_run (s0 : S) (x0 : X) (fuel : ℕ) :
    (minimize o P s0 x0 j0 fuel).run (fun q => f q.point q.jacobians) =
      TrustRegion.minimize o (P.answered f j0) (P.answeredStrategy f j0) s0 x0 fuel := by
  unfold minimize TrustRegion.minimize
  rw [Prog.run_bind]
  have hi : TrustRegion.init o (P.env j0) s0 x0 = TrustRegion.init o (P.answered f j0) s0 x0 := rfl
  rw [hi]
  obtain ⟨j', e1, e2⟩ := iterationZero_run o P f j0 (TrustRegion.init o (P.answered f j0) s0 x0)
  rw [e1]
  simp only
  by_cases h1 : (TrustRegion.iterationZero o (P.answered f j0)
      (TrustRegion.init o (P.answered f j0) s0 x0)).2 = true
  · rw [if_pos h1, if_pos h1]
    exact loop_run o P f j0 fuel j' _ (e2 h1)
  · rw [if_neg h1, if_neg h1]; rfl

end Run

end Ceres.EvalCallback
