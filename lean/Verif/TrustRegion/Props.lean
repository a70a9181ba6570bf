import Verif.TrustRegion.Evaluator
import Mathlib.Data.List.Basic
import Mathlib.Data.List.Range

/-!
# C11 and C12: the trust region minimizer
-/
namespace Ceres.TrustRegion

variable {K : Type} [Field K] [LinearOrder K] {S X D : Type}

/-! ### Frame conditions -/

/-- The parts of the state that only `finalize` changes. -/
structure SameLog (s t : St S X D K) : Prop where
  minCost : t.minCost = s.minCost
  params : t.params = s.params
  iters : t.iters = s.iters
  numSucc : t.numSucc = s.numSucc
  numUnsucc : t.numUnsucc = s.numUnsucc
  initialCost : t.initialCost = s.initialCost

theorem SameLog.refl (s : St S X D K) : SameLog s s := ⟨rfl, rfl, rfl, rfl, rfl, rfl⟩

theorem SameLog.trans {s t u : St S X D K} (h : SameLog s t) (h' : SameLog t u) : SameLog s u :=
  ⟨h'.1.trans h.1, h'.2.trans h.2, h'.3.trans h.3, h'.4.trans h.4, h'.5.trans h.5,
    h'.6.trans h.6⟩

/-- Nothing but the candidate, the step and the inner-iteration flags changed. -/
structure SameMain (s t : St S X D K) : Prop extends SameLog s t where
  x : t.x = s.x
  xCost : t.xCost = s.xCost
  numInvalid : t.numInvalid = s.numInvalid
  strat : t.strat = s.strat
  ev : t.ev = s.ev
  cur : t.cur = s.cur
  anySucc : t.anySucc = s.anySucc
  term : t.term = s.term

theorem SameMain.trans {s t u : St S X D K} (h : SameMain s t) (h' : SameMain t u) :
    SameMain s u :=
  ⟨h.toSameLog.trans h'.toSameLog, h'.2.trans h.2, h'.3.trans h.3, h'.4.trans h.4,
    h'.5.trans h.5, h'.6.trans h.6, h'.7.trans h.7, h'.8.trans h.8, h'.9.trans h.9⟩

theorem doLineSearch_same (o : Opts K) (env : Env X D K) (s : St S X D K) :
    SameMain s (doLineSearch o env s) := by
  unfold doLineSearch
  split <;> exact ⟨⟨rfl, rfl, rfl, rfl, rfl, rfl⟩, rfl, rfl, rfl, rfl, rfl, rfl, rfl, rfl⟩

theorem computeCandidate_same (o : Opts K) (env : Env X D K) (s : St S X D K) :
    SameMain s (computeCandidate o env s) := by
  unfold computeCandidate
  split
  · exact ⟨⟨rfl, rfl, rfl, rfl, rfl, rfl⟩, rfl, rfl, rfl, rfl, rfl, rfl, rfl, rfl⟩
  · split <;> exact ⟨⟨rfl, rfl, rfl, rfl, rfl, rfl⟩, rfl, rfl, rfl, rfl, rfl, rfl, rfl, rfl⟩

theorem doInnerIterations_same (o : Opts K) (env : Env X D K) (s : St S X D K) :
    SameMain s (doInnerIterations o env s) := by
  unfold doInnerIterations
  split
  · exact ⟨⟨rfl, rfl, rfl, rfl, rfl, rfl⟩, rfl, rfl, rfl, rfl, rfl, rfl, rfl, rfl⟩
  · split
    · exact ⟨⟨rfl, rfl, rfl, rfl, rfl, rfl⟩, rfl, rfl, rfl, rfl, rfl, rfl, rfl, rfl⟩
    · split <;> exact ⟨⟨rfl, rfl, rfl, rfl, rfl, rfl⟩, rfl, rfl, rfl, rfl, rfl, rfl, rfl, rfl⟩

/-- The state handed to `judge`. -/
def candidateState (o : Opts K) (env : Env X D K) (s : St S X D K) : St S X D K :=
  doInnerIterations o env (computeCandidate o env (doLineSearch o env s))

theorem candidateState_same (o : Opts K) (env : Env X D K) (s : St S X D K) :
    SameMain s (candidateState o env s) :=
  ((doLineSearch_same o env s).trans (computeCandidate_same o env _)).trans
    (doInnerIterations_same o env _)

theorem evalGradJac_spec (o : Opts K) (env : Env X D K) (s : St S X D K) :
    SameLog s (evalGradJac o env s).1 ∧ (evalGradJac o env s).1.x = s.x ∧
    (evalGradJac o env s).1.cur.iteration = s.cur.iteration ∧
    (evalGradJac o env s).1.cur.stepValid = s.cur.stepValid ∧
    (evalGradJac o env s).1.cur.stepSuccessful = s.cur.stepSuccessful ∧
    (evalGradJac o env s).1.cur.relDecrease = s.cur.relDecrease ∧
    (evalGradJac o env s).1.numInvalid = s.numInvalid ∧
    (evalGradJac o env s).1.ev = s.ev ∧
    (evalGradJac o env s).1.strat = s.strat ∧
    (evalGradJac o env s).1.candCost = s.candCost ∧
    (evalGradJac o env s).1.candX = s.candX ∧
    (evalGradJac o env s).1.modelChange = s.modelChange ∧
    (evalGradJac o env s).1.innerOn = s.innerOn ∧
    (evalGradJac o env s).1.anySucc = s.anySucc ∧
    ((evalGradJac o env s).2 = true →
      env.jac s.x = some (evalGradJac o env s).1.xCost ∧
      (evalGradJac o env s).1.cur.cost = (evalGradJac o env s).1.xCost + o.fixedCost ∧
      env.gradNorms s.x = some ((evalGradJac o env s).1.cur.gradMax,
        (evalGradJac o env s).1.cur.gradNorm) ∧
      (evalGradJac o env s).1.term = s.term) ∧
    ((evalGradJac o env s).2 = false → (evalGradJac o env s).1.term = .failure ∧
      (env.jac s.x = none ∨ env.gradNorms s.x = none)) := by
  unfold evalGradJac
  split
  · rename_i h
    exact ⟨⟨rfl, rfl, rfl, rfl, rfl, rfl⟩, rfl, rfl, rfl, rfl, rfl, rfl, rfl, rfl, rfl, rfl, rfl,
      rfl, rfl, by simp, fun _ => ⟨rfl, Or.inl h⟩⟩
  · rename_i c h
    split
    · rename_i h'
      exact ⟨⟨rfl, rfl, rfl, rfl, rfl, rfl⟩, rfl, rfl, rfl, rfl, rfl, rfl, rfl, rfl, rfl, rfl, rfl,
        rfl, rfl, by simp, fun _ => ⟨rfl, Or.inr h'⟩⟩
    · rename_i gm gn h'
      exact ⟨⟨rfl, rfl, rfl, rfl, rfl, rfl⟩, rfl, rfl, rfl, rfl, rfl, rfl, rfl, rfl, rfl, rfl, rfl,
        rfl, rfl, fun _ => ⟨h, rfl, h', rfl⟩, by simp⟩

/-! ### The reasons for stopping -/

/-- Number of consecutive iterations at the end of a log whose step was invalid. -/
def trailingInvalid (l : List (Iter X K)) : Nat :=
  (l.reverse.takeWhile (fun it => !it.stepValid)).length

/-- The verdict of a finished run is justified (specification of C12). -/
def Justified (o : Opts K) (env : Env X D K) (strategy : Strategy S X D K) (x0 : X)
    (s : St S X D K) : Prop :=
  match s.term with
  | .convergence =>
    (∃ last, s.iters.getLast? = some last ∧
      ((last.stepSuccessful = true ∧ last.gradMax ≤ o.gradTol) ∨ last.radius ≤ o.minRadius)) ∨
    (s.anySucc = true ∧ env.dist s.x s.candX ≤ o.paramTol * (env.norm s.x + o.paramTol)) ∨
    |s.xCost - s.candCost| ≤ o.funTol * s.xCost
  | .noConvergence =>
    o.maxTime ≤ env.time s.iters.length ∨
    ∃ last, s.iters.getLast? = some last ∧ o.maxIter ≤ last.iteration
  | .userSuccess => env.callback s.iters = .terminateSuccessfully
  | .userFailure => env.callback s.iters = .abort
  | .failure =>
    (o.constrained = true ∧ env.plus x0 env.zero = none) ∨
    env.jac s.x = none ∨ env.gradNorms s.x = none ∨
    (∃ st, (strategy.compute st s.x).2 = .fatal) ∨
    (o.maxInvalid ≤ trailingInvalid s.iters + 1 ∧
      ∃ st, ∀ d, (strategy.compute st s.x).2 = .step d → env.modelChange s.x d ≤ 0)

/-- What the loop body does (the state after `finalize` is `s`). -/
structure BodyCont (o : Opts K) (env : Env X D K) (s s' : St S X D K) : Prop where
  log : SameLog s s'
  iter : s'.cur.iteration = s.cur.iteration + 1
  cost : env.jac s.x = some s.xCost → env.jac s'.x = some s'.xCost
  succ : s'.cur.stepSuccessful = true → s'.cur.cost = s'.xCost + o.fixedCost ∧
    s'.cur.stepValid = true ∧
    env.gradNorms s'.x = some (s'.cur.gradMax, s'.cur.gradNorm)
  unsucc : s'.cur.stepSuccessful = false → s'.x = s.x ∧ s'.xCost = s.xCost ∧
    s'.cur.gradMax = s.cur.gradMax ∧ s'.cur.gradNorm = s.cur.gradNorm
  valid : s'.cur.stepValid = true → s'.numInvalid = 0
  invalid : s'.cur.stepValid = false → s'.numInvalid = s.numInvalid + 1 ∧
    s'.numInvalid < o.maxInvalid ∧ s'.cur.stepSuccessful = false

theorem computeStep_spec (env : Env X D K) (strategy : Strategy S X D K) (s : St S X D K) :
    let t := computeTrustRegionStep env strategy s
    SameLog s t.1 ∧ t.1.x = s.x ∧ t.1.xCost = s.xCost ∧
    t.1.cur.iteration = s.cur.iteration ∧ t.1.cur.stepSuccessful = s.cur.stepSuccessful ∧
    t.1.ev = s.ev ∧ t.1.anySucc = s.anySucc ∧ t.1.candX = s.candX ∧
    t.1.innerOn = s.innerOn ∧
    (t.2 = false → t.1.term = .failure ∧ ∃ st, (strategy.compute st s.x).2 = .fatal) ∧
    (t.2 = true → t.1.term = s.term) ∧
    (t.1.cur.stepValid = true → t.1.numInvalid = 0 ∧ 0 < t.1.modelChange) ∧
    (t.1.cur.stepValid = false → t.1.numInvalid = s.numInvalid ∧
      ∀ d, (strategy.compute s.strat s.x).2 = .step d → env.modelChange s.x d ≤ 0) := by
  intro t
  simp only [t]
  unfold computeTrustRegionStep
  split
  · rename_i st' h
    exact ⟨⟨rfl, rfl, rfl, rfl, rfl, rfl⟩, rfl, rfl, rfl, rfl, rfl, rfl, rfl, rfl,
      fun _ => ⟨rfl, s.strat, by rw [h]⟩, by simp, by simp, fun _ => ⟨rfl, by rw [h]; simp⟩⟩
  · rename_i st' h
    exact ⟨⟨rfl, rfl, rfl, rfl, rfl, rfl⟩, rfl, rfl, rfl, rfl, rfl, rfl, rfl, rfl, by simp,
      fun _ => rfl, by simp, fun _ => ⟨rfl, by rw [h]; simp⟩⟩
  · rename_i st' d h
    split
    · rename_i hpos
      exact ⟨⟨rfl, rfl, rfl, rfl, rfl, rfl⟩, rfl, rfl, rfl, rfl, rfl, rfl, rfl, rfl, by simp,
        fun _ => rfl, fun _ => ⟨rfl, hpos⟩, by simp⟩
    · rename_i hpos
      refine ⟨⟨rfl, rfl, rfl, rfl, rfl, rfl⟩, rfl, rfl, rfl, rfl, rfl, rfl, rfl, rfl, by simp,
        fun _ => rfl, by simp, fun _ => ⟨rfl, ?_⟩⟩
      rw [h]
      intro d' hd
      cases hd
      exact not_lt.1 hpos

theorem stepAccepted_congr {e e' : Evaluator K} {a a' b b' : K} (h1 : e = e') (h2 : a = a')
    (h3 : b = b') : e.stepAccepted a b = e'.stepAccepted a' b' := by
  subst h1 h2 h3; rfl

/-- What `judge` does. -/
theorem judge_cont {o : Opts K} {env : Env X D K} {strategy : Strategy S X D K} {pm pn : K}
    {s s' : St S X D K} (h : judge o env strategy pm pn s = .cont s') :
    SameLog s s' ∧ s'.cur.iteration = s.cur.iteration ∧ s'.cur.stepValid = s.cur.stepValid ∧
    s'.numInvalid = s.numInvalid ∧
    ((s'.cur.stepSuccessful = true ∧ s'.x = s.candX ∧ env.jac s'.x = some s'.xCost ∧
      s'.cur.cost = s'.xCost + o.fixedCost ∧
      env.gradNorms s'.x = some (s'.cur.gradMax, s'.cur.gradNorm) ∧
      s'.ev = s.ev.stepAccepted s.candCost s.modelChange ∧
      (s.innerUseful = true ∨
        o.minRelDecrease < s.ev.stepQuality o.big o.lowest s.candCost s.modelChange)) ∨
     (s'.cur.stepSuccessful = false ∧ s'.x = s.x ∧ s'.xCost = s.xCost ∧
      s'.cur.gradMax = pm ∧ s'.cur.gradNorm = pn ∧ s'.ev = s.ev ∧
      s'.cur.cost = s.candCost + o.fixedCost)) ∧
    s'.innerOn = s.innerOn := by
  unfold judge at h
  split at h
  · cases h
  · simp only at h
    have hs1 : ∃ s1, s1 = (if s.anySucc = true then (parameterToleranceReached o env s).1 else s) ∧
        (∃ n, s1 = { s with cur := { s.cur with stepNorm := n } }) := by
      refine ⟨_, rfl, ?_⟩
      split
      · rename_i hna hany
        have hp : (parameterToleranceReached o env s).2 = false := by
          simpa [hany] using hna
        unfold parameterToleranceReached at hp ⊢
        split at hp
        · rename_i hlt
          rw [if_pos hlt]
          exact ⟨_, rfl⟩
        · cases hp
      · exact ⟨s.cur.stepNorm, rfl⟩
    obtain ⟨s1, e1, n, hs1⟩ := hs1
    rw [← e1] at h
    split at h
    · cases h
    · rename_i hf
      have hfe : ∃ cc, (functionToleranceReached o s1).1 =
          { s with cur := { s.cur with
              stepNorm := n
              costChange := cc } } := by
        unfold functionToleranceReached at hf ⊢
        split at hf
        · rename_i hlt
          rw [if_pos hlt]
          exact ⟨_, by rw [hs1]⟩
        · exact absurd rfl hf
      obtain ⟨cc, hfe⟩ := hfe
      rw [hfe] at h
      by_cases hsucc : (isStepSuccessful o { s with cur := { s.cur with
              stepNorm := n
              costChange := cc } }).2 = true
      · rw [if_pos hsucc] at h
        unfold handleSuccessfulStep at h
        simp only at h
        split at h
        · rename_i hev
          have sp := evalGradJac_spec o env _ |>.2.2.2.2.2.2.2.2.2.2.2.2.2.2.1 hev
          have sp1 := evalGradJac_spec o env
            { x := s.candX, xCost := s.xCost, minCost := s.minCost, params := s.params,
              candX := s.candX, candCost := s.candCost, delta := s.delta,
              modelChange := s.modelChange, numInvalid := s.numInvalid, innerOn := s.innerOn,
              innerUseful := s.innerUseful, strat := s.strat, ev := s.ev,
              cur := { s.cur with
                costChange := cc
                stepNorm := n
                relDecrease := s.ev.stepQuality o.big o.lowest s.candCost s.modelChange },
              iters := s.iters, numSucc := s.numSucc, numUnsucc := s.numUnsucc,
              initialCost := s.initialCost, term := s.term, anySucc := true }
          obtain ⟨p1, p2, p3, p4, p5, p6, p7, p8, p9, p10, p11, p12, p13, p14, -, -⟩ := sp1
          split at h
          · cases h
          · simp only [Next.cont.injEq] at h
            subst h
            simp only
            refine ⟨⟨p1.1, p1.2, p1.3, p1.4, p1.5, p1.6⟩, p3, p4, p7, Or.inl ⟨trivial, p2, ?_,
              sp.2.1, ?_, ?_, ?_⟩, p13⟩
            · exact (congrArg env.jac p2).trans sp.1
            · exact (congrArg env.gradNorms p2).trans sp.2.2.1
            · exact stepAccepted_congr p8 p10 p12
            · simpa [Bool.or_eq_true, isStepSuccessful] using hsucc
        · cases h
      · rw [if_neg hsucc] at h
        simp only [Next.cont.injEq] at h
        subst h
        exact ⟨⟨rfl, rfl, rfl, rfl, rfl, rfl⟩, rfl, rfl, rfl, Or.inr ⟨rfl, rfl, rfl, rfl, rfl, rfl,
          rfl⟩, rfl⟩

theorem judge_stop {o : Opts K} {env : Env X D K} {strategy : Strategy S X D K} {pm pn : K}
    {x0 : X} {s s' : St S X D K} (h : judge o env strategy pm pn s = .stop s') :
    SameLog s s' ∧ Justified o env strategy x0 s' := by
  unfold judge at h
  split at h
  · rename_i hp
    simp only [Next.stop.injEq] at h
    subst h
    obtain ⟨hany, hp⟩ := hp
    unfold parameterToleranceReached at hp ⊢
    split at hp
    · cases hp
    · rename_i hlt
      rw [if_neg hlt]
      refine ⟨⟨rfl, rfl, rfl, rfl, rfl, rfl⟩, ?_⟩
      unfold Justified
      exact Or.inr (Or.inl ⟨hany, not_lt.1 hlt⟩)
  · simp only at h
    have hs1 : ∃ s1, s1 = (if s.anySucc = true then (parameterToleranceReached o env s).1 else s) ∧
        SameLog s s1 := by
      refine ⟨_, rfl, ?_⟩
      split
      · unfold parameterToleranceReached
        split <;> exact ⟨rfl, rfl, rfl, rfl, rfl, rfl⟩
      · exact SameLog.refl _
    obtain ⟨s1, e1, hs1⟩ := hs1
    rw [← e1] at h
    split at h
    · rename_i hf
      simp only [Next.stop.injEq] at h
      subst h
      unfold functionToleranceReached at hf ⊢
      split at hf
      · cases hf
      · rename_i hlt
        rw [if_neg hlt]
        refine ⟨hs1.trans ⟨rfl, rfl, rfl, rfl, rfl, rfl⟩, ?_⟩
        unfold Justified
        exact Or.inr (Or.inr (not_lt.1 hlt))
    · have h2 : SameLog s (functionToleranceReached o s1).1 := by
        refine hs1.trans ?_
        unfold functionToleranceReached
        split <;> exact ⟨rfl, rfl, rfl, rfl, rfl, rfl⟩
      split at h
      · unfold handleSuccessfulStep at h
        simp only at h
        split at h
        · split at h <;> cases h
        · rename_i hev
          simp only [Next.stop.injEq] at h
          subst h
          have sp := evalGradJac_spec o env
            { (isStepSuccessful o (functionToleranceReached o s1).1).1 with
              anySucc := true
              x := (isStepSuccessful o (functionToleranceReached o s1).1).1.candX }
          obtain ⟨hterm, hwhy⟩ := sp.2.2.2.2.2.2.2.2.2.2.2.2.2.2.2 (by simpa using hev)
          refine ⟨h2.trans ⟨sp.1.minCost, sp.1.params, sp.1.iters, sp.1.numSucc, sp.1.numUnsucc,
            sp.1.initialCost⟩, ?_⟩
          unfold Justified
          rw [hterm, sp.2.1]
          rcases hwhy with hw | hw
          · exact Or.inr (Or.inl hw)
          · exact Or.inr (Or.inr (Or.inl hw))
      · cases h

theorem body_cont {o : Opts K} {env : Env X D K} {strategy : Strategy S X D K}
    {s s' : St S X D K} (h : body o env strategy s = .cont s') : BodyCont o env s s' := by
  unfold body at h
  simp only at h
  have c := computeStep_spec env strategy { s with cur := freshIter (s.cur.iteration + 1) s.x }
  generalize computeTrustRegionStep env strategy
    { s with cur := freshIter (s.cur.iteration + 1) s.x } = t at h c
  obtain ⟨c1, c2, c3, c4, c5, c6, c7, c8, c9, c10, c11, c12, c13⟩ := c
  replace c1 : SameLog s t.1 := ⟨c1.1, c1.2, c1.3, c1.4, c1.5, c1.6⟩
  simp only [freshIter] at c2 c3 c4 c5 c6 c7 c8 c9 c13
  split at h
  · split at h
    · rename_i hv
      have same := candidateState_same o env t.1
      obtain ⟨j1, j2, j3, j4, j5, j6⟩ := judge_cont h
      change SameLog (candidateState o env t.1) s' at j1
      change s'.cur.iteration = (candidateState o env t.1).cur.iteration at j2
      change s'.cur.stepValid = (candidateState o env t.1).cur.stepValid at j3
      change s'.numInvalid = (candidateState o env t.1).numInvalid at j4
      refine ⟨(c1.trans same.toSameLog).trans j1, by rw [j2, same.cur, c4], ?_, ?_, ?_, ?_, ?_⟩
      · intro hx
        rcases j5 with ⟨-, -, h3, -⟩ | ⟨-, h2, h3, -⟩
        · exact h3
        · change s'.x = (candidateState o env t.1).x at h2
          change s'.xCost = (candidateState o env t.1).xCost at h3
          rw [h2, h3, same.x, same.xCost, c2, c3]; exact hx
      · intro hs
        rcases j5 with ⟨-, -, -, h3, h4, -⟩ | ⟨h3, -⟩
        · refine ⟨h3, ?_, h4⟩
          rw [j3, same.cur, hv]
        · rw [h3] at hs; cases hs
      · intro hs
        rcases j5 with ⟨h3, -⟩ | ⟨-, h2, h3, h4, h5, -⟩
        · rw [h3] at hs; cases hs
        · change s'.x = (candidateState o env t.1).x at h2
          change s'.xCost = (candidateState o env t.1).xCost at h3
          rw [h2, h3, same.x, same.xCost, c2, c3]
          exact ⟨rfl, rfl, h4, h5⟩
      · intro _
        rw [j4, same.numInvalid]
        exact (c12 hv).1
      · intro hi
        rw [j3, same.cur, hv] at hi
        cases hi
    · rename_i hv
      have hv' : t.1.cur.stepValid = false := by simpa using hv
      unfold handleInvalidStep at h
      by_cases hm : o.maxInvalid ≤ t.1.numInvalid + 1
      · rw [if_pos hm] at h
        simp at h
      · rw [if_neg hm] at h
        simp only [if_true, Next.cont.injEq] at h
        subst h
        refine ⟨⟨c1.1, c1.2, c1.3, c1.4, c1.5, c1.6⟩, c4, ?_, ?_, ?_, ?_, ?_⟩
        · simp only [c2, c3]; exact id
        · intro hs
          simp only at hs
          rw [c5] at hs
          cases hs
        · intro _; exact ⟨c2, c3, rfl, rfl⟩
        · intro hs
          simp only at hs
          rw [hv'] at hs; cases hs
        · intro _
          simp only
          rw [(c13 hv').1] at hm ⊢
          exact ⟨rfl, by omega, c5⟩
  · cases h

theorem body_stop {o : Opts K} {env : Env X D K} {strategy : Strategy S X D K} {x0 : X}
    {s s' : St S X D K} (hni : s.numInvalid = trailingInvalid s.iters)
    (h : body o env strategy s = .stop s') :
    SameLog s s' ∧ Justified o env strategy x0 s' := by
  unfold body at h
  simp only at h
  have c := computeStep_spec env strategy { s with cur := freshIter (s.cur.iteration + 1) s.x }
  generalize computeTrustRegionStep env strategy
    { s with cur := freshIter (s.cur.iteration + 1) s.x } = t at h c
  obtain ⟨c1, c2, c3, c4, c5, c6, c7, c8, c9, c10, c11, c12, c13⟩ := c
  replace c1 : SameLog s t.1 := ⟨c1.1, c1.2, c1.3, c1.4, c1.5, c1.6⟩
  split at h
  · split at h
    · obtain ⟨h1, h2⟩ := judge_stop (x0 := x0) h
      exact ⟨(c1.trans (candidateState_same o env t.1).toSameLog).trans h1, h2⟩
    · rename_i hv
      have hv' : t.1.cur.stepValid = false := by simpa using hv
      unfold handleInvalidStep at h
      by_cases hm : o.maxInvalid ≤ t.1.numInvalid + 1
      · rw [if_pos hm] at h
        simp only [Bool.false_eq_true, if_false, Next.stop.injEq] at h
        subst h
        refine ⟨⟨c1.1, c1.2, c1.3, c1.4, c1.5, c1.6⟩, ?_⟩
        unfold Justified
        refine Or.inr (Or.inr (Or.inr (Or.inr ⟨?_, s.strat, ?_⟩)))
        · simp only
          rw [c1.iters, ← hni, ← (c13 hv').1]
          exact hm
        · simp only [c2]
          exact (c13 hv').2
      · rw [if_neg hm] at h
        simp at h
  · rename_i hf
    simp only [Next.stop.injEq] at h
    subst h
    obtain ⟨h1, st, h2⟩ := c10 (by simpa using hf)
    refine ⟨c1, ?_⟩
    unfold Justified
    rw [h1]
    refine Or.inr (Or.inr (Or.inr (Or.inl ⟨st, ?_⟩)))
    rw [c2]
    exact h2

/-! ### The log invariant -/

/-- Facts about the recorded iterations. -/
structure LogInv (o : Opts K) (env : Env X D K) (x0 : X) (s : St S X D K) : Prop where
  num : s.iters.map Iter.iteration = List.range s.iters.length
  nsucc : s.numSucc = (s.iters.filter (fun it => it.stepSuccessful)).length
  nunsucc : s.numUnsucc = (s.iters.filter (fun it => !it.stepSuccessful)).length
  costs : ∀ it ∈ s.iters, it.stepSuccessful = true → ∃ c, env.jac it.point = some c ∧
    it.cost = c + o.fixedCost ∧ env.gradNorms it.point = some (it.gradMax, it.gradNorm)
  best : ∀ it ∈ s.iters, it.stepSuccessful = true → ∃ c, env.jac it.point = some c ∧
    s.minCost ≤ c
  wit : (s.params = x0 ∧ s.minCost = o.big) ∨ ∃ it ∈ s.iters, it.stepSuccessful = true ∧
    it.point = s.params ∧ env.jac s.params = some s.minCost
  first : ∀ it, s.iters.head? = some it → it.stepSuccessful = true ∧ it.cost = s.initialCost
  runs : ∀ p, p <+: s.iters → trailingInvalid p = 0 ∨ trailingInvalid p < o.maxInvalid

theorem LogInv.congr {o : Opts K} {env : Env X D K} {x0 : X} {s t : St S X D K}
    (h : LogInv o env x0 s) (e : SameLog s t) : LogInv o env x0 t := by
  obtain ⟨h1, h2, h3, h4, h5, h6, h7, h8⟩ := h
  refine ⟨?_, ?_, ?_, ?_, ?_, ?_, ?_, ?_⟩
  · rw [e.iters]; exact h1
  · rw [e.iters, e.numSucc]; exact h2
  · rw [e.iters, e.numUnsucc]; exact h3
  · rw [e.iters]; exact h4
  · rw [e.iters, e.minCost]; exact h5
  · rw [e.iters, e.minCost, e.params]; exact h6
  · rw [e.iters, e.initialCost]; exact h7
  · rw [e.iters]; exact h8

/-- Invariant at the head of the loop. -/
structure HeadInv (o : Opts K) (env : Env X D K) (x0 : X) (s : St S X D K) : Prop extends
    LogInv o env x0 s where
  iter : s.cur.iteration = s.iters.length
  le : s.iters.length ≤ o.maxIter
  cost : env.jac s.x = some s.xCost
  cur : s.cur.stepSuccessful = true → s.cur.cost = s.xCost + o.fixedCost ∧
    env.gradNorms s.x = some (s.cur.gradMax, s.cur.gradNorm)
  zero : s.iters = [] → s.cur.stepSuccessful = true ∧ s.cur.cost = s.initialCost
  inv : s.numInvalid = if s.cur.stepValid then 0 else trailingInvalid s.iters + 1
  invLt : s.cur.stepValid = false → s.numInvalid < o.maxInvalid

theorem trailingInvalid_concat (l : List (Iter X K)) (it : Iter X K) :
    trailingInvalid (l ++ [it]) = if it.stepValid then 0 else trailingInvalid l + 1 := by
  unfold trailingInvalid
  cases h : it.stepValid <;> simp [h]

theorem recordStep_push {o : Opts K} {env : Env X D K} {x0 : X} (strategy : Strategy S X D K)
    {s : St S X D K} (h : HeadInv o env x0 s) :
    let t := pushIter (recordStep strategy s)
    LogInv o env x0 t ∧ t.iters.getLast? = some t.cur ∧ t.cur.iteration = s.cur.iteration ∧
    t.iters.length = s.iters.length + 1 ∧ t.x = s.x ∧ t.xCost = s.xCost ∧
    t.cur.stepSuccessful = s.cur.stepSuccessful ∧ t.cur.gradMax = s.cur.gradMax ∧
    t.cur.stepValid = s.cur.stepValid ∧ t.numInvalid = s.numInvalid ∧
    t.iters = s.iters ++ [t.cur] ∧ t.ev = s.ev ∧ t.cur.cost = s.cur.cost ∧
    t.cur.point = s.x ∧ t.innerOn = s.innerOn ∧ t.numInvalid = trailingInvalid t.iters ∧
    t.initialCost = s.initialCost := by
  intro t
  have hnum : ∀ it : Iter X K, it.iteration = s.cur.iteration →
      (s.iters ++ [it]).map Iter.iteration = List.range (s.iters ++ [it]).length := by
    intro it hit
    simp [h.num, hit, h.iter, List.range_succ]
  have hfirst : ∀ it : Iter X K, it.stepSuccessful = s.cur.stepSuccessful →
      it.cost = s.cur.cost → ∀ it', (s.iters ++ [it]).head? = some it' →
      it'.stepSuccessful = true ∧ it'.cost = s.initialCost := by
    intro it h1 h2 it' h3
    cases hi : s.iters with
    | nil =>
      rw [hi] at h3
      simp only [List.nil_append, List.head?_cons, Option.some.injEq] at h3
      subst h3
      rw [h1, h2]
      exact h.zero hi
    | cons a l =>
      rw [hi] at h3
      simp only [List.cons_append, List.head?_cons, Option.some.injEq] at h3
      subst h3
      exact h.first a (by rw [hi]; rfl)
  have hruns : ∀ it : Iter X K, it.stepValid = s.cur.stepValid →
      trailingInvalid (s.iters ++ [it]) = s.numInvalid ∧
      ∀ p, p <+: s.iters ++ [it] → trailingInvalid p = 0 ∨ trailingInvalid p < o.maxInvalid := by
    intro it hv
    have h1 : trailingInvalid (s.iters ++ [it]) = s.numInvalid := by
      rw [trailingInvalid_concat, hv, h.inv]
    refine ⟨h1, ?_⟩
    intro p hp
    rcases List.prefix_concat_iff.1 hp with rfl | hp
    · rw [h1]
      cases hb : s.cur.stepValid with
      | true => left; rw [h.inv, hb, if_pos rfl]
      | false => right; exact h.invLt hb
    · exact h.runs p hp
  simp only [t]
  unfold recordStep pushIter
  by_cases hs : s.cur.stepSuccessful = true
  · obtain ⟨hc1, hc2⟩ := h.cur hs
    rw [if_pos hs]
    by_cases hlt : s.xCost < s.minCost
    · rw [if_pos hlt]
      refine ⟨⟨hnum _ rfl, ?_, ?_, ?_, ?_, ?_, hfirst _ rfl rfl, (hruns _ (by exact rfl)).2⟩, by simp, rfl,
        by simp, rfl, rfl, rfl, rfl, rfl, rfl, rfl, rfl, rfl, rfl, rfl, (hruns _ (by exact rfl)).1.symm, rfl⟩
      · simp [h.nsucc, hs, List.filter_append]
      · simp [h.nunsucc, hs, List.filter_append]
      · intro it hit hsi
        rcases List.mem_append.1 hit with hit | hit
        · exact h.costs it hit hsi
        · rw [List.mem_singleton.1 hit]
          exact ⟨s.xCost, h.cost, hc1, hc2⟩
      · intro it hit hsi
        rcases List.mem_append.1 hit with hit | hit
        · obtain ⟨c, h1, h2⟩ := h.best it hit hsi
          exact ⟨c, h1, le_trans (le_of_lt hlt) h2⟩
        · rw [List.mem_singleton.1 hit]
          exact ⟨s.xCost, h.cost, le_refl _⟩
      · right
        exact ⟨_, List.mem_append_right _ (List.mem_singleton.2 rfl), hs, rfl, h.cost⟩
    · rw [if_neg hlt]
      refine ⟨⟨hnum _ rfl, ?_, ?_, ?_, ?_, ?_, hfirst _ rfl rfl, (hruns _ (by exact rfl)).2⟩, by simp, rfl,
        by simp, rfl, rfl, rfl, rfl, rfl, rfl, rfl, rfl, rfl, rfl, rfl, (hruns _ (by exact rfl)).1.symm, rfl⟩
      · simp [h.nsucc, hs, List.filter_append]
      · simp [h.nunsucc, hs, List.filter_append]
      · intro it hit hsi
        rcases List.mem_append.1 hit with hit | hit
        · exact h.costs it hit hsi
        · rw [List.mem_singleton.1 hit]
          exact ⟨s.xCost, h.cost, hc1, hc2⟩
      · intro it hit hsi
        rcases List.mem_append.1 hit with hit | hit
        · exact h.best it hit hsi
        · rw [List.mem_singleton.1 hit]
          exact ⟨s.xCost, h.cost, not_lt.1 hlt⟩
      · rcases h.wit with hw | ⟨it, hit, hw⟩
        · left; exact hw
        · right; exact ⟨it, List.mem_append_left _ hit, hw⟩
  · rw [if_neg hs]
    refine ⟨⟨hnum _ rfl, ?_, ?_, ?_, ?_, ?_, hfirst _ rfl rfl, (hruns _ (by exact rfl)).2⟩, by simp, rfl,
      by simp, rfl, rfl, rfl, rfl, rfl, rfl, rfl, rfl, rfl, rfl, rfl, (hruns _ (by exact rfl)).1.symm, rfl⟩
    · simp [h.nsucc, hs, List.filter_append]
    · simp [h.nunsucc, hs, List.filter_append]
    · intro it hit hsi
      rcases List.mem_append.1 hit with hit | hit
      · exact h.costs it hit hsi
      · rw [List.mem_singleton.1 hit] at hsi
        exact absurd hsi hs
    · intro it hit hsi
      rcases List.mem_append.1 hit with hit | hit
      · exact h.best it hit hsi
      · rw [List.mem_singleton.1 hit] at hsi
        exact absurd hsi hs
    · rcases h.wit with hw | ⟨it, hit, hw⟩
      · left; exact hw
      · right; exact ⟨it, List.mem_append_left _ hit, hw⟩

theorem checkContinue_spec {o : Opts K} {env : Env X D K} {strategy : Strategy S X D K} {x0 : X}
    (s : St S X D K) (hlast : s.iters.getLast? = some s.cur) :
    ((checkContinue o env s).2 = true → (checkContinue o env s).1 = s ∧
      s.cur.iteration < o.maxIter) ∧
    ((checkContinue o env s).2 = false → SameLog s (checkContinue o env s).1 ∧
      Justified o env strategy x0 (checkContinue o env s).1) := by
  unfold checkContinue
  cases hcb : env.callback s.iters with
  | terminateSuccessfully =>
    simp only
    exact ⟨by simp, fun _ => ⟨⟨rfl, rfl, rfl, rfl, rfl, rfl⟩, by unfold Justified; exact hcb⟩⟩
  | abort =>
    simp only
    exact ⟨by simp, fun _ => ⟨⟨rfl, rfl, rfl, rfl, rfl, rfl⟩, by unfold Justified; exact hcb⟩⟩
  | «continue» =>
    simp only
    split
    · rename_i h
      exact ⟨by simp, fun _ => ⟨⟨rfl, rfl, rfl, rfl, rfl, rfl⟩, by
        unfold Justified; exact Or.inl (not_lt.1 h)⟩⟩
    · split
      · rename_i h
        exact ⟨by simp, fun _ => ⟨⟨rfl, rfl, rfl, rfl, rfl, rfl⟩, by
          unfold Justified; exact Or.inr ⟨s.cur, hlast, not_lt.1 h⟩⟩⟩
      · rename_i hit
        split
        · rename_i h
          exact ⟨by simp, fun _ => ⟨⟨rfl, rfl, rfl, rfl, rfl, rfl⟩, by
            unfold Justified
            exact Or.inl ⟨s.cur, hlast, Or.inl ⟨h.1, not_lt.1 h.2⟩⟩⟩⟩
        · split
          · rename_i h
            exact ⟨by simp, fun _ => ⟨⟨rfl, rfl, rfl, rfl, rfl, rfl⟩, by
              unfold Justified
              exact Or.inl ⟨s.cur, hlast, Or.inr (not_lt.1 h)⟩⟩⟩
          · exact ⟨fun _ => ⟨rfl, not_not.1 hit⟩, by simp⟩

theorem loop_head {o : Opts K} {env : Env X D K} {strategy : Strategy S X D K} {x0 : X}
    {s s' : St S X D K} (h : HeadInv o env x0 s) (hf : (finalize o env strategy s).2 = true)
    (hb : body o env strategy (finalize o env strategy s).1 = .cont s') :
    HeadInv o env x0 s' ∧ s'.iters.length = s.iters.length + 1 := by
  obtain ⟨p1, p2, p3, p4, p5, p6, p7, p8, -, p10, -, -, -, -, -, pinv, -⟩ :=
    recordStep_push strategy h
  have ck := (checkContinue_spec (o := o) (env := env) (strategy := strategy) (x0 := x0) _ p2).1 hf
  have hfe : (finalize o env strategy s).1 = pushIter (recordStep strategy s) := ck.1
  have hB := body_cont hb
  rw [hfe] at hB
  have hlen : s'.iters.length = s.iters.length + 1 := by rw [hB.log.iters, p4]
  refine ⟨⟨p1.congr hB.log, ?_, ?_, hB.cost (by rw [p5, p6]; exact h.cost), ?_, ?_, ?_, ?_⟩,
    hlen⟩
  · rw [hB.iter, p3, h.iter, hlen]
  · have := ck.2
    rw [p3, h.iter] at this
    omega
  · intro hs; exact ⟨(hB.succ hs).1, (hB.succ hs).2.2⟩
  · intro h0
    rw [h0] at hlen
    simp at hlen
  · cases hv : s'.cur.stepValid with
    | true => rw [if_pos rfl]; exact hB.valid hv
    | false => rw [(hB.invalid hv).1, pinv, hB.log.iters]; rfl
  · intro hv; exact (hB.invalid hv).2.1

theorem loop_spec {o : Opts K} {env : Env X D K} {strategy : Strategy S X D K} {x0 : X}
    (fuel : Nat) {s : St S X D K} (h : HeadInv o env x0 s)
    (hfuel : o.maxIter + 1 ≤ fuel + s.iters.length) :
    loop o env strategy fuel s ≠ .outOfFuel ∧
    ∀ s', loop o env strategy fuel s = .done s' → LogInv o env x0 s' ∧
      Justified o env strategy x0 s' ∧ s'.iters.length ≤ o.maxIter + 1 ∧ s'.iters ≠ [] := by
  induction fuel generalizing s with
  | zero =>
    have := h.le
    omega
  | succ fuel ih =>
    obtain ⟨p1, p2, p3, p4, -, -, -, -, -, -, -, -, -, -, -, pinv, -⟩ := recordStep_push strategy h
    have ck := checkContinue_spec (o := o) (env := env) (strategy := strategy) (x0 := x0) _ p2
    simp only [loop]
    by_cases hf : (finalize o env strategy s).2 = true
    · rw [if_pos hf]
      have hfe : (finalize o env strategy s).1 = pushIter (recordStep strategy s) := (ck.1 hf).1
      cases hb : body o env strategy (finalize o env strategy s).1 with
      | cont s' =>
        obtain ⟨h1, h2⟩ := loop_head h hf hb
        exact ih h1 (by omega)
      | stop s' =>
        refine ⟨by simp, ?_⟩
        intro s'' he
        simp only [Outcome.done.injEq] at he
        subst he
        obtain ⟨b1, b2⟩ := body_stop (x0 := x0) (by rw [hfe]; exact pinv) hb
        rw [hfe] at b1
        refine ⟨p1.congr b1, b2, ?_, ?_⟩
        · rw [b1.iters, p4]; have := h.le; omega
        · intro h0
          have := congrArg List.length h0
          rw [b1.iters, p4] at this
          simp at this
      | abort => exact ⟨by simp, by intro s' h; cases h⟩
    · rw [if_neg hf]
      refine ⟨by simp, ?_⟩
      intro s' he
      simp only [Outcome.done.injEq] at he
      subst he
      obtain ⟨b1, b2⟩ := ck.2 (by simpa [finalize] using hf)
      refine ⟨p1.congr b1, b2, ?_, ?_⟩
      · have : (finalize o env strategy s).1.iters = (pushIter (recordStep strategy s)).iters :=
          b1.iters
        rw [this, p4]; have := h.le; omega
      · intro h0
        have := congrArg List.length h0
        rw [show (finalize o env strategy s).1.iters = (pushIter (recordStep strategy s)).iters
          from b1.iters, p4] at this
        simp at this

/-! ### Iteration zero -/

/-- The point the solver starts from: the initial point, projected if there are bounds. -/
def startPoint (o : Opts K) (env : Env X D K) (x0 : X) : Option X :=
  if o.constrained then env.plus x0 env.zero else some x0

theorem iterationZero_spec (o : Opts K) (env : Env X D K) (strategy : Strategy S X D K)
    (s0 : S) (x0 : X) :
    let z := iterationZero o env (init o env s0 x0)
    z.1.iters = [] ∧ z.1.params = x0 ∧ z.1.minCost = o.big ∧ z.1.numSucc = 0 ∧
    z.1.numUnsucc = 0 ∧ z.1.numInvalid = 0 ∧
    (z.2 = true → startPoint o env x0 = some z.1.x ∧ env.jac z.1.x = some z.1.xCost ∧
      z.1.cur.iteration = 0 ∧ z.1.cur.stepSuccessful = true ∧ z.1.cur.stepValid = true ∧
      z.1.cur.cost = z.1.xCost + o.fixedCost ∧ z.1.initialCost = z.1.xCost + o.fixedCost ∧
      env.gradNorms z.1.x = some (z.1.cur.gradMax, z.1.cur.gradNorm) ∧
      z.1.innerOn = env.inner.isSome) ∧
    (z.2 = false → Justified o env strategy x0 z.1 ∧ z.1.term = .failure) := by
  intro z
  simp only [z]
  have hp : SameLog (init o env s0 x0) (projectInitial o env (init o env s0 x0)).1 ∧
      (projectInitial o env (init o env s0 x0)).1.cur = (init o env s0 x0).cur ∧
      (projectInitial o env (init o env s0 x0)).1.numInvalid = 0 ∧
      (projectInitial o env (init o env s0 x0)).1.innerOn = env.inner.isSome ∧
      ((projectInitial o env (init o env s0 x0)).2 = true →
        startPoint o env x0 = some (projectInitial o env (init o env s0 x0)).1.x) ∧
      ((projectInitial o env (init o env s0 x0)).2 = false →
        (o.constrained = true ∧ env.plus x0 env.zero = none) ∧
        (projectInitial o env (init o env s0 x0)).1.term = .failure) := by
    unfold projectInitial startPoint
    by_cases hc : o.constrained = true
    · rw [if_pos hc, if_pos hc]
      cases hpl : env.plus (init o env s0 x0).x env.zero with
      | none =>
        exact ⟨⟨rfl, rfl, rfl, rfl, rfl, rfl⟩, rfl, rfl, rfl, by simp, fun _ => ⟨⟨hc, hpl⟩, rfl⟩⟩
      | some y =>
        exact ⟨⟨rfl, rfl, rfl, rfl, rfl, rfl⟩, rfl, rfl, rfl, fun _ => hpl, by simp⟩
    · rw [if_neg hc, if_neg hc]
      exact ⟨⟨rfl, rfl, rfl, rfl, rfl, rfl⟩, rfl, rfl, rfl, fun _ => rfl, by simp⟩
  obtain ⟨q1, q2, q3, q4, q5, q6⟩ := hp
  unfold iterationZero
  by_cases h1 : (projectInitial o env (init o env s0 x0)).2 = true
  · rw [if_pos h1]
    have sp := evalGradJac_spec o env (projectInitial o env (init o env s0 x0)).1
    obtain ⟨e1, e2, e3, e4, e5, e6, e7, e8, e9, e10, e11, e12, e13, e14, e15, e16⟩ := sp
    have e := q1.trans e1
    by_cases h2 : (evalGradJac o env (projectInitial o env (init o env s0 x0)).1).2 = true
    · rw [if_pos h2]
      obtain ⟨g1, g2, g3, g4⟩ := e15 h2
      refine ⟨e.iters, e.params, e.minCost, e.numSucc, e.numUnsucc, by simp only [e7, q3], ?_,
        by simp⟩
      intro _
      simp only
      refine ⟨by rw [e2]; exact q5 h1, by rw [e2]; exact g1, by rw [e3, q2]; rfl, trivial, trivial,
        g2, trivial, by rw [e2]; exact g3, by rw [e13, q4]⟩
    · rw [if_neg h2]
      obtain ⟨g1, g2⟩ := e16 (by simpa using h2)
      refine ⟨e.iters, e.params, e.minCost, e.numSucc, e.numUnsucc, by rw [e7, q3],
        fun h => absurd h h2, fun _ => ⟨?_, g1⟩⟩
      unfold Justified
      rw [g1, e2]
      rcases g2 with g2 | g2
      · exact Or.inr (Or.inl g2)
      · exact Or.inr (Or.inr (Or.inl g2))
  · rw [if_neg h1]
    obtain ⟨g1, g2⟩ := q6 (by simpa using h1)
    refine ⟨q1.iters, q1.params, q1.minCost, q1.numSucc, q1.numUnsucc, q3,
      fun h => absurd h h1, fun _ => ⟨?_, g2⟩⟩
    unfold Justified
    rw [g2]
    exact Or.inl g1

/-- The state with which the loop is entered. -/
def enter (o : Opts K) (env : Env X D K) (s0 : S) (x0 : X) : St S X D K :=
  { (iterationZero o env (init o env s0 x0)).1 with
    ev := Evaluator.mk' (iterationZero o env (init o env s0 x0)).1.xCost
      (if o.nonmono then o.maxNonmono else 0) }

theorem enter_head (o : Opts K) (env : Env X D K) (strategy : Strategy S X D K) (s0 : S) (x0 : X)
    (h : (iterationZero o env (init o env s0 x0)).2 = true) :
    HeadInv o env x0 (enter o env s0 x0) := by
  obtain ⟨z1, z2, z3, z4, z5, z6, z7, -⟩ := iterationZero_spec o env strategy s0 x0
  obtain ⟨y1, y2, y3, y4, y5, y6, y7, y8, y9⟩ := z7 h
  unfold enter
  refine ⟨⟨?_, ?_, ?_, ?_, ?_, Or.inl ⟨z2, z3⟩, ?_, ?_⟩, ?_, ?_, y2, fun _ => ⟨y6, y8⟩,
    fun _ => ⟨y4, y6.trans y7.symm⟩, ?_, ?_⟩
  · simp [z1]
  · simp [z1, z4]
  · simp [z1, z5]
  · simp [z1]
  · simp [z1]
  · simp [z1]
  · intro p hp
    rw [show (iterationZero o env (init o env s0 x0)).1.iters = [] from z1] at hp
    rw [List.prefix_nil.1 hp]
    exact Or.inl rfl
  · simp [z1, y3]
  · simp [z1]
  · simp [y5, z6]
  · simp [y5]

/-! ### The theorems -/

/-- **C12 (termination and verdict).**  `Minimize` always terminates: `max_num_iterations + 1`
passes of the loop suffice.  When it returns, the verdict is justified in the sense of
`Justified`: CONVERGENCE only if a gradient, radius, parameter or function tolerance test holds,
NO_CONVERGENCE only if the time or iteration limit was reached, USER_* only if a callback said
so, FAILURE only after a failed projection or evaluation, a fatal strategy error or
`max_num_consecutive_invalid_steps` invalid steps.  The iterations recorded are numbered
0, 1, 2, ..., at most `max_num_iterations` follow iteration zero, and the counters of successful
and unsuccessful steps count them.  No `max_num_consecutive_invalid_steps` consecutive recorded
iterations are invalid. -/
theorem minimize_terminates_justified (o : Opts K) (env : Env X D K)
    (strategy : Strategy S X D K) (s0 : S) (x0 : X) (fuel : Nat) (hfuel : o.maxIter + 1 ≤ fuel) :
    minimize o env strategy s0 x0 fuel ≠ .outOfFuel ∧
    ∀ s, minimize o env strategy s0 x0 fuel = .done s →
      Justified o env strategy x0 s ∧
      s.iters.map Iter.iteration = List.range s.iters.length ∧
      s.iters.length ≤ o.maxIter + 1 ∧
      s.numSucc = (s.iters.filter (fun it => it.stepSuccessful)).length ∧
      s.numUnsucc = (s.iters.filter (fun it => !it.stepSuccessful)).length ∧
      s.numSucc + s.numUnsucc = s.iters.length ∧
      ∀ p, p <+: s.iters → trailingInvalid p = 0 ∨ trailingInvalid p < o.maxInvalid := by
  have hz := iterationZero_spec o env strategy s0 x0
  unfold minimize
  simp only
  by_cases h : (iterationZero o env (init o env s0 x0)).2 = true
  · rw [if_pos h]
    have hh := enter_head o env strategy s0 x0 h
    have hl := loop_spec (strategy := strategy) fuel hh (by omega)
    refine ⟨hl.1, ?_⟩
    intro s hs
    obtain ⟨l1, l2, l3, -⟩ := hl.2 s hs
    refine ⟨l2, l1.num, l3, l1.nsucc, l1.nunsucc, ?_, l1.runs⟩
    rw [l1.nsucc, l1.nunsucc]
    have : ∀ l : List (Iter X K), (l.filter (fun it => it.stepSuccessful)).length +
        (l.filter (fun it => !it.stepSuccessful)).length = l.length := by
      intro l
      induction l with
      | nil => rfl
      | cons a l ih => cases ha : a.stepSuccessful <;> simp [ha] <;> omega
    exact this _
  · rw [if_neg h]
    refine ⟨by simp, ?_⟩
    intro s hs
    simp only [Outcome.done.injEq] at hs
    subst hs
    obtain ⟨z1, z2, z3, z4, z5, z6, -, z8⟩ := hz
    refine ⟨(z8 (by simpa using h)).1, ?_, ?_, ?_, ?_, ?_, ?_⟩
    iterate 5 simp [z1, z4, z5]
    intro p hp
    rw [z1] at hp
    rw [List.prefix_nil.1 hp]
    exact Or.inl rfl

/-- **C11.**  Suppose no evaluation returns a cost of `DBL_MAX` or more.  If `Minimize` returns
having evaluated the initial point, the parameters it leaves in the user's array are a point at
which an iteration (the zeroth or an accepted one) ended, and no iteration's accepted point has
a lower cost; in particular the cost of the returned point does not exceed the cost of the
starting point.  If the initial evaluation failed the array is untouched. -/
theorem minimize_returns_best (o : Opts K) (env : Env X D K) (strategy : Strategy S X D K)
    (s0 : S) (x0 : X) (fuel : Nat) (hbig : ∀ x c, env.jac x = some c → c < o.big)
    (s : St S X D K) (hs : minimize o env strategy s0 x0 fuel = .done s)
    (hfuel : o.maxIter + 1 ≤ fuel) :
    (s.iters = [] ∧ s.params = x0 ∧ s.term = .failure) ∨
    ((∃ c, env.jac s.params = some c ∧
      (∃ it ∈ s.iters, it.stepSuccessful = true ∧ it.point = s.params ∧
        it.cost = c + o.fixedCost) ∧
      (∀ it ∈ s.iters, it.stepSuccessful = true → ∃ d, env.jac it.point = some d ∧
        it.cost = d + o.fixedCost ∧ c ≤ d)) ∧
     (∀ it, s.iters.head? = some it → it.stepSuccessful = true ∧ it.cost = s.initialCost)) := by
  have hz := iterationZero_spec o env strategy s0 x0
  unfold minimize at hs
  simp only at hs
  by_cases h : (iterationZero o env (init o env s0 x0)).2 = true
  · rw [if_pos h] at hs
    right
    have hl := loop_spec (strategy := strategy) fuel (enter_head o env strategy s0 x0 h) (by omega)
    obtain ⟨l1, l2, l3, l4⟩ := hl.2 s hs
    refine ⟨?_, l1.first⟩
    rcases l1.wit with ⟨-, hw⟩ | ⟨it, hit, hsi, hpt, hj⟩
    · exfalso
      obtain ⟨a, l, hal⟩ := List.exists_cons_of_ne_nil l4
      have h1 := (l1.first a (by rw [hal]; rfl)).1
      obtain ⟨c, hc, hle⟩ := l1.best a (by rw [hal]; exact List.mem_cons_self ..) h1
      rw [hw] at hle
      exact absurd (hbig _ _ hc) (not_lt.2 hle)
    · refine ⟨s.minCost, hj, ⟨it, hit, hsi, hpt, ?_⟩, ?_⟩
      · obtain ⟨c, h1, h2, -⟩ := l1.costs it hit hsi
        rw [hpt, hj, Option.some.injEq] at h1
        rw [h2, h1]
      · intro it' hit' hsi'
        obtain ⟨c, h1, h2, -⟩ := l1.costs it' hit' hsi'
        obtain ⟨c', h3, h4⟩ := l1.best it' hit' hsi'
        rw [h1, Option.some.injEq] at h3
        subst h3
        exact ⟨c, h1, h2, h4⟩
  · rw [if_neg h] at hs
    left
    simp only [Outcome.done.injEq] at hs
    subst hs
    obtain ⟨z1, z2, -, -, -, -, -, z8⟩ := hz
    exact ⟨z1, z2, (z8 (by simpa using h)).2⟩

theorem foldl_min_le (l : List (Iter X K)) (a : K) :
    l.foldl (fun acc it => min it.cost acc) a ≤ a ∧
    ∀ it ∈ l, l.foldl (fun acc it => min it.cost acc) a ≤ it.cost := by
  induction l generalizing a with
  | nil => simp
  | cons b l ih =>
    obtain ⟨h1, h2⟩ := ih (min b.cost a)
    constructor
    · exact le_trans h1 (min_le_right _ _)
    · intro it hit
      rcases List.mem_cons.1 hit with rfl | hit
      · exact le_trans h1 (min_le_left _ _)
      · exact h2 it hit

theorem le_foldl_min (l : List (Iter X K)) (a m : K) (ha : m ≤ a) (hl : ∀ it ∈ l, m ≤ it.cost) :
    m ≤ l.foldl (fun acc it => min it.cost acc) a := by
  induction l generalizing a with
  | nil => exact ha
  | cons b l ih =>
    exact ih (min b.cost a) (le_min (hl b (List.mem_cons_self ..)) ha)
      (fun it hit => hl it (List.mem_cons_of_mem _ hit))

/-- **C11 (reported cost), partial.**  The reported final cost never exceeds the reported initial
cost nor the cost of the returned parameters; and it is the cost of the returned parameters
provided no rejected iteration recorded a lower cost.  Missing: equality in general, which is
false (see `finalCost_can_be_too_low`). -/
theorem finalCost_partial (o : Opts K) (env : Env X D K) (strategy : Strategy S X D K)
    (s0 : S) (x0 : X) (fuel : Nat) (hbig : ∀ x c, env.jac x = some c → c < o.big)
    (s : St S X D K) (hs : minimize o env strategy s0 x0 fuel = .done s)
    (hfuel : o.maxIter + 1 ≤ fuel) (hne : s.iters ≠ []) :
    finalCost s ≤ s.initialCost ∧
    ∃ c, env.jac s.params = some c ∧ finalCost s ≤ c + o.fixedCost ∧
      ((∀ it ∈ s.iters, it.stepSuccessful = false → c + o.fixedCost ≤ it.cost) →
        (∀ a b : K, a ≤ b → a + o.fixedCost ≤ b + o.fixedCost) →
        finalCost s = c + o.fixedCost) := by
  rcases minimize_returns_best o env strategy s0 x0 fuel hbig s hs hfuel with ⟨h, -⟩ | ⟨h, hf⟩
  · exact absurd h hne
  · obtain ⟨c, hc, ⟨it, hit, hsi, hpt, hcost⟩, hbest⟩ := h
    have fl := foldl_min_le s.iters s.initialCost
    refine ⟨fl.1, c, hc, ?_, ?_⟩
    · rw [← hcost]; exact fl.2 it hit
    · intro hrej hmono
      apply le_antisymm
      · rw [← hcost]; exact fl.2 it hit
      · have hge : ∀ it ∈ s.iters, c + o.fixedCost ≤ it.cost := by
          intro it' hit'
          cases hb : it'.stepSuccessful with
          | true =>
            obtain ⟨d, -, h2, h3⟩ := hbest it' hit' hb
            rw [h2]
            exact hmono _ _ h3
          | false => exact hrej it' hit' hb
        apply le_foldl_min
        · obtain ⟨a, l, hal⟩ := List.exists_cons_of_ne_nil hne
          have h1 := hf a (by rw [hal]; rfl)
          rw [← h1.2]
          exact hge a (by rw [hal]; exact List.mem_cons_self ..)
        · exact hge

end Ceres.TrustRegion
