import Verif.TrustRegion.Descent

/-!
# Invariants of a trust region strategy along a run

A strategy is driven by the minimizer through `compute`, `accepted`, `rejected` and `invalid`.
This file lifts an invariant of the strategy's state, relative to the current point, to every
call the minimizer makes.
-/
namespace Ceres.TrustRegion

variable {K : Type} [Field K] [LinearOrder K] {S X D : Type}

/-- The strategy state and point at which `ComputeStep` is called or would be called next, in
any run: the states at the head of the loop. -/
inductive Head (o : Opts K) (env : Env X D K) (strategy : Strategy S X D K) (s0 : S) (x0 : X) :
    St S X D K → Prop
  | enter : (iterationZero o env (init o env s0 x0)).2 = true →
      Head o env strategy s0 x0 (enter o env s0 x0)
  | step {s s'} : Head o env strategy s0 x0 s → (finalize o env strategy s).2 = true →
      body o env strategy (finalize o env strategy s).1 = .cont s' →
      Head o env strategy s0 x0 s'

theorem Head.inv {o : Opts K} {env : Env X D K} {strategy : Strategy S X D K} {s0 : S} {x0 : X}
    {s : St S X D K} (h : Head o env strategy s0 x0 s) : HeadInv o env x0 s := by
  induction h with
  | enter hz => exact enter_head o env strategy s0 x0 hz
  | step _ hf hb ih => exact (loop_head ih hf hb).1

/-- How a pass through the loop body changes the strategy. -/
theorem body_strat {o : Opts K} {env : Env X D K} {strategy : Strategy S X D K}
    {s s' : St S X D K} (h : body o env strategy s = .cont s') :
    (s'.x = s.x ∧ s'.strat = strategy.invalid (strategy.compute s.strat s.x).1) ∨
    (∃ q, strategy.accepted (strategy.compute s.strat s.x).1 q = some s'.strat ∧
      ∃ d, (strategy.compute s.strat s.x).2 = .step d) ∨
    (s'.x = s.x ∧ ∃ q, s'.strat = strategy.rejected (strategy.compute s.strat s.x).1 q ∧
      ∃ d, (strategy.compute s.strat s.x).2 = .step d) := by
  unfold body at h
  simp only at h
  have c := computeStep_spec env strategy { s with cur := freshIter (s.cur.iteration + 1) s.x }
  have cs : (computeTrustRegionStep env strategy
      { s with cur := freshIter (s.cur.iteration + 1) s.x }).1.strat =
      (strategy.compute s.strat s.x).1 := by
    unfold computeTrustRegionStep
    split
    · rename_i st h; rw [show strategy.compute s.strat s.x = _ from h]
    · rename_i st h; rw [show strategy.compute s.strat s.x = _ from h]
    · rename_i st d h
      rw [show strategy.compute s.strat s.x = _ from h]
      split <;> rfl
  have cd : (computeTrustRegionStep env strategy
      { s with cur := freshIter (s.cur.iteration + 1) s.x }).1.cur.stepValid = true →
      ∃ d, (strategy.compute s.strat s.x).2 = .step d := by
    unfold computeTrustRegionStep
    split
    · intro hv; cases hv
    · intro hv; cases hv
    · rename_i st d h
      rw [show strategy.compute s.strat s.x = _ from h]
      exact fun _ => ⟨d, rfl⟩
  generalize computeTrustRegionStep env strategy
    { s with cur := freshIter (s.cur.iteration + 1) s.x } = t at h c cs cd
  obtain ⟨c1, c2, c3, c4, c5, c6, c7, c8, c9, c10, c11, c12, c13⟩ := c
  simp only at c2
  split at h
  · split at h
    · rename_i hvalid
      have same := candidateState_same o env t.1
      have hj : judge o env strategy s.cur.gradMax s.cur.gradNorm (candidateState o env t.1) =
        .cont s' := h
      right
      have key : ∀ u : St S X D K, judge o env strategy s.cur.gradMax s.cur.gradNorm u = .cont s' →
          (∃ q, strategy.accepted u.strat q = some s'.strat) ∨
          (s'.x = u.x ∧ ∃ q, s'.strat = strategy.rejected u.strat q) := by
        intro u hu
        have jx := judge_cont hu
        unfold judge at hu
        split at hu
        · cases hu
        · simp only at hu
          have hs1 : (if u.anySucc = true then (parameterToleranceReached o env u).1
              else u).strat = u.strat := by
            split
            · unfold parameterToleranceReached; split <;> rfl
            · rfl
          generalize (if u.anySucc = true then (parameterToleranceReached o env u).1 else u) = s1
            at hu hs1
          split at hu
          · cases hu
          · have hs2 : (functionToleranceReached o s1).1.strat = u.strat := by
              unfold functionToleranceReached; split <;> exact hs1
            split at hu
            · left
              unfold handleSuccessfulStep at hu
              simp only at hu
              split at hu
              · have sp := (evalGradJac_spec o env
                  { (isStepSuccessful o (functionToleranceReached o s1).1).1 with
                    anySucc := true
                    x := (isStepSuccessful o (functionToleranceReached o s1).1).1.candX
                    }).2.2.2.2.2.2.2.2.1
                split at hu
                · cases hu
                · rename_i st' hacc
                  simp only [Next.cont.injEq] at hu
                  subst hu
                  refine ⟨_, Eq.trans (congrFun (congrArg _ ?_) _) hacc⟩
                  exact (sp.trans hs2).symm
              · cases hu
            · right
              rename_i hns
              simp only [Next.cont.injEq] at hu
              subst hu
              refine ⟨?_, (isStepSuccessful o (functionToleranceReached o s1).1).1.cur.relDecrease,
                ?_⟩
              · rcases jx with ⟨-, -, -, -, ⟨j1, -⟩ | ⟨-, j2, -⟩, -⟩
                · cases j1
                · exact j2
              · show strategy.rejected _ _ = strategy.rejected _ _
                rw [show (isStepSuccessful o (functionToleranceReached o s1).1).1.strat = u.strat
                  from hs2]
      rcases key _ hj with ⟨q, hq⟩ | ⟨hx, q, hq⟩
      · left
        rw [same.strat, cs] at hq
        exact ⟨q, hq, cd hvalid⟩
      · right
        rw [same.strat, cs] at hq
        exact ⟨by rw [hx, same.x, c2], q, hq, cd hvalid⟩
    · left
      unfold handleInvalidStep at h
      by_cases hm : o.maxInvalid ≤ t.1.numInvalid + 1
      · rw [if_pos hm] at h
        simp at h
      · rw [if_neg hm] at h
        simp only [if_true, Next.cont.injEq] at h
        subst h
        exact ⟨c2, by simp only [cs]⟩
  · cases h

/-- Lifting a strategy invariant to all calls: `P` holds of the strategy and the current point
whenever `ComputeStep` is called, if it holds of a new strategy, and the minimizer's protocol
(compute, then one of accepted / rejected / invalid, the point changing only on acceptance)
preserves it; accepted and rejected only follow a computed step. -/
theorem strategy_invariant {o : Opts K} {env : Env X D K} {strategy : Strategy S X D K} {s0 : S}
    {x0 : X} (P : S → X → Prop) (h0 : ∀ x, P s0 x)
    (hacc : ∀ st x q st' y d, P st x → (strategy.compute st x).2 = .step d →
      strategy.accepted (strategy.compute st x).1 q = some st' → P st' y)
    (hrej : ∀ st x q d, P st x → (strategy.compute st x).2 = .step d →
      P (strategy.rejected (strategy.compute st x).1 q) x)
    (hinv : ∀ st x, P st x → P (strategy.invalid (strategy.compute st x).1) x)
    {s : St S X D K} (h : Head o env strategy s0 x0 s) : P s.strat s.x := by
  induction h with
  | enter hz =>
    have e1 : (enter o env s0 x0).strat = s0 := by
      unfold enter iterationZero
      have hp : (projectInitial o env (init o env s0 x0)).1.strat = s0 := by
        unfold projectInitial
        split
        · split <;> rfl
        · rfl
      simp only
      split
      · split
        · exact (evalGradJac_spec o env _).2.2.2.2.2.2.2.2.1.trans hp
        · exact (evalGradJac_spec o env _).2.2.2.2.2.2.2.2.1.trans hp
      · exact hp
    rw [e1]
    exact h0 _
  | @step s s' hs hf hb ih =>
    rw [finalize_true hs.inv hf] at hb
    have hst : (pushIter (recordStep strategy s)).strat = s.strat ∧
        (pushIter (recordStep strategy s)).x = s.x := by
      unfold pushIter recordStep
      split
      · split <;> exact ⟨rfl, rfl⟩
      · exact ⟨rfl, rfl⟩
    have hB := body_strat hb
    rw [hst.1, hst.2] at hB
    rcases hB with ⟨b1, b2⟩ | ⟨q, b2, d, hd⟩ | ⟨b1, q, b2, d, hd⟩
    · rw [b1, b2]; exact hinv _ _ ih
    · exact hacc _ _ q _ _ d ih hd b2
    · rw [b1, b2]; exact hrej _ _ q d ih hd

/-- Every radius recorded in the iteration log is that of a strategy state satisfying the
invariant. -/
theorem recorded_radius {o : Opts K} {env : Env X D K} {strategy : Strategy S X D K} {s0 : S}
    {x0 : X} (R : K → Prop)
    (h : ∀ s, Head o env strategy s0 x0 s → R (strategy.radius s.strat))
    (fuel : Nat) (r : St S X D K) (hr : minimize o env strategy s0 x0 fuel = .done r) :
    ∀ it ∈ r.iters, R it.radius := by
  have hpush : ∀ t : St S X D K, Head o env strategy s0 x0 t → (∀ it ∈ t.iters, R it.radius) →
      ∀ it ∈ (pushIter (recordStep strategy t)).iters, R it.radius := by
    intro t ht h1 it hit
    have hc : (pushIter (recordStep strategy t)).cur.radius = strategy.radius t.strat := by
      unfold pushIter recordStep
      split
      · split <;> rfl
      · rfl
    rw [(recordStep_push strategy ht.inv).2.2.2.2.2.2.2.2.2.2.1] at hit
    rcases List.mem_append.1 hit with hit | hit
    · exact h1 it hit
    · rw [List.mem_singleton.1 hit, hc]; exact h t ht
  have hlog : ∀ t : St S X D K, Head o env strategy s0 x0 t →
      SameLog (pushIter (recordStep strategy t)) (finalize o env strategy t).1 := by
    intro t ht
    have p2 := (recordStep_push strategy ht.inv).2.1
    have ck := checkContinue_spec (o := o) (env := env) (strategy := strategy) (x0 := x0) _ p2
    by_cases hf : (finalize o env strategy t).2 = true
    · rw [finalize_true ht.inv hf]; exact SameLog.refl _
    · exact (ck.2 (by simpa [finalize] using hf)).1
  unfold minimize at hr
  simp only at hr
  by_cases hz : (iterationZero o env (init o env s0 x0)).2 = true
  · rw [if_pos hz] at hr
    have z1 := (iterationZero_spec o env strategy s0 x0).1
    have hl := loop_induction (o := o) (env := env) (strategy := strategy)
      (fun s => Head o env strategy s0 x0 s ∧ ∀ it ∈ s.iters, R it.radius)
      (by
        intro s s' ⟨i1, i2⟩ hf hb
        refine ⟨Head.step i1 hf hb, ?_⟩
        rw [finalize_true i1.inv hf] at hb
        rw [(body_cont hb).log.iters]
        exact hpush s i1 i2)
      fuel (enter o env s0 x0) ⟨Head.enter hz, by
        intro it hit
        rw [show (enter o env s0 x0).iters = [] from z1] at hit
        cases hit⟩
    obtain ⟨t, ⟨ht1, ht2⟩, hr'⟩ := hl.1 r hr
    have h3 := hpush t ht1 ht2
    rcases hr' with rfl | ⟨hf, hb⟩
    · rw [(hlog t ht1).iters]; exact h3
    · rw [finalize_true ht1.inv hf] at hb
      rw [(body_stop (x0 := x0) (recordStep_push strategy ht1.inv).2.2.2.2.2.2.2.2.2.2.2.2.2.2.2.1
        hb).1.iters]
      exact h3
  · rw [if_neg hz] at hr
    simp only [Outcome.done.injEq] at hr
    subst hr
    rw [(iterationZero_spec o env strategy s0 x0).1]
    intro it hit
    cases hit

end Ceres.TrustRegion
