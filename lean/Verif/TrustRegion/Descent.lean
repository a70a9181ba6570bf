import Verif.TrustRegion.Props

/-!
# Descent along a run of the trust region minimizer, and witnesses of what can go wrong
-/
namespace Ceres.TrustRegion

variable {K : Type} [Field K] [LinearOrder K] {S X D : Type}

/-- The two ways of evaluating the cost agree. -/
def Consistent (env : Env X D K) : Prop := ∀ x c, env.jac x = some c → env.cost x = some c

/-- Inner iterations, if used, do not raise the cost. -/
def InnerDescends (env : Env X D K) : Prop :=
  ∀ f, env.inner = some f → ∀ x a b, env.cost x = some a → env.cost (f x) = some b → b ≤ a

theorem judge_abort {o : Opts K} {env : Env X D K} {strategy : Strategy S X D K} {pm pn : K}
    {s : St S X D K} (h : judge o env strategy pm pn s = .abort) :
    (s.innerUseful = true ∨
      o.minRelDecrease < s.ev.stepQuality o.big o.lowest s.candCost s.modelChange) ∧
    ∃ st, strategy.accepted st (s.ev.stepQuality o.big o.lowest s.candCost s.modelChange) =
      none := by
  unfold judge at h
  split at h
  · cases h
  · simp only at h
    have hs1 : ∃ s1, s1 = (if s.anySucc = true then (parameterToleranceReached o env s).1 else s) ∧
        (∃ n, s1.ev = s.ev ∧ s1.candCost = s.candCost ∧ s1.modelChange = s.modelChange ∧
          s1.innerUseful = s.innerUseful ∧ s1.cur.stepNorm = n) := by
      refine ⟨_, rfl, _, ?_, ?_, ?_, ?_, rfl⟩ <;>
      · split
        · unfold parameterToleranceReached; split <;> rfl
        · rfl
    obtain ⟨s1, e1, n, a1, a2, a3, a4, -⟩ := hs1
    rw [← e1] at h
    split at h
    · cases h
    · have b : (functionToleranceReached o s1).1.ev = s.ev ∧
          (functionToleranceReached o s1).1.candCost = s.candCost ∧
          (functionToleranceReached o s1).1.modelChange = s.modelChange ∧
          (functionToleranceReached o s1).1.innerUseful = s.innerUseful := by
        unfold functionToleranceReached
        split <;> exact ⟨a1, a2, a3, a4⟩
      obtain ⟨b1, b2, b3, b4⟩ := b
      split at h
      · rename_i hsucc
        constructor
        · simpa [isStepSuccessful, b1, b2, b3, b4] using hsucc
        · unfold handleSuccessfulStep at h
          simp only at h
          split at h
          · have sp := (evalGradJac_spec o env
              { (isStepSuccessful o (functionToleranceReached o s1).1).1 with
                anySucc := true
                x := (isStepSuccessful o (functionToleranceReached o s1).1).1.candX
                }).2.2.2.2.2.1
            split at h
            · rename_i hacc
              refine ⟨_, Eq.trans (congrArg _ ?_) hacc⟩
              refine Eq.trans ?_ sp.symm
              simp only [isStepSuccessful, b1, b2, b3]
            · cases h
          · cases h
      · cases h

theorem body_abort {o : Opts K} {env : Env X D K} {strategy : Strategy S X D K}
    {s : St S X D K} (h : body o env strategy s = .abort) :
    ∃ t : St S X D K, (computeTrustRegionStep env strategy
        { s with cur := freshIter (s.cur.iteration + 1) s.x }).1 = t ∧
      t.cur.stepValid = true ∧
      judge o env strategy s.cur.gradMax s.cur.gradNorm (candidateState o env t) = .abort := by
  unfold body at h
  simp only at h
  split at h
  · split at h
    · rename_i hv
      exact ⟨_, rfl, hv, h⟩
    · split at h <;> cases h
  · cases h

theorem body_judge {o : Opts K} {env : Env X D K} {strategy : Strategy S X D K}
    {s s' : St S X D K} (h : body o env strategy s = .cont s') :
    (s'.ev = s.ev ∧ s'.x = s.x ∧ s'.xCost = s.xCost ∧ s'.cur.stepSuccessful = false) ∨
    ∃ t : St S X D K, (computeTrustRegionStep env strategy
        { s with cur := freshIter (s.cur.iteration + 1) s.x }).1 = t ∧
      t.cur.stepValid = true ∧
      judge o env strategy s.cur.gradMax s.cur.gradNorm (candidateState o env t) = .cont s' := by
  unfold body at h
  simp only at h
  have c := computeStep_spec env strategy { s with cur := freshIter (s.cur.iteration + 1) s.x }
  split at h
  · split at h
    · rename_i hv
      exact Or.inr ⟨_, rfl, hv, h⟩
    · left
      obtain ⟨c1, c2, c3, c4, c5, c6, c7, c8, c9, c10, c11, c12, c13⟩ := c
      unfold handleInvalidStep at h
      by_cases hm : o.maxInvalid ≤ (computeTrustRegionStep env strategy
        { s with cur := freshIter (s.cur.iteration + 1) s.x }).1.numInvalid + 1
      · rw [if_pos hm] at h
        simp at h
      · rw [if_neg hm] at h
        simp only [if_true, Next.cont.injEq] at h
        subst h
        exact ⟨c6, c2, c3, c5⟩
  · cases h

variable [IsStrictOrderedRing K]

/-- Facts about the candidate handed to `judge`. -/
theorem candidate_facts (o : Opts K) (env : Env X D K) (t : St S X D K)
    (hm : 0 < t.modelChange) :
    let u := candidateState o env t
    (u.candCost < o.big → env.cost u.candX = some u.candCost) ∧
    (u.innerUseful = true → u.candCost < o.big ∧ u.candCost < t.xCost ∧ 0 < u.modelChange) ∧
    (InnerDescends env → 0 < u.modelChange) := by
  intro u
  have h1 : ∀ v : St S X D K, (computeCandidate o env v).modelChange = v.modelChange ∧
      (computeCandidate o env v).xCost = v.xCost ∧
      ((computeCandidate o env v).candCost < o.big →
        env.cost (computeCandidate o env v).candX = some (computeCandidate o env v).candCost) := by
    intro v
    unfold computeCandidate
    split
    · exact ⟨rfl, rfl, fun h => absurd h (lt_irrefl _)⟩
    · split
      · exact ⟨rfl, rfl, fun h => absurd h (lt_irrefl _)⟩
      · rename_i hc
        exact ⟨rfl, rfl, fun _ => hc⟩
  obtain ⟨g1, g2, g3⟩ := h1 (doLineSearch o env t)
  have hls : (doLineSearch o env t).modelChange = t.modelChange ∧
      (doLineSearch o env t).xCost = t.xCost := by
    unfold doLineSearch
    split <;> exact ⟨rfl, rfl⟩
  rw [hls.1] at g1
  rw [hls.2] at g2
  simp only [u]
  unfold candidateState doInnerIterations
  split
  · exact ⟨g3, by simp, fun _ => by simp only; rw [g1]; exact hm⟩
  · rename_i hno
    push Not at hno
    split
    · exact ⟨g3, by simp, fun _ => by simp only; rw [g1]; exact hm⟩
    · rename_i f hf
      split
      · exact ⟨g3, by simp, fun _ => by simp only; rw [g1]; exact hm⟩
      · rename_i c hc
        refine ⟨fun _ => hc, ?_, ?_⟩
        · simp only [decide_eq_true_eq]
          intro hlt
          obtain ⟨l1, l2⟩ := lt_min_iff.1 hlt
          rw [g2] at l1
          refine ⟨lt_trans l2 hno.2, l1, ?_⟩
          rw [g1]
          linarith
        · intro hd
          have := hd f hf _ _ _ (g3 hno.2) hc
          simp only
          rw [g1]
          linarith

/-- An accepted step has positive quality. -/
theorem accepted_quality_pos {o : Opts K} (hq : 0 ≤ o.minRelDecrease) {e : Evaluator K}
    {c m : K} {b : Bool}
    (hu : b = true → c < o.big ∧ c < e.current ∧ 0 < m)
    (ha : b = true ∨ o.minRelDecrease < e.stepQuality o.big o.lowest c m) :
    0 < e.stepQuality o.big o.lowest c m := by
  rcases ha with hb | ha
  · obtain ⟨h1, h2, h3⟩ := hu hb
    unfold Evaluator.stepQuality
    rw [if_neg (not_le.2 h1)]
    refine lt_max_iff.2 (Or.inl (div_pos ?_ h3))
    linarith
  · exact lt_of_le_of_lt hq ha

/-- The evaluator's current cost is the cost of the current point. -/
theorem body_current {o : Opts K} {env : Env X D K} {strategy : Strategy S X D K}
    (hcons : Consistent env) (hlow : o.lowest ≤ 0)
    (hq : 0 ≤ o.minRelDecrease) {s s' : St S X D K} (he : s.ev.current = s.xCost)
    (h : body o env strategy s = .cont s') :
    s'.ev.current = s'.xCost ∧
    ((s'.ev = s.ev ∧ s'.xCost = s.xCost ∧ s'.cur.stepSuccessful = false) ∨
     (s'.cur.stepSuccessful = true ∧ ∃ c m, s'.ev = s.ev.stepAccepted c m ∧ s'.xCost = c ∧
      0 < s.ev.stepQuality o.big o.lowest c m ∧ (InnerDescends env → 0 < m))) := by
  rcases body_judge h with ⟨h1, h2, h3, h4⟩ | ⟨t, ht, hv, hj⟩
  · exact ⟨by rw [h1, h3]; exact he, Or.inl ⟨h1, h3, h4⟩⟩
  · have c := computeStep_spec env strategy { s with cur := freshIter (s.cur.iteration + 1) s.x }
    simp only at c
    rw [ht] at c
    obtain ⟨c1, c2, c3, c4, c5, c6, c7, c8, c9, c10, c11, c12, c13⟩ := c
    obtain ⟨f1, f2, f3⟩ := candidate_facts o env t (c12 hv).2
    have same := candidateState_same o env t
    obtain ⟨j1, j2, j3, j4, j5, j6⟩ := judge_cont hj
    have hev : (candidateState o env t).ev = s.ev := same.ev.trans c6
    rcases j5 with ⟨k1, k2, k3, -, -, k6, k7⟩ | ⟨k1, k2, k3, -, -, k6, -⟩
    · rw [hev] at k6 k7
      have hpos := accepted_quality_pos hq (e := s.ev)
        (hu := fun hb => by
          obtain ⟨y1, y2, y3⟩ := f2 hb
          refine ⟨y1, ?_, y3⟩
          rw [he]
          exact lt_of_lt_of_eq y2 c3) k7
      have hbig : (candidateState o env t).candCost < o.big := by
        by_contra hn
        unfold Evaluator.stepQuality at hpos
        rw [if_pos (not_lt.1 hn)] at hpos
        exact absurd hpos (not_lt.2 hlow)
      have hx : s'.xCost = (candidateState o env t).candCost := by
        have e1 := f1 hbig
        rw [k2] at k3
        have e2 := hcons _ _ k3
        rw [e1, Option.some.injEq] at e2
        exact e2.symm
      refine ⟨?_, Or.inr ⟨k1, _, _, k6, hx, hpos, f3⟩⟩
      rw [k6, (stepAccepted_fields _ _ _).2.1, hx]
    · rw [hev] at k6
      have hx : s'.xCost = s.xCost := by rw [k3, same.xCost, c3]
      exact ⟨by rw [k6, hx]; exact he, Or.inl ⟨k6, hx, k1⟩⟩

omit [IsStrictOrderedRing K] in
/-- Induction principle: a property of the state at the head of the loop that iteration zero
establishes and every pass preserves holds of the state whose finalisation ended the run or in
whose pass the run ended. -/
theorem loop_induction {o : Opts K} {env : Env X D K} {strategy : Strategy S X D K}
    (P : St S X D K → Prop)
    (hstep : ∀ s s', P s → (finalize o env strategy s).2 = true →
      body o env strategy (finalize o env strategy s).1 = .cont s' → P s')
    (fuel : Nat) (s : St S X D K) (hs : P s) :
    (∀ r, loop o env strategy fuel s = .done r → ∃ t, P t ∧
      (r = (finalize o env strategy t).1 ∨
       ((finalize o env strategy t).2 = true ∧
        body o env strategy (finalize o env strategy t).1 = .stop r))) ∧
    (loop o env strategy fuel s = .abort → ∃ t, P t ∧ (finalize o env strategy t).2 = true ∧
      body o env strategy (finalize o env strategy t).1 = .abort) := by
  induction fuel generalizing s with
  | zero => simp [loop]
  | succ fuel ih =>
    simp only [loop]
    by_cases hf : (finalize o env strategy s).2 = true
    · rw [if_pos hf]
      cases hb : body o env strategy (finalize o env strategy s).1 with
      | cont s' => exact ih s' (hstep s s' hs hf hb)
      | stop s' =>
        refine ⟨?_, by simp⟩
        intro r hr
        simp only [Outcome.done.injEq] at hr
        subst hr
        exact ⟨s, hs, Or.inr ⟨hf, hb⟩⟩
      | abort => exact ⟨by simp, fun _ => ⟨s, hs, hf, hb⟩⟩
    · rw [if_neg hf]
      refine ⟨?_, by simp⟩
      intro r hr
      simp only [Outcome.done.injEq] at hr
      exact ⟨s, hs, Or.inl hr.symm⟩

omit [IsStrictOrderedRing K] in
theorem finalize_true {o : Opts K} {env : Env X D K} {strategy : Strategy S X D K} {x0 : X}
    {s : St S X D K} (h : HeadInv o env x0 s) (hf : (finalize o env strategy s).2 = true) :
    (finalize o env strategy s).1 = pushIter (recordStep strategy s) := by
  obtain ⟨p1, p2, -⟩ := recordStep_push strategy h
  exact ((checkContinue_spec (o := o) (env := env) (strategy := strategy) (x0 := x0) _ p2).1 hf).1

/-- **C12 (no abort).**  If the two cost evaluations agree, `min_relative_decrease` is not
negative and the strategy accepts every step of positive quality, then the check in the
strategies' `StepAccepted` (`CHECK_GT(step_quality, 0.0)`) never fires: `Minimize` returns
normally. -/
theorem minimize_never_aborts (o : Opts K) (env : Env X D K) (strategy : Strategy S X D K)
    (s0 : S) (x0 : X) (fuel : Nat) (hcons : Consistent env) (hlow : o.lowest ≤ 0)
    (hq : 0 ≤ o.minRelDecrease) (hacc : ∀ st q, 0 < q → strategy.accepted st q ≠ none)
    (hfuel : o.maxIter + 1 ≤ fuel) :
    ∃ s, minimize o env strategy s0 x0 fuel = .done s := by
  have hnf := (minimize_terminates_justified o env strategy s0 x0 fuel hfuel).1
  cases hmin : minimize o env strategy s0 x0 fuel with
  | done s => exact ⟨s, rfl⟩
  | outOfFuel => exact absurd hmin hnf
  | abort =>
    exfalso
    unfold minimize at hmin
    simp only at hmin
    by_cases hz : (iterationZero o env (init o env s0 x0)).2 = true
    · rw [if_pos hz] at hmin
      have hh := enter_head o env strategy s0 x0 hz
      have hl := loop_induction (o := o) (env := env) (strategy := strategy)
        (fun s => HeadInv o env x0 s ∧ s.ev.current = s.xCost)
        (by
          intro s s' ⟨i1, i2⟩ hf hb
          refine ⟨(loop_head i1 hf hb).1, ?_⟩
          have hfe := finalize_true i1 hf
          rw [hfe] at hb
          obtain ⟨-, -, -, -, -, p6, -, -, -, -, -, p12, -⟩ := recordStep_push strategy i1
          exact (body_current hcons hlow hq (by rw [p6, p12]; exact i2) hb).1)
        fuel (enter o env s0 x0) ⟨hh, rfl⟩
      obtain ⟨t, ⟨i1, i2⟩, hf, hb⟩ := hl.2 hmin
      rw [finalize_true i1 hf] at hb
      obtain ⟨-, -, -, -, -, p6, -, -, -, -, -, p12, -⟩ := recordStep_push strategy i1
      obtain ⟨t', ht, hv, hj⟩ := body_abort hb
      obtain ⟨k1, st, k2⟩ := judge_abort hj
      have c := computeStep_spec env strategy { pushIter (recordStep strategy t) with
        cur := freshIter ((pushIter (recordStep strategy t)).cur.iteration + 1)
          (pushIter (recordStep strategy t)).x }
      simp only at c
      rw [ht] at c
      obtain ⟨c1, c2, c3, c4, c5, c6, c7, c8, c9, c10, c11, c12, c13⟩ := c
      obtain ⟨f1, f2, f3⟩ := candidate_facts o env t' (c12 hv).2
      refine hacc st _ (accepted_quality_pos hq (b := (candidateState o env t').innerUseful)
        (fun hb => ?_) k1) k2
      obtain ⟨y1, y2, y3⟩ := f2 hb
      refine ⟨y1, ?_, y3⟩
      rw [(candidateState_same o env t').ev, c6, p12, i2, ← p6, ← c3]
      exact y2
    · rw [if_neg hz] at hmin
      cases hmin

/-- Descent invariant at the head of the loop. -/
structure DescInv (o : Opts K) (env : Env X D K) (x0 : X) (s : St S X D K) : Prop extends
    HeadInv o env x0 s where
  curr : s.ev.current = s.xCost
  chain : Chain s.ev
  refLe : s.ev.reference + o.fixedCost ≤ s.initialCost
  below : ∀ it ∈ s.iters, it.stepSuccessful = true → it.iteration ≠ 0 → it.cost < s.initialCost
  belowCur : s.cur.stepSuccessful = true → s.cur.iteration ≠ 0 → s.cur.cost < s.initialCost
  mono : o.nonmono = false → Mono s.ev ∧
    ((s.iters.filter (fun it => it.stepSuccessful)).map Iter.cost).Pairwise (· > ·) ∧
    ∀ it ∈ s.iters, it.stepSuccessful = true → s.xCost + o.fixedCost ≤ it.cost ∧
      (s.cur.stepSuccessful = true → s.xCost + o.fixedCost < it.cost)

theorem descInv_push {o : Opts K} {env : Env X D K} {strategy : Strategy S X D K} {x0 : X}
    {s : St S X D K} (h : DescInv o env x0 s) :
    let t := pushIter (recordStep strategy s)
    (∀ it ∈ t.iters, it.stepSuccessful = true → it.iteration ≠ 0 → it.cost < t.initialCost) ∧
    (o.nonmono = false →
      ((t.iters.filter (fun it => it.stepSuccessful)).map Iter.cost).Pairwise (· > ·) ∧
      ∀ it ∈ t.iters, it.stepSuccessful = true → s.xCost + o.fixedCost ≤ it.cost) := by
  intro t
  obtain ⟨p1, p2, p3, p4, p5, p6, p7, p8, p9, p10, p11, p12, p13, p14, p15, p16, p17⟩ :=
    recordStep_push strategy h.toHeadInv
  simp only [t]
  rw [p11, p17]
  constructor
  · intro it hit hs hi
    rcases List.mem_append.1 hit with hit | hit
    · exact h.below it hit hs hi
    · rw [List.mem_singleton.1 hit] at hs hi ⊢
      rw [p13]
      exact h.belowCur (by rw [← p7]; exact hs) (by rw [← p3]; exact hi)
  · intro hm
    obtain ⟨m1, m2, m3⟩ := h.mono hm
    constructor
    · rw [List.filter_append, List.map_append, List.pairwise_append]
      refine ⟨m2, ?_, ?_⟩
      · cases hc : (pushIter (recordStep strategy s)).cur.stepSuccessful <;> simp [hc]
      · intro a ha b hb
        obtain ⟨it, hit, rfl⟩ := List.mem_map.1 ha
        obtain ⟨it', hit', rfl⟩ := List.mem_map.1 hb
        obtain ⟨q1, q2⟩ := List.mem_filter.1 hit
        obtain ⟨q3, q4⟩ := List.mem_filter.1 hit'
        rw [List.mem_singleton.1 q3] at q4 ⊢
        have hcs : s.cur.stepSuccessful = true := by rw [← p7]; exact q4
        rw [p13, (h.cur hcs).1]
        exact (m3 it q1 q2).2 hcs
    · intro it hit hs
      rcases List.mem_append.1 hit with hit | hit
      · exact (m3 it hit hs).1
      · rw [List.mem_singleton.1 hit] at hs ⊢
        have hcs : s.cur.stepSuccessful = true := by rw [← p7]; exact hs
        rw [p13, (h.cur hcs).1]

theorem descInv_step {o : Opts K} {env : Env X D K} {strategy : Strategy S X D K} {x0 : X}
    (hcons : Consistent env) (hlow : o.lowest ≤ 0)
    (hq : 0 ≤ o.minRelDecrease) (hinner : InnerDescends env) {s s' : St S X D K}
    (h : DescInv o env x0 s) (hf : (finalize o env strategy s).2 = true)
    (hb : body o env strategy (finalize o env strategy s).1 = .cont s') :
    DescInv o env x0 s' := by
  have hhead := (loop_head h.toHeadInv hf hb).1
  obtain ⟨d1, d2⟩ := descInv_push (strategy := strategy) h
  obtain ⟨p1, p2, p3, p4, p5, p6, p7, p8, p9, p10, p11, p12, p13, p14, p15, p16, p17⟩ :=
    recordStep_push strategy h.toHeadInv
  rw [finalize_true h.toHeadInv hf] at hb
  have hB := body_cont hb
  obtain ⟨hcur, hcase⟩ := body_current hcons hlow hq (by rw [p6, p12]; exact h.curr) hb
  rw [p12, p6] at hcase
  refine ⟨hhead, hcur, ?_, ?_, ?_, ?_, ?_⟩
  · rcases hcase with ⟨e1, -, -⟩ | ⟨-, c, m, e1, e2, e3, e4⟩
    · rw [e1]; exact h.chain
    · rw [e1]; exact (chain_step hlow (le_refl _) h.chain (e4 hinner) e3).1
  · rw [hB.log.initialCost, p17]
    rcases hcase with ⟨e1, -, -⟩ | ⟨-, c, m, e1, e2, e3, e4⟩
    · rw [e1]; exact h.refLe
    · rw [e1]
      have := (chain_step hlow (le_refl _) h.chain (e4 hinner) e3).2
      have := h.refLe
      linarith
  · rw [hB.log.iters, hB.log.initialCost]
    exact d1
  · intro hs _
    rw [hB.log.initialCost, p17, (hB.succ hs).1]
    rcases hcase with ⟨-, -, e3⟩ | ⟨-, c, m, e1, e2, e3, e4⟩
    · rw [e3] at hs; cases hs
    · have := quality_lt hlow (le_refl _) h.chain (e4 hinner) e3
      have := h.refLe
      rw [e2]
      linarith
  · intro hm
    obtain ⟨n1, n2⟩ := d2 hm
    obtain ⟨m1, -, -⟩ := h.mono hm
    rw [hB.log.iters]
    rcases hcase with ⟨e1, e2, e3⟩ | ⟨e0, c, m, e1, e2, e3, e4⟩
    · refine ⟨by rw [e1]; exact m1, n1, ?_⟩
      intro it hit hs
      rw [e2]
      refine ⟨n2 it hit hs, ?_⟩
      intro hcs
      rw [e3] at hcs
      cases hcs
    · refine ⟨by rw [e1]; exact mono_step hlow (le_refl _) m1 (e4 hinner) e3, n1, ?_⟩
      intro it hit hs
      have h1 := (mono_quality hlow (le_refl _) m1 (e4 hinner) e3).1
      have h2 := n2 it hit hs
      rw [h.curr] at h1
      rw [e2]
      constructor
      · linarith
      · intro _; linarith

theorem minimize_descInv (o : Opts K) (env : Env X D K) (strategy : Strategy S X D K)
    (s0 : S) (x0 : X) (fuel : Nat) (hcons : Consistent env) (hlow : o.lowest ≤ 0)
    (hq : 0 ≤ o.minRelDecrease) (hinner : InnerDescends env)
    (s : St S X D K) (hs : minimize o env strategy s0 x0 fuel = .done s) :
    (∀ it ∈ s.iters, it.stepSuccessful = true → it.iteration ≠ 0 → it.cost < s.initialCost) ∧
    (o.nonmono = false →
      ((s.iters.filter (fun it => it.stepSuccessful)).map Iter.cost).Pairwise (· > ·)) := by
  unfold minimize at hs
  simp only at hs
  obtain ⟨z1, z2, z3, z4, z5, z6, z7, z8⟩ := iterationZero_spec o env strategy s0 x0
  by_cases hz : (iterationZero o env (init o env s0 x0)).2 = true
  · rw [if_pos hz] at hs
    obtain ⟨y1, y2, y3, y4, y5, y6, y7, y8, y9⟩ := z7 hz
    have hh := enter_head o env strategy s0 x0 hz
    have hl := loop_induction (o := o) (env := env) (strategy := strategy)
      (fun s => DescInv o env x0 s)
      (fun s s' h hf hb => descInv_step hcons hlow hq hinner h hf hb)
      fuel (enter o env s0 x0) (by
        refine ⟨hh, rfl, chain_init _ _, ?_, ?_, ?_, ?_⟩
        · exact le_of_eq y7.symm
        · intro it hit
          rw [show (enter o env s0 x0).iters = [] from z1] at hit
          cases hit
        · intro _ hi
          exact absurd y3 hi
        · intro hm
          refine ⟨⟨?_, rfl, rfl, rfl, rfl⟩, ?_, ?_⟩
          · simp [enter, hm, Evaluator.mk']
          · rw [show (enter o env s0 x0).iters = [] from z1]
            simp
          · intro it hit
            rw [show (enter o env s0 x0).iters = [] from z1] at hit
            cases hit)
    obtain ⟨t, ht, hr⟩ := hl.1 s hs
    obtain ⟨d1, d2⟩ := descInv_push (strategy := strategy) ht
    have hlog : SameLog (pushIter (recordStep strategy t)) s := by
      rcases hr with hr | ⟨hf, hb⟩
      · rw [hr]
        obtain ⟨p1, p2, -⟩ := recordStep_push strategy ht.toHeadInv
        have ck := checkContinue_spec (o := o) (env := env) (strategy := strategy) (x0 := x0) _ p2
        by_cases hf : (finalize o env strategy t).2 = true
        · rw [finalize_true ht.toHeadInv hf]; exact SameLog.refl _
        · exact (ck.2 (by simpa [finalize] using hf)).1
      · have hfe := finalize_true ht.toHeadInv hf
        obtain ⟨p1, p2, p3, p4, p5, p6, p7, p8, p9, p10, p11, p12, p13, p14, p15, p16, p17⟩ :=
          recordStep_push strategy ht.toHeadInv
        rw [hfe] at hb
        exact (body_stop (x0 := x0) p16 hb).1
    rw [hlog.iters, hlog.initialCost]
    exact ⟨d1, fun hm => (d2 hm).1⟩
  · rw [if_neg hz] at hs
    simp only [Outcome.done.injEq] at hs
    subst hs
    rw [z1]
    simp

/-- **C13 / C11 (descent of a run).**  If the two cost evaluations agree, `min_relative_decrease`
is not negative and inner iterations do not raise the cost, every accepted step of a run has a
cost below the initial cost, also in the non-monotonic mode. -/
theorem minimize_accepted_below_initial (o : Opts K) (env : Env X D K)
    (strategy : Strategy S X D K) (s0 : S) (x0 : X) (fuel : Nat) (hcons : Consistent env)
    (hlow : o.lowest ≤ 0) (hq : 0 ≤ o.minRelDecrease) (hinner : InnerDescends env)
    (s : St S X D K) (hs : minimize o env strategy s0 x0 fuel = .done s) :
    ∀ it ∈ s.iters, it.stepSuccessful = true → it.iteration ≠ 0 → it.cost < s.initialCost :=
  (minimize_descInv o env strategy s0 x0 fuel hcons hlow hq hinner s hs).1

/-- **C13 / C11 (monotone mode).**  Without `use_nonmonotonic_steps`, the costs of the successful
iterations of a run are strictly decreasing. -/
theorem minimize_monotone (o : Opts K) (env : Env X D K) (strategy : Strategy S X D K)
    (s0 : S) (x0 : X) (fuel : Nat) (hcons : Consistent env) (hlow : o.lowest ≤ 0)
    (hq : 0 ≤ o.minRelDecrease) (hinner : InnerDescends env) (hm : o.nonmono = false)
    (s : St S X D K) (hs : minimize o env strategy s0 x0 fuel = .done s) :
    ((s.iters.filter (fun it => it.stepSuccessful)).map Iter.cost).Pairwise (· > ·) :=
  (minimize_descInv o env strategy s0 x0 fuel hcons hlow hq hinner s hs).2 hm

end Ceres.TrustRegion
