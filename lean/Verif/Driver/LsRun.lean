import Verif.Driver.Solve
import Verif.LineSearch.Minimizer

/-!
# The line search minimizer inside `Solve` (C53, C54)

`lsRun` is the model of `LineSearchMinimizer` (`LineSearch.Minimizer`) as a minimizer that talks to
callbacks; `exec_lsMinimizer` shows that every execution of it is a run of that model.
-/
namespace Ceres.Driver

open Ceres.TrustRegion (CB Term)
open Ceres.LineSearch (LSProblem LSOptions LSState LSRecord LSResult LSStatus Direction Search
  CallbackResult chooseDirection initialStep takePoint minimizeLoop)
open scoped RealInnerProductSpace

noncomputable section

variable {V A X D : Type} [NormedAddCommGroup D] [InnerProductSpace ℝ D]

/-- How one pass through the body of the loop ends. -/
inductive LsStep (X D : Type) where
  /-- The minimizer stops, with nothing new recorded. -/
  | stop (status : LSStatus)
  /-- The minimizer stops after having recorded an iteration. -/
  | final (record : LSRecord X) (status : LSStatus)
  /-- The loop goes on. -/
  | next (previous current : LSState D) (dir : Direction D) (restarts : ℕ) (record : LSRecord X)

/-- The body of the loop after the callbacks (line_search_minimizer.cc:219-477); `late`: whether
`max_solver_time_in_seconds` has passed. -/
def lsStep (search : Search X D) (P : LSProblem X D) (o : LSOptions) (late : Bool) (x : X)
    (previous current : LSState D) (dir : Direction D) (restarts : ℕ) (last : LSRecord X) :
    LsStep X D :=
  if o.maxNumIterations ≤ last.iteration then .stop .maxIterations
  else if late = true then .stop .maxTime
  else
    match chooseDirection o (last.iteration + 1) restarts dir previous current with
    | .inl status => .stop status
    | .inr (dir', restarts', fresh, d) =>
      let slope := ⟪current.gradient, d⟫
      match initialStep fresh current.gradientMaxNorm current.cost previous.cost slope with
      | none => .stop .negativeStep
      | some estimate =>
        if estimate < 0 then .stop .negativeStep
        else
          let S := search (P.fn x d) estimate current.cost slope
          if S.status = .aborted then .stop .aborted
          else if S.status ≠ .success then .stop .searchFailed
          else
            match takePoint P S.optimal with
            | .inl status => .stop status
            | .inr (y, cost, gradient) =>
              match P.norms y gradient with
              | none => .stop .evaluationFailed
              | some (sq, mx) =>
                let record : LSRecord X :=
                  ⟨last.iteration + 1, cost, mx, current.cost - cost, P.dist y x, S.optimal.x,
                    y, slope, estimate⟩
                if P.dist y x ≤
                    o.parameterTolerance * (P.norm x + o.parameterTolerance) then
                  .final record .parameterTolerance
                else if mx ≤ o.gradientTolerance then .final record .gradientTolerance
                else if |current.cost - cost| ≤ o.functionTolerance * |current.cost| then
                  .final record .functionTolerance
                else
                  .next
                    { current with
                      searchDirection := d
                      directionalDerivative := slope
                      stepSize := S.optimal.x }
                    ⟨cost, gradient, sq, mx, d, slope, S.optimal.x⟩ dir' restarts' record

/-- The iteration summary as it is recorded, with the fixed cost
(line_search_minimizer.cc:145, 398). -/
def addFixed (fixed : ℝ) (r : LSRecord X) : LSRecord X := { r with cost := r.cost + fixed }

/-- The minimizer's own verdicts (the user's come from callbacks; a non-finite cost is outside the
model). -/
def ownOfLs : LSStatus → Own
  | .gradientTolerance | .parameterTolerance | .functionTolerance => .convergence
  | .maxIterations | .maxTime => .noConvergence
  | .evaluationFailed | .directionFailed | .negativeStep | .searchFailed => .failure
  | .userFailure | .userSuccess | .aborted | .notFinite | .outOfFuel => .crash

/-- The loop of the line search minimizer (line_search_minimizer.cc:214-478).  The parameter array
holds the current point; the last iteration is recorded without a round of callbacks when a
tolerance is met. -/
def lsRun (enc : X → List V) (search : Search X D) (P : LSProblem X D) (o : LSOptions)
    (late : ℕ → Bool) (fixed : ℝ) : ℕ → X → LSState D → LSState D → Direction D → ℕ → LSRecord X →
    Run V (LSRecord X) ℝ A
  | fuel, x, previous, current, dir, restarts, last =>
    .report (enc x) (addFixed fixed last) (fun _ =>
      match lsStep search P o (late last.iteration) x previous current dir restarts last with
      | .stop status => .done (enc x) (ownOfLs status)
      | .final record status => .record (addFixed fixed record) (.done (enc record.x) (ownOfLs status))
      | .next previous' current' dir' restarts' record =>
        match fuel with
        | 0 => .record (addFixed fixed record) (.done (enc record.x) .crash)
        | fuel + 1 =>
          lsRun enc search P o late fixed fuel record.x previous' current' dir' restarts' record)

/-- `LineSearchMinimizer::Minimize` (line_search_minimizer.cc:87-479). -/
def lsMinimizer (enc : X → List V) (search : Search X D) (P : LSProblem X D) (o : LSOptions)
    (late : ℕ → Bool) (fixed : ℝ) (x : X) : Run V (LSRecord X) ℝ A :=
  match P.eval x true with
  | none => .done (enc x) .failure
  | some (.fin cost, gradient) =>
    match P.norms x gradient with
    | none => .done (enc x) .failure
    | some (sq, mx) =>
      .initial (cost + fixed)
        (if mx ≤ o.gradientTolerance then .done (enc x) .convergence
        else lsRun enc search P o late fixed o.maxNumIterations x ⟨0, 0, 0, 0, 0, 0, 0⟩
          ⟨cost, gradient, sq, mx, 0, 0, 0⟩ (.create o.direction) 0
          ⟨0, cost, mx, 0, 0, 0, x, 0, 0⟩)
  | some _ => .done (enc x) .crash

/-! ### It is the same loop -/

/-- The answer of a round of callbacks as the other model names it. -/
def answerOf : CB → CallbackResult
  | .continue => .continue
  | .abort => .abort
  | .terminateSuccessfully => .terminateSuccessfully

/-- The termination type of a verdict. -/
def lsTerm : LSStatus → Option Term
  | .userFailure => some .userFailure
  | .userSuccess => some .userSuccess
  | s => (ownOfLs s).term

theorem minimizeLoop_step (search : Search X D) (P : LSProblem X D) (o : LSOptions)
    (oracle : ℕ → CallbackResult × Bool) (fuel : ℕ) (x : X) (previous current : LSState D)
    (dir : Direction D) (restarts : ℕ) (records : List (LSRecord X)) (last : LSRecord X)
    (hc : (oracle last.iteration).1 = .continue) :
    minimizeLoop search P o oracle fuel x previous current dir restarts records last =
      match lsStep search P o (oracle last.iteration).2 x previous current dir restarts last with
      | .stop status => ⟨x, status, records ++ [last]⟩
      | .final record status => ⟨record.x, status, records ++ [last] ++ [record]⟩
      | .next previous' current' dir' restarts' record =>
        match fuel with
        | 0 => ⟨record.x, .outOfFuel, records ++ [last] ++ [record]⟩
        | fuel + 1 => minimizeLoop search P o oracle fuel record.x previous' current' dir' restarts'
            (records ++ [last]) record := by
  rw [minimizeLoop.eq_def]
  unfold lsStep
  simp only [hc, reduceCtorEq, if_false]
  split_ifs with h1 h2
  · rfl
  · rfl
  · cases chooseDirection o (last.iteration + 1) restarts dir previous current with
    | inl s => rfl
    | inr q =>
      obtain ⟨dir', restarts', fresh, d⟩ := q
      simp only
      cases initialStep fresh current.gradientMaxNorm current.cost previous.cost
          ⟪current.gradient, d⟫ with
      | none => rfl
      | some e =>
        simp only
        split_ifs with h3 h4 h5
        · rfl
        · rfl
        · rfl
        · cases takePoint P (search (P.fn x d) e current.cost ⟪current.gradient, d⟫).optimal with
          | inl s => rfl
          | inr q =>
            obtain ⟨y, c, g⟩ := q
            simp only
            cases P.norms y g with
            | none => rfl
            | some q =>
              obtain ⟨sq, mx⟩ := q
              simp only
              split_ifs
              · rfl
              · rfl
              · rfl
              · cases fuel <;> rfl

theorem lsStep_next {search : Search X D} {P : LSProblem X D} {o : LSOptions} {late : Bool} {x : X}
    {previous current previous' current' : LSState D} {dir dir' : Direction D}
    {restarts restarts' : ℕ} {last record : LSRecord X}
    (h : lsStep search P o late x previous current dir restarts last =
      .next previous' current' dir' restarts' record) : record.iteration = last.iteration + 1 := by
  unfold lsStep at h
  simp only at h
  split at h
  · cases h
  split at h
  · cases h
  split at h
  · cases h
  split at h
  · cases h
  split at h
  · cases h
  split at h
  · cases h
  split at h
  · cases h
  split at h
  · cases h
  split at h
  · cases h
  split at h
  · cases h
  split at h
  · cases h
  split at h
  · cases h
  simp only [LsStep.next.injEq] at h
  rw [← h.2.2.2.2]

/-- The verdict when an iteration was recorded without a round of callbacks. -/
theorem lsStep_final {search : Search X D} {P : LSProblem X D} {o : LSOptions} {late : Bool} {x : X}
    {previous current : LSState D} {dir : Direction D} {restarts : ℕ} {last record : LSRecord X}
    {status : LSStatus}
    (h : lsStep search P o late x previous current dir restarts last = .final record status) :
    ownOfLs status = .convergence := by
  unfold lsStep at h
  simp only at h
  split at h
  · cases h
  split at h
  · cases h
  split at h
  · cases h
  split at h
  · cases h
  split at h
  · cases h
  split at h
  · cases h
  split at h
  · cases h
  split at h
  · cases h
  split at h
  · cases h
  split at h
  · cases h; rfl
  split at h
  · cases h; rfl
  split at h
  · cases h; rfl
  cases h

theorem lsStep_stop {search : Search X D} {P : LSProblem X D} {o : LSOptions} {late : Bool} {x : X}
    {previous current : LSState D} {dir : Direction D} {restarts : ℕ} {last : LSRecord X}
    {status : LSStatus}
    (h : lsStep search P o late x previous current dir restarts last = .stop status) :
    lsTerm status = (ownOfLs status).term := by
  have hch : ∀ n s, chooseDirection o n restarts dir previous current = .inl s →
      lsTerm s = (ownOfLs s).term := by
    intro n s hs
    unfold chooseDirection at hs
    split at hs
    · cases hs
    split at hs
    · cases hs; rfl
    · cases hs; rfl
    · cases hs
    split at hs
    · cases hs; rfl
    · cases hs
  have htp : ∀ q s, takePoint P q = .inl s → lsTerm s = (ownOfLs s).term := by
    intro q s hs
    unfold takePoint at hs
    split at hs
    · cases hs; rfl
    split at hs
    · cases hs
    split at hs
    · cases hs; rfl
    · cases hs
    · cases hs; rfl
  unfold lsStep at h
  simp only at h
  split at h
  · cases h; rfl
  split at h
  · cases h; rfl
  split at h
  · next hd => cases h; exact hch _ _ hd
  split at h
  · cases h; rfl
  split at h
  · cases h; rfl
  split at h
  · cases h; rfl
  split at h
  · cases h; rfl
  split at h
  · next hd => cases h; exact htp _ _ hd
  split at h
  · cases h; rfl
  split at h
  · cases h
  split at h
  · cases h
  split at h
  · cases h
  cases h

theorem minimizeLoop_congr (search : Search X D) (P : LSProblem X D) (o : LSOptions)
    (f g : ℕ → CallbackResult × Bool) (fuel : ℕ) (x : X) (previous current : LSState D)
    (dir : Direction D) (restarts : ℕ) (records : List (LSRecord X)) (last : LSRecord X)
    (hfg : ∀ i, last.iteration ≤ i → f i = g i) :
    minimizeLoop search P o f fuel x previous current dir restarts records last =
      minimizeLoop search P o g fuel x previous current dir restarts records last := by
  induction fuel generalizing x previous current dir restarts records last with
  | zero =>
    have h0 := hfg _ le_rfl
    cases hc : (g last.iteration).1 with
    | «continue» =>
      rw [minimizeLoop_step _ _ _ _ _ _ _ _ _ _ _ _ (by rw [h0]; exact hc),
        minimizeLoop_step _ _ _ _ _ _ _ _ _ _ _ _ hc, h0]
    | abort => rw [minimizeLoop.eq_def, minimizeLoop.eq_def]; simp only [h0, hc, if_true]
    | terminateSuccessfully =>
      rw [minimizeLoop.eq_def, minimizeLoop.eq_def]
      simp only [h0, hc, if_true]
  | succ fuel ih =>
    have h0 := hfg _ le_rfl
    cases hc : (g last.iteration).1 with
    | «continue» =>
      rw [minimizeLoop_step _ _ _ _ _ _ _ _ _ _ _ _ (by rw [h0]; exact hc),
        minimizeLoop_step _ _ _ _ _ _ _ _ _ _ _ _ hc, h0]
      cases hs : lsStep search P o (g last.iteration).2 x previous current dir restarts last with
      | stop s => rfl
      | final r s => rfl
      | next p c d n r =>
        exact ih _ _ _ _ _ _ _ (fun i hi => hfg i (by have := lsStep_next hs; omega))
    | abort => rw [minimizeLoop.eq_def, minimizeLoop.eq_def]; simp only [h0, hc, if_true]
    | terminateSuccessfully =>
      rw [minimizeLoop.eq_def, minimizeLoop.eq_def]
      simp only [h0, hc, if_true]

/-- What an execution and a run of the other model have in common. -/
def SameRun (enc : X → List V) (fixed : ℝ) (e : Result V (LSRecord X) ℝ A)
    (before : List (LSRecord X)) (r : LSResult X) : Prop :=
  e.params = enc r.x ∧ e.term = lsTerm r.status ∧
    before.map (addFixed fixed) ++ e.iters = r.records.map (addFixed fixed)

theorem exec_lsRun (enc : X → List V) (search : Search X D) (P : LSProblem X D) (o : LSOptions)
    (late : ℕ → Bool) (fixed : ℝ) (cbs : List (Callback V (LSRecord X) A)) (fuel : ℕ) (x : X)
    (previous current : LSState D) (dir : Direction D) (restarts : ℕ)
    (records : List (LSRecord X)) (last : LSRecord X) (k : ℝ) (w : World V A) :
    ∃ oracle : ℕ → CallbackResult × Bool, (∀ i, (oracle i).2 = late i) ∧
      SameRun enc fixed
        (exec cbs (lsRun enc search P o late fixed fuel x previous current dir restarts last) k w)
        records (minimizeLoop search P o oracle fuel x previous current dir restarts records last)
      ∧ (exec cbs (lsRun enc search P o late fixed fuel x previous current dir restarts last)
          k w).initialCost = k := by
  induction fuel generalizing x previous current dir restarts records last w with
  | zero =>
    refine ⟨fun i => (answerOf (runCallbacks (enc x) (addFixed fixed last) cbs w).2.1, late i),
      fun i => rfl, ?_⟩
    unfold lsRun exec
    cases ha : (runCallbacks (enc x) (addFixed fixed last) cbs w).2.1 with
    | abort =>
      rw [minimizeLoop.eq_def]
      simp [answerOf, SameRun, lsTerm]
    | terminateSuccessfully =>
      rw [minimizeLoop.eq_def]
      simp [answerOf, SameRun, lsTerm]
    | «continue» =>
      rw [minimizeLoop_step _ _ _ _ _ _ _ _ _ _ _ _ (by simp [answerOf])]
      simp only
      cases hs : lsStep search P o (late last.iteration) x previous current dir restarts last with
      | stop s =>
        refine ⟨⟨rfl, (lsStep_stop hs).symm, ?_⟩, rfl⟩
        simp [exec]
      | final r s =>
        have hf := lsStep_final hs
        refine ⟨⟨rfl, ?_, ?_⟩, rfl⟩
        · simp only [exec, hf]
          cases s <;> simp [ownOfLs] at hf <;> rfl
        · simp [exec]
      | next p c d n r =>
        refine ⟨⟨rfl, rfl, ?_⟩, rfl⟩
        simp [exec]
  | succ fuel ih =>
    cases ha : (runCallbacks (enc x) (addFixed fixed last) cbs w).2.1 with
    | abort =>
      refine ⟨fun i => (.abort, late i), fun i => rfl, ?_⟩
      unfold lsRun exec
      rw [minimizeLoop.eq_def, ha]
      simp [SameRun, lsTerm]
    | terminateSuccessfully =>
      refine ⟨fun i => (.terminateSuccessfully, late i), fun i => rfl, ?_⟩
      unfold lsRun exec
      rw [minimizeLoop.eq_def, ha]
      simp [SameRun, lsTerm]
    | «continue» =>
      cases hs : lsStep search P o (late last.iteration) x previous current dir restarts last with
      | stop s =>
        refine ⟨fun i => (.continue, late i), fun i => rfl, ?_⟩
        rw [minimizeLoop_step _ _ _ _ _ _ _ _ _ _ _ _ rfl]
        unfold lsRun exec
        rw [ha]
        simp only [hs]
        refine ⟨⟨rfl, (lsStep_stop hs).symm, ?_⟩, rfl⟩
        simp [exec]
      | final r s =>
        refine ⟨fun i => (.continue, late i), fun i => rfl, ?_⟩
        rw [minimizeLoop_step _ _ _ _ _ _ _ _ _ _ _ _ rfl]
        unfold lsRun exec
        rw [ha]
        simp only [hs]
        have hf := lsStep_final hs
        refine ⟨⟨rfl, ?_, ?_⟩, rfl⟩
        · simp only [exec, hf]
          cases s <;> simp [ownOfLs] at hf <;> rfl
        · simp [exec]
      | next p c d n r =>
        obtain ⟨orc, h1, ⟨h2, h3, h4⟩, h5⟩ := ih r.x p c d n (records ++ [last]) r
          (runCallbacks (enc x) (addFixed fixed last) cbs w).1
        have hcongr := minimizeLoop_congr search P o orc
          (fun i => if i = last.iteration then (.continue, late i) else orc i) fuel r.x p c d n
          (records ++ [last]) r (fun i hi => by
            have := lsStep_next hs
            rw [if_neg (by omega)])
        refine ⟨fun i => if i = last.iteration then (.continue, late i) else orc i,
          fun i => ?_, ?_⟩
        · simp only
          split
          · rfl
          · exact h1 i
        · rw [minimizeLoop_step _ _ _ _ _ _ _ _ _ _ _ _ (by simp)]
          unfold lsRun exec
          rw [ha]
          simp only [hs, if_true]
          rw [← hcongr]
          refine ⟨⟨h2, h3, ?_⟩, h5⟩
          rw [← h4]
          simp

/-- **Every execution of the line search minimizer with callbacks is a run of
`LineSearch.minimize`**, for the answers the callbacks gave; so C19 applies to it. -/
theorem exec_lsMinimizer (enc : X → List V) (search : Search X D) (P : LSProblem X D)
    (o : LSOptions) (late : ℕ → Bool) (fixed : ℝ) (x : X)
    (cbs : List (Callback V (LSRecord X) A)) (k : ℝ) (w : World V A) :
    ∃ oracle : ℕ → CallbackResult × Bool, (∀ i, (oracle i).2 = late i) ∧
      SameRun enc fixed (exec cbs (lsMinimizer enc search P o late fixed x) k w) []
        (LineSearch.minimize search P o oracle x) ∧
      ∀ c g, P.eval x true = some (.fin c, g) → (P.plus x (-g)).isSome →
        (exec cbs (lsMinimizer enc search P o late fixed x) k w).initialCost = c + fixed := by
  unfold lsMinimizer LineSearch.minimize
  cases he : P.eval x true with
  | none => exact ⟨fun i => (.continue, late i), fun _ => rfl, ⟨rfl, rfl, rfl⟩, by simp⟩
  | some q =>
    obtain ⟨cost, g⟩ := q
    cases cost with
    | pinf => exact ⟨fun i => (.continue, late i), fun _ => rfl, ⟨rfl, rfl, rfl⟩, by simp⟩
    | ninf => exact ⟨fun i => (.continue, late i), fun _ => rfl, ⟨rfl, rfl, rfl⟩, by simp⟩
    | nan => exact ⟨fun i => (.continue, late i), fun _ => rfl, ⟨rfl, rfl, rfl⟩, by simp⟩
    | fin c =>
      simp only
      cases hn : P.norms x g with
      | none =>
        refine ⟨fun i => (.continue, late i), fun _ => rfl, ⟨rfl, rfl, rfl⟩, ?_⟩
        intro c' g' h hp
        simp only [Option.some.injEq, Prod.mk.injEq] at h
        rw [← h.2] at hp
        unfold LSProblem.norms at hn
        rw [Option.map_eq_none_iff] at hn
        simp [hn] at hp
      | some q =>
        obtain ⟨sq, mx⟩ := q
        simp only
        have hinit : ∀ c' g', some (LineSearch.Ext.fin c, g) = some (LineSearch.Ext.fin c', g') →
            c + fixed = c' + fixed := by
          intro c' g' h
          simp only [Option.some.injEq, Prod.mk.injEq, LineSearch.Ext.fin.injEq] at h
          rw [h.1]
        by_cases hm : mx ≤ o.gradientTolerance
        · rw [if_pos hm]
          refine ⟨fun i => (.continue, late i), fun _ => rfl, ?_, ?_⟩
          · rw [if_pos hm]; exact ⟨rfl, rfl, rfl⟩
          · intro c' g' h _
            exact hinit c' g' h
        · rw [if_neg hm]
          obtain ⟨orc, h1, h2, h3⟩ := exec_lsRun enc search P o late fixed cbs o.maxNumIterations x
            ⟨0, 0, 0, 0, 0, 0, 0⟩ ⟨c, g, sq, mx, 0, 0, 0⟩ (.create o.direction) 0 []
            ⟨0, c, mx, 0, 0, 0, x, 0, 0⟩ (c + fixed) w
          refine ⟨orc, h1, ?_, ?_⟩
          · rw [if_neg hm]
            exact h2
          · intro c' g' h _
            rw [← hinit c' g' h]
            exact h3

end

end Ceres.Driver
