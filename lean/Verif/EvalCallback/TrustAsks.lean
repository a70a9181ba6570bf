import Verif.EvalCallback.TrustMin

/-!
# The trust region minimizer: what it asks
-/
namespace Ceres.EvalCallback

open LineSearch (Ext Sample Opts Summary)
open TrustRegion (Env Strategy StepOut Iter CB St Next Outcome Evaluator)

variable {S X D K J V : Type} [Field K] [LinearOrder K]

/-- Evaluation succeeded. -/
abbrev succeeded (r : TRAnswer K J) : Bool := r.isSome

section Asks

variable {C : Option X → Call X → Prop} {G : X → Prop} {o : TrustRegion.Opts K}
  {P : Parts S X D K J V}

theorem evalGradJac_meets {isNew : Bool} {j : J} {s : St S X D K} {l : Option X}
    (h : C l ⟨s.x, true, isNew⟩) (o : TrustRegion.Opts K) :
    Meets succeeded C l (evalGradJac o P isNew j s) (fun _ _ => True) := by
  refine ⟨h, fun r => ?_⟩
  cases r with
  | none => trivial
  | some a =>
    obtain ⟨c, j'⟩ := a
    simp only
    cases P.gradNorms j' s.x with
    | none => trivial
    | some g => trivial

theorem doLineSearch_meets (hplus : ∀ x d y, P.plus x d = some y → G y)
    (hnew : ∀ l y g, G y → C l ⟨y, g, true⟩) (j : J) (s : St S X D K) (l : Option X) :
    Meets succeeded C l (doLineSearch o P j s) (fun _ _ => True) := by
  unfold doLineSearch
  split
  · rw [meets_bind]
    refine (armijo_meets ?_ ?_ P.mp P.lsOpts 1 s.xCost _ l).mono (fun _ _ h => h)
      (fun _ _ _ => trivial)
    · intro r hr
      cases r with
      | none => rfl
      | some a => simp at hr
    · intro l t x g hx
      exact hnew _ _ _ (hplus _ _ _ hx)
  · trivial

/-- After the candidate was computed: a cost below the largest number belongs to the point last
evaluated. -/
def Evaluated (o : TrustRegion.Opts K) (G : X → Prop) (l : Option X) (s : St S X D K) : Prop :=
  ¬ o.big ≤ s.candCost → l = some s.candX ∧ G s.candX

theorem computeCandidate_meets (hplus : ∀ x d y, P.plus x d = some y → G y)
    (hnew : ∀ l y g, G y → C l ⟨y, g, true⟩) (s : St S X D K) (l : Option X) :
    Meets succeeded C l (computeCandidate o P s) (fun l t => Evaluated o G l t) := by
  unfold computeCandidate
  cases hp : P.plus s.x s.delta with
  | none => exact fun h => absurd le_rfl h
  | some y =>
    refine ⟨hnew _ _ _ (hplus _ _ _ hp), fun r => ?_⟩
    cases r with
    | none => exact fun h => absurd le_rfl h
    | some a => exact fun _ => ⟨rfl, hplus _ _ _ hp⟩

theorem judge_meets (hmin : o.lowest ≤ o.minRelDecrease)
    (hold : ∀ y, G y → C (some y) ⟨y, true, false⟩) (j : J) (m n : K) (s : St S X D K)
    (hin : s.innerUseful = false) (l : Option X) (hs : Evaluated o G l s) :
    Meets succeeded C l (judge o P j m n s) (fun _ _ => True) := by
  unfold judge
  split
  · trivial
  · have hx : (if s.anySucc = true then
        (TrustRegion.parameterToleranceReached o (P.env j) s).1 else s).innerUseful = false ∧
        Evaluated o G l (if s.anySucc = true then
          (TrustRegion.parameterToleranceReached o (P.env j) s).1 else s) := by
      unfold TrustRegion.parameterToleranceReached
      split
      · split <;> exact ⟨hin, hs⟩
      · exact ⟨hin, hs⟩
    generalize (if s.anySucc = true then
      (TrustRegion.parameterToleranceReached o (P.env j) s).1 else s) = s1 at hx
    simp only
    split
    · trivial
    · have hx2 : (TrustRegion.functionToleranceReached o s1).1.innerUseful = false ∧
          Evaluated o G l (TrustRegion.functionToleranceReached o s1).1 := by
        unfold TrustRegion.functionToleranceReached
        split <;> exact hx
      generalize (TrustRegion.functionToleranceReached o s1).1 = s2 at hx2
      split
      · rename_i hsucc
        unfold handleSuccessfulStep
        rw [meets_bind]
        refine (evalGradJac_meets (C := C) ?_ o).mono (fun _ _ h => h) ?_
        · have hc : ¬ o.big ≤ s2.candCost := by
            intro hbig
            unfold TrustRegion.isStepSuccessful at hsucc
            simp only [hx2.1, Bool.false_or, decide_eq_true_eq] at hsucc
            unfold TrustRegion.Evaluator.stepQuality at hsucc
            rw [if_pos hbig] at hsucc
            exact absurd hmin (not_le.2 hsucc)
          obtain ⟨h1, h2⟩ := hx2.2 hc
          rw [h1]
          exact hold _ h2
        · intro l' t _
          split
          · split <;> trivial
          · trivial
      · trivial

theorem body_meets (hmin : o.lowest ≤ o.minRelDecrease)
    (hplus : ∀ x d y, P.plus x d = some y → G y)
    (hnew : ∀ l y g, G y → C l ⟨y, g, true⟩) (hold : ∀ y, G y → C (some y) ⟨y, true, false⟩)
    (j : J) (s : St S X D K) (l : Option X) :
    Meets succeeded C l (body o P j s) (fun _ _ => True) := by
  unfold body
  simp only
  split
  · split
    · rw [meets_bind]
      refine (doLineSearch_meets hplus hnew j _ l).mono (fun _ _ h => h) ?_
      intro l1 s1 _
      rw [meets_bind]
      refine (computeCandidate_meets hplus hnew s1 l1).mono (fun _ _ h => h) ?_
      intro l2 s2 h2
      rw [doInnerIterations_none o (env := P.env j) rfl]
      exact judge_meets hmin hold j _ _ _ rfl l2 h2
    · split <;> trivial
  · trivial

theorem loop_meets (hmin : o.lowest ≤ o.minRelDecrease)
    (hplus : ∀ x d y, P.plus x d = some y → G y)
    (hnew : ∀ l y g, G y → C l ⟨y, g, true⟩) (hold : ∀ y, G y → C (some y) ⟨y, true, false⟩)
    (fuel : ℕ) (j : J) (s : St S X D K) (l : Option X) :
    Meets succeeded C l (loop o P fuel j s) (fun _ _ => True) := by
  induction fuel generalizing j s l with
  | zero => trivial
  | succ fuel ih =>
    rw [loop]
    split
    · rw [meets_bind]
      refine (body_meets hmin hplus hnew hold j _ l).mono (fun _ _ h => h) ?_
      intro l' n _
      obtain ⟨n, j'⟩ := n
      cases n with
      | cont s' => exact ih _ _ _
      | stop s' => trivial
      | abort => trivial
    · trivial

/-- Whatever the answers are: all points the trust region minimizer asks about are in `G` if steps
end in `G` and the initial point is in `G` or gets projected, and the questions meet `C` if
questions about new points of `G` do, and questions about the point last evaluated. -/
theorem minimize_meets (hmin : o.lowest ≤ o.minRelDecrease)
    (hplus : ∀ x d y, P.plus x d = some y → G y)
    (hnew : ∀ l y g, G y → C l ⟨y, g, true⟩) (hold : ∀ y, G y → C (some y) ⟨y, true, false⟩)
    (s0 : S) (x0 : X) (hx0 : o.constrained = true ∨ G x0) (j0 : J) (fuel : ℕ) (l : Option X) :
    Meets succeeded C l (minimize o P s0 x0 j0 fuel) (fun _ _ => True) := by
  unfold minimize
  rw [meets_bind]
  have h0 : Meets succeeded C l
      (iterationZero o P j0 (TrustRegion.init o (P.env j0) s0 x0)) (fun _ _ => True) := by
    unfold iterationZero
    split
    · rename_i hp
      have hG : G (TrustRegion.projectInitial o (P.env j0)
          (TrustRegion.init o (P.env j0) s0 x0)).1.x := by
        revert hp
        unfold TrustRegion.projectInitial
        by_cases hc : o.constrained = true
        · rw [if_pos hc]
          cases hz : (P.env j0).plus (TrustRegion.init o (P.env j0) s0 x0).x (P.env j0).zero with
          | none => simp
          | some y => exact fun _ => hplus _ _ _ hz
        · rw [if_neg hc]
          exact fun _ => hx0.resolve_left hc
      rw [meets_bind]
      refine (evalGradJac_meets (C := C) (hnew _ _ _ hG) o).mono (fun _ _ h => h) ?_
      intro l' t _
      split <;> trivial
    · trivial
  refine h0.mono (fun _ _ h => h) ?_
  intro l' z _
  split
  · exact loop_meets hmin hplus hnew hold _ _ _ _
  · trivial

end Asks

end Ceres.EvalCallback
