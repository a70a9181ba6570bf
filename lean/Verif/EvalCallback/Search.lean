import Verif.EvalCallback.Rules

/-!
# The line searches: what they ask, and that they compute what `LineSearch` computes
-/
namespace Ceres.EvalCallback

open LineSearch (Ext Sample Interp Opts Summary stepSize sufficient Bracket Zoom)

variable {R K X V : Type} [Field K] [LinearOrder K]

/-! ### Same results as in `LineSearch.Model` -/

/-- The function of `LineSearch.Model` with the answers given by `f`. -/
def Fn.answered (F : Fn R K X V) (f : X → Bool → R) : LineSearch.Fn K X V where
  position := F.position
  plus := F.plus
  eval x g := F.decode (f x g)
  slope := F.slope
  dirNorm := F.dirNorm

omit [LinearOrder K] in
@[simp] theorem evaluate_run (F : Fn R K X V) (f : X → Bool → R) (t : K) (g : Bool) :
    (F.evaluate t g).run (fun q => f q.point q.jacobians) = (F.answered f).evaluate t g := by
  unfold Fn.evaluate LineSearch.Fn.evaluate
  simp only [show (F.answered f).plus = F.plus from rfl]
  cases F.plus t with
  | none => rfl
  | some x => rfl

theorem armijoLoop_run (mp : List (Sample K X V) → K → K → K) (o : Opts K) (F : Fn R K X V)
    (f : X → Bool → R) (cost slope : K) (fuel : ℕ) (previous current : Sample K X V)
    (S : Summary K X V) :
    (armijoLoop mp o F cost slope fuel previous current S).run (fun q => f q.point q.jacobians) =
      LineSearch.armijoLoop mp o (F.answered f) cost slope fuel previous current S := by
  induction fuel generalizing previous current S with
  | zero =>
    rw [armijoLoop, LineSearch.armijoLoop]
    split
    · rfl
    · split
      · rfl
      · simp only [show (F.answered f).position = F.position from rfl,
          show (F.answered f).dirNorm = F.dirNorm from rfl]
        split
        · rename_i he; rw [he]; rfl
        · rename_i he
          rw [he]
          simp only []
          split <;> rfl
  | succ fuel ih =>
    rw [armijoLoop, LineSearch.armijoLoop]
    split
    · rfl
    · split
      · rfl
      · simp only [show (F.answered f).position = F.position from rfl,
          show (F.answered f).dirNorm = F.dirNorm from rfl]
        split
        · rename_i he; rw [he]; rfl
        · rename_i he
          rw [he]
          simp only []
          split
          · rfl
          · rw [Prog.run_bind, evaluate_run, ih]

theorem armijo_run (mp : List (Sample K X V) → K → K → K) (o : Opts K) (F : Fn R K X V)
    (f : X → Bool → R) (estimate cost slope : K) :
    (armijo mp o F estimate cost slope).run (fun q => f q.point q.jacobians) =
      LineSearch.armijo mp o (F.answered f) estimate cost slope := by
  unfold armijo LineSearch.armijo
  split
  · rw [Prog.run_bind, evaluate_run, armijoLoop_run]
  · rfl

theorem bracketLoop_run (mp : List (Sample K X V) → K → K → K) (o : Opts K) (F : Fn R K X V)
    (f : X → Bool → R) (cost slope : K) (fuel : ℕ) (previous current : Sample K X V)
    (evals iters : ℕ) (trace : List (Sample K X V)) :
    (bracketLoop mp o F cost slope fuel previous current evals iters trace).run
        (fun q => f q.point q.jacobians) =
      LineSearch.bracketLoop mp o (F.answered f) cost slope fuel previous current evals iters
        trace := by
  induction fuel generalizing previous current evals iters trace with
  | zero =>
    rw [bracketLoop, LineSearch.bracketLoop]
    simp only [show (F.answered f).position = F.position from rfl,
      show (F.answered f).dirNorm = F.dirNorm from rfl]
    split
    · rfl
    · split
      · rfl
      · split
        · rfl
        · split
          · rfl
          · split
            · rfl
            · split
              · rename_i he; rw [he]; rfl
              · rename_i he
                rw [he]
                simp only []
                split <;> rfl
  | succ fuel ih =>
    rw [bracketLoop, LineSearch.bracketLoop]
    simp only [show (F.answered f).position = F.position from rfl,
      show (F.answered f).dirNorm = F.dirNorm from rfl]
    split
    · rfl
    · split
      · rfl
      · split
        · rfl
        · split
          · rfl
          · split
            · rfl
            · split
              · rename_i he; rw [he]; rfl
              · rename_i he
                rw [he]
                simp only []
                split
                · rfl
                · rw [Prog.run_bind, evaluate_run, ih]

theorem zoomLoop_run (mp : List (Sample K X V) → K → K → K) (o : Opts K) (F : Fn R K X V)
    (f : X → Bool → R) (cost slope : K) (fuel : ℕ) (low high : Sample K X V)
    (evals iters : ℕ) (trace : List (Sample K X V)) :
    (zoomLoop mp o F cost slope fuel low high evals iters trace).run
        (fun q => f q.point q.jacobians) =
      LineSearch.zoomLoop mp o (F.answered f) cost slope fuel low high evals iters trace := by
  induction fuel generalizing low high evals iters trace with
  | zero =>
    rw [zoomLoop, LineSearch.zoomLoop]
    simp only [show (F.answered f).dirNorm = F.dirNorm from rfl]
    split
    · rfl
    · split
      · rfl
      · split
        · rename_i he; rw [he]; rfl
        · rename_i he
          rw [he, Prog.run_bind, evaluate_run]
          simp only []
          split <;> rfl
  | succ fuel ih =>
    rw [zoomLoop, LineSearch.zoomLoop]
    simp only [show (F.answered f).dirNorm = F.dirNorm from rfl]
    split
    · rfl
    · split
      · rfl
      · split
        · rename_i he; rw [he]; rfl
        · rename_i he
          rw [he, Prog.run_bind, evaluate_run]
          simp only []
          split
          · rfl
          · split
            · rw [ih]
            · split
              · rfl
              · rw [ih]

theorem wolfe_run (mp : List (Sample K X V) → K → K → K) (o : Opts K) (F : Fn R K X V)
    (f : X → Bool → R) (estimate cost slope : K) :
    (wolfe mp o F estimate cost slope).run (fun q => f q.point q.jacobians) =
      LineSearch.wolfe mp o (F.answered f) estimate cost slope := by
  unfold wolfe LineSearch.wolfe
  split
  · rw [Prog.run_bind]
    have hb : (bracketing mp o F estimate cost slope).run (fun q => f q.point q.jacobians) =
        LineSearch.bracketing mp o (F.answered f) estimate cost slope := by
      unfold bracketing LineSearch.bracketing
      rw [Prog.run_bind, evaluate_run, bracketLoop_run]
      rfl
    rw [hb]
    unfold wolfeFinish LineSearch.wolfeFinish
    split
    · rfl
    · split
      · rfl
      · rw [Prog.run_bind]
        have hz : ∀ low high e i tr,
            (zoomPhase mp o F cost slope low high e i tr).run (fun q => f q.point q.jacobians) =
              LineSearch.zoomPhase mp o (F.answered f) cost slope low high e i tr := by
          intro low high e i tr
          unfold zoomPhase LineSearch.zoomPhase
          split
          · rfl
          · split
            · rfl
            · split
              · rfl
              · rw [zoomLoop_run]
        rw [hz]
        rfl
  · rfl

/-! ### What an Armijo search asks -/

/-- An answer that counts as a successful evaluation. -/
def Fn.Reads (F : Fn R K X V) (ok : R → Bool) : Prop := ∀ r, ok r = false → F.decode r = none

omit [LinearOrder K] in
theorem sample_vx (F : Fn R K X V) (t : K) (g : Bool) (x : X) (r : R) :
    (F.sample t g x r).vx = some x := by
  unfold Fn.sample
  split
  · split
    · split <;> rfl
    · rfl
  · rfl

omit [LinearOrder K] in
theorem sample_valid {F : Fn R K X V} {ok : R → Bool} (hF : F.Reads ok) {t : K} {g : Bool} {x : X}
    {r : R} (h : (F.sample t g x r).valueValid = true) : ok r = true := by
  by_contra hr
  have hd := hF r (by simpa using hr)
  unfold Fn.sample at h
  rw [hd] at h
  simp at h

omit [LinearOrder K] in
/-- An evaluation asks about a new point; afterwards a valid sample is at the point last
evaluated. -/
theorem evaluate_meets {ok : R → Bool} {F : Fn R K X V} (hF : F.Reads ok)
    {C : Option X → Call X → Prop} {t : K} {g : Bool}
    (hC : ∀ l x, F.plus t = some x → C l ⟨x, g, true⟩) (last : Option X) :
    Meets ok C last (F.evaluate t g) (fun l s => s.valueValid = true → s.vx = l ∧ l.isSome) := by
  unfold Fn.evaluate
  cases hp : F.plus t with
  | none =>
    intro h
    simp [Sample.empty] at h
  | some x =>
    refine ⟨hC _ _ hp, fun r => ?_⟩
    intro h
    rw [sample_vx, sample_valid hF h]
    simp

theorem armijoLoop_meets {ok : R → Bool} {F : Fn R K X V} (hF : F.Reads ok)
    {C : Option X → Call X → Prop} (hC : ∀ l t x g, F.plus t = some x → C l ⟨x, g, true⟩)
    (mp : List (Sample K X V) → K → K → K) (o : Opts K) (cost slope : K) (fuel : ℕ)
    (previous current : Sample K X V) (S : Summary K X V) (last : Option X)
    (hS : S.status ≠ .success)
    (hcur : current.valueValid = true → current.vx = last ∧ last.isSome) :
    Meets ok C last (armijoLoop mp o F cost slope fuel previous current S)
      (fun l T => T.status = .success → T.optimal.vx = l ∧ l.isSome) := by
  induction fuel generalizing previous current S last with
  | zero =>
    rw [armijoLoop]
    split
    · rename_i hs
      intro _
      exact hcur (by unfold sufficient at hs; simp at hs; exact hs.1)
    · split
      · intro h; simp at h
      · split
        · intro h; simp at h
        · split <;> (intro h; simp at h)
  | succ fuel ih =>
    rw [armijoLoop]
    split
    · rename_i hs
      intro _
      exact hcur (by unfold sufficient at hs; simp at hs; exact hs.1)
    · split
      · intro h; simp at h
      · split
        · intro h; simp at h
        · split
          · intro h; simp at h
          · rw [meets_bind]
            refine (evaluate_meets hF (fun l x h => hC l _ x _ h) last).mono (fun _ _ h => h) ?_
            intro l s hs
            exact ih _ _ _ _ hS hs

/-- Whatever the answers are, an Armijo search asks only about new points, and if it succeeds then
the point it found is the one last evaluated. -/
theorem armijo_meets {ok : R → Bool} {F : Fn R K X V} (hF : F.Reads ok)
    {C : Option X → Call X → Prop} (hC : ∀ l t x g, F.plus t = some x → C l ⟨x, g, true⟩)
    (mp : List (Sample K X V) → K → K → K) (o : Opts K) (estimate cost slope : K)
    (last : Option X) :
    Meets ok C last (armijo mp o F estimate cost slope)
      (fun l T => T.status = .success → T.optimal.vx = l ∧ l.isSome) := by
  unfold armijo
  split
  · rw [meets_bind]
    refine (evaluate_meets hF (fun l x h => hC l _ x _ h) last).mono (fun _ _ h => h) ?_
    intro l s hs
    exact armijoLoop_meets hF hC _ _ _ _ _ _ _ _ _ (by simp) hs
  · intro h
    simp [Summary.abort] at h

end Ceres.EvalCallback
