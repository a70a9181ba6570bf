import Verif.Strategy.LM
import Mathlib.Data.Matrix.Mul
import Mathlib.LinearAlgebra.Matrix.NonsingularInverse
import Mathlib.LinearAlgebra.Matrix.PosDef

/-!
# C61: what the Levenberg-Marquardt step is

The linear solver is assumed to solve the damped normal equations exactly; everything else is
about the code.
-/
namespace Ceres.Strategy

open Ceres.TrustRegion Matrix

variable {m n : Nat}

/-! ### Specification -/

/-- Cost predicted by the linear model for the step `t`: `|J t + r|^2 / 2`. -/
noncomputable def modelCost (L : Linearization m n) (t : Fin n → ℝ) : ℝ :=
  (∑ k, (∑ i, L.J k i * t i + L.r k) ^ 2) / 2

/-- Squared length of a step measured with weights. -/
def weightedSq (w t : Fin n → ℝ) : ℝ := ∑ i, w i * t i ^ 2

/-- The linear solver solves `(J^T J + D^2) y = J^T r` exactly. -/
def SolvesExactly (solve : Solver m n) : Prop :=
  ∀ (L : Linearization m n) (D : Fin n → ℝ), (∀ i, D i ≠ 0) →
    ∃ y, solve L D = .step y ∧
      ∀ i, ∑ k, L.J k i * (∑ j, L.J k j * y j) + D i ^ 2 * y i = ∑ k, L.J k i * L.r k

/-! ### Algebra -/

theorem modelCostChange_eq (L : Linearization m n) (s : E n) :
    modelCostChange L s = modelCost L 0 - modelCost L s := by
  unfold modelCostChange modelCost
  simp only [dotProduct, mulVec, Pi.zero_apply, mul_zero, Finset.sum_const_zero, zero_add]
  rw [← sub_div, ← Finset.sum_sub_distrib, ← Finset.sum_neg_distrib, Finset.sum_div]
  refine Finset.sum_congr rfl fun k _ => ?_
  ring

/-- The damped normal equations, tested against a direction. -/
theorem normal_dir {L : Linearization m n} {w s : Fin n → ℝ}
    (h : ∀ i, ∑ k, L.J k i * (∑ j, L.J k j * s j + L.r k) + w i * s i = 0) (u : Fin n → ℝ) :
    ∑ k, (∑ i, L.J k i * u i) * (∑ j, L.J k j * s j + L.r k) + ∑ i, w i * s i * u i = 0 := by
  have h2 : ∑ i, (∑ k, L.J k i * (∑ j, L.J k j * s j + L.r k) + w i * s i) * u i = 0 := by
    simp [h]
  rw [← h2]
  simp only [add_mul (∑ k, _) _ (u _), Finset.sum_add_distrib, Finset.sum_mul]
  congr 1
  rw [Finset.sum_comm]
  refine Finset.sum_congr rfl fun i _ => Finset.sum_congr rfl fun k _ => ?_
  ring

/-- Completing the square about the solution of the damped normal equations. -/
theorem damped_expand {L : Linearization m n} {w s : Fin n → ℝ}
    (h : ∀ i, ∑ k, L.J k i * (∑ j, L.J k j * s j + L.r k) + w i * s i = 0) (t : Fin n → ℝ) :
    modelCost L t + weightedSq w t / 2 = modelCost L s + weightedSq w s / 2 +
      (∑ k, (∑ i, L.J k i * (t i - s i)) ^ 2) / 2 + weightedSq w (fun i => t i - s i) / 2 := by
  have hd := normal_dir h (fun i => t i - s i)
  unfold modelCost weightedSq
  have e1 : ∑ k, (∑ i, L.J k i * t i + L.r k) ^ 2 =
      ∑ k, (∑ i, L.J k i * s i + L.r k) ^ 2 +
      2 * ∑ k, (∑ i, L.J k i * (t i - s i)) * (∑ j, L.J k j * s j + L.r k) +
      ∑ k, (∑ i, L.J k i * (t i - s i)) ^ 2 := by
    rw [Finset.mul_sum, ← Finset.sum_add_distrib, ← Finset.sum_add_distrib]
    refine Finset.sum_congr rfl fun k _ => ?_
    have : ∑ i, L.J k i * t i = ∑ i, L.J k i * s i + ∑ i, L.J k i * (t i - s i) := by
      rw [← Finset.sum_add_distrib]
      exact Finset.sum_congr rfl fun i _ => by ring
    rw [this]
    ring
  have e2 : ∑ i, w i * t i ^ 2 = ∑ i, w i * s i ^ 2 + 2 * ∑ i, w i * s i * (t i - s i) +
      ∑ i, w i * (t i - s i) ^ 2 := by
    rw [Finset.mul_sum, ← Finset.sum_add_distrib, ← Finset.sum_add_distrib]
    exact Finset.sum_congr rfl fun i _ => by ring
  rw [e1, e2]
  linarith

theorem weightedSq_nonneg {w : Fin n → ℝ} (hw : ∀ i, 0 < w i) (t : Fin n → ℝ) :
    0 ≤ weightedSq w t :=
  Finset.sum_nonneg fun i _ => mul_nonneg (le_of_lt (hw i)) (sq_nonneg _)

theorem weightedSq_pos {w : Fin n → ℝ} (hw : ∀ i, 0 < w i) {t : Fin n → ℝ} (ht : t ≠ 0) :
    0 < weightedSq w t := by
  obtain ⟨i, hi⟩ := Function.ne_iff.mp ht
  refine Finset.sum_pos' (fun i _ => mul_nonneg (le_of_lt (hw i)) (sq_nonneg _))
    ⟨i, Finset.mem_univ _, mul_pos (hw i) ?_⟩
  have : t i ≠ 0 := hi
  positivity

theorem weightedSq_smul (c : ℝ) (w t : Fin n → ℝ) :
    weightedSq (fun i => c * w i) t = c * weightedSq w t := by
  unfold weightedSq
  rw [Finset.mul_sum]
  exact Finset.sum_congr rfl fun i _ => by ring

/-! ### Theorems -/

/-- The step returned by an exact solve satisfies the damped normal equations with weights
`diagonal / radius`. -/
theorem lm_step_normal (solve : Solver m n) (hsolve : SolvesExactly solve) (s : LM n)
    (L : Linearization m n) (hr : 0 < s.radius) (hd : ∀ i, 0 < (s.refresh L).diag i) :
    ∃ st : E n, (s.compute solve L).2 = .step st ∧
      ∀ i, ∑ k, L.J k i * (∑ j, L.J k j * st j + L.r k) +
        (s.refresh L).diag i / s.radius * st i = 0 := by
  have hD : ∀ i, Real.sqrt ((s.refresh L).diag i / s.radius) ≠ 0 := fun i =>
    ne_of_gt (Real.sqrt_pos.mpr (div_pos (hd i) hr))
  obtain ⟨y, hy, hn⟩ := hsolve L _ hD
  refine ⟨-y, ?_, ?_⟩
  · unfold LM.compute
    simp only
    rw [hy]
  · intro i
    have := hn i
    rw [Real.sq_sqrt (le_of_lt (div_pos (hd i) hr))] at this
    simp only [PiLp.neg_apply, mul_neg, Finset.sum_neg_distrib, mul_add, Finset.sum_add_distrib]
    linarith

/-- Every diagonal entry is positive after the refresh, in every reachable state. -/
theorem lm_diag_pos {X : Type} (o : Opts ℝ) (env : Env X (E n) ℝ) (solve : Solver m n)
    (lin : X → Linearization m n) (radius maxRadius minDiag maxDiag : ℝ) (s0 : LM n)
    (hs : LM.new radius maxRadius minDiag maxDiag = some s0) (x0 : X)
    (s : St (LM n) X (E n) ℝ) (h : Head o env (lmStrategy solve lin) s0 x0 s) (i : Fin n) :
    0 < (s.strat.refresh (lin s.x)).diag i := by
  rw [lm_diagonal_current o env solve lin radius maxRadius minDiag maxDiag s0 hs x0 s h]
  unfold LM.new at hs
  split at hs
  · rename_i hc
    exact lt_min (lt_max_of_lt_right hc.1) (lt_of_lt_of_le hc.1 hc.2.1)
  · cases hs

/-- **C61 (descent).**  With an exact linear solve, the predicted decrease of a
Levenberg-Marquardt step equals `|J s|^2 / 2` plus the damping term, so it is positive unless
the step is zero; and the step is zero only where the gradient `J^T r` is zero. -/
theorem lm_step_descends (solve : Solver m n) (hsolve : SolvesExactly solve) (s : LM n)
    (L : Linearization m n) (hr : 0 < s.radius) (hd : ∀ i, 0 < (s.refresh L).diag i) :
    ∃ st : E n, (s.compute solve L).2 = .step st ∧
      modelCostChange L st = (∑ k, (∑ i, L.J k i * st i) ^ 2) / 2 +
        (1 / s.radius) * weightedSq (s.refresh L).diag st ∧
      ((∃ i, ∑ k, L.J k i * L.r k ≠ 0) → st ≠ 0 ∧ 0 < modelCostChange L st) ∧
      ((∀ i, ∑ k, L.J k i * L.r k = 0) → st = 0) := by
  obtain ⟨st, h1, h2⟩ := lm_step_normal solve hsolve s L hr hd
  have hw : ∀ i, 0 < (s.refresh L).diag i / s.radius := fun i => div_pos (hd i) hr
  have heq : modelCostChange L st = (∑ k, (∑ i, L.J k i * st i) ^ 2) / 2 +
        (1 / s.radius) * weightedSq (s.refresh L).diag st := by
    have e := damped_expand h2 0
    rw [modelCostChange_eq]
    have e1 : weightedSq (fun i => (s.refresh L).diag i / s.radius) (0 : Fin n → ℝ) = 0 := by
      simp [weightedSq]
    have e2 : weightedSq (fun i => (s.refresh L).diag i / s.radius)
        (fun i => (0 : Fin n → ℝ) i - st i) =
        weightedSq (fun i => (s.refresh L).diag i / s.radius) st := by
      simp [weightedSq]
    have e3 : ∑ k, (∑ i, L.J k i * ((0 : Fin n → ℝ) i - st i)) ^ 2 =
        ∑ k, (∑ i, L.J k i * st i) ^ 2 := by
      simp
    have e4 : weightedSq (fun i => (s.refresh L).diag i / s.radius) st =
        (1 / s.radius) * weightedSq (s.refresh L).diag st := by
      rw [← weightedSq_smul]
      congr 1
      funext i
      ring
    rw [e1, e2, e3] at e
    rw [← e4]
    linarith
  have hne : (∃ i, ∑ k, L.J k i * L.r k ≠ 0) → st ≠ 0 := by
    rintro ⟨i, hi⟩ h0
    apply hi
    have := h2 i
    rw [h0] at this
    simpa using this
  refine ⟨st, h1, heq, fun hg => ⟨hne hg, ?_⟩, ?_⟩
  · rw [heq]
    have hst : (st : Fin n → ℝ) ≠ 0 := by
      intro h
      apply hne hg
      ext i
      exact congrFun h i
    have := weightedSq_pos hd hst
    have h3 : 0 ≤ ∑ k, (∑ i, L.J k i * st i) ^ 2 := Finset.sum_nonneg fun _ _ => sq_nonneg _
    have h4 : 0 < (1 / s.radius) * weightedSq (s.refresh L).diag st :=
      mul_pos (by positivity) this
    linarith
  · intro hg
    have hdir := normal_dir h2 st
    have hz : ∑ k, (∑ i, L.J k i * st i) * L.r k = 0 := by
      have : ∑ i, (∑ k, L.J k i * L.r k) * st i = 0 := by simp [hg]
      rw [← this]
      simp only [Finset.sum_mul]
      rw [Finset.sum_comm]
      exact Finset.sum_congr rfl fun i _ => Finset.sum_congr rfl fun k _ => by ring
    by_contra hst
    have hst' : (st : Fin n → ℝ) ≠ 0 := by
      intro h
      apply hst
      ext i
      exact congrFun h i
    have hp := weightedSq_pos hw hst'
    have e : ∑ k, (∑ i, L.J k i * st i) * (∑ j, L.J k j * st j + L.r k) =
        ∑ k, (∑ i, L.J k i * st i) ^ 2 + ∑ k, (∑ i, L.J k i * st i) * L.r k := by
      rw [← Finset.sum_add_distrib]
      exact Finset.sum_congr rfl fun k _ => by ring
    have e5 : ∑ i, (s.refresh L).diag i / s.radius * st i * st i =
        weightedSq (fun i => (s.refresh L).diag i / s.radius) st :=
      Finset.sum_congr rfl fun i _ => by ring
    rw [e, hz, e5] at hdir
    have h3 : 0 ≤ ∑ k, (∑ i, L.J k i * st i) ^ 2 := Finset.sum_nonneg fun _ _ => sq_nonneg _
    linarith

/-- **C61 (best within its length).**  Among all steps that are no longer (in the norm scaled by
the damping diagonal), the Levenberg-Marquardt step gives the linear model its least cost, and
it is the only one that does. -/
theorem lm_step_best (solve : Solver m n) (hsolve : SolvesExactly solve) (s : LM n)
    (L : Linearization m n) (hr : 0 < s.radius) (hd : ∀ i, 0 < (s.refresh L).diag i) :
    ∃ st : E n, (s.compute solve L).2 = .step st ∧
      ∀ t : E n, weightedSq (s.refresh L).diag t ≤ weightedSq (s.refresh L).diag st →
        modelCost L st ≤ modelCost L t ∧ (modelCost L t = modelCost L st → t = st) := by
  obtain ⟨st, h1, h2⟩ := lm_step_normal solve hsolve s L hr hd
  refine ⟨st, h1, fun t ht => ?_⟩
  have e := damped_expand h2 t
  have hsm : ∀ u : Fin n → ℝ, weightedSq (fun i => (s.refresh L).diag i / s.radius) u =
      (1 / s.radius) * weightedSq (s.refresh L).diag u := by
    intro u
    rw [← weightedSq_smul]
    congr 1
    funext i
    ring
  rw [hsm, hsm, hsm] at e
  have h3 : 0 ≤ ∑ k, (∑ i, L.J k i * (t i - st i)) ^ 2 :=
    Finset.sum_nonneg fun _ _ => sq_nonneg _
  have hp : 0 < 1 / s.radius := by positivity
  have hle := mul_le_mul_of_nonneg_left ht (le_of_lt hp)
  have h4 := weightedSq_nonneg hd (fun i => t i - st i)
  have h5 := mul_nonneg (le_of_lt hp) h4
  refine ⟨by linarith, fun heq => ?_⟩
  by_contra hne
  have hne' : (fun i => t i - st i) ≠ (0 : Fin n → ℝ) := by
    intro h
    apply hne
    ext i
    have := congrFun h i
    simp only [Pi.zero_apply] at this
    linarith
  have h6 := mul_pos hp (weightedSq_pos hd hne')
  linarith

/-- **C61 (radius controls length).**  At the same point, a smaller radius never gives a longer
step (in the norm scaled by the damping diagonal), and never a smaller model cost. -/
theorem lm_step_monotone (solve : Solver m n) (hsolve : SolvesExactly solve) (s s' : LM n)
    (L : Linearization m n) (hr : 0 < s.radius) (hlt : s.radius < s'.radius)
    (hd : ∀ i, 0 < (s.refresh L).diag i) (hsame : (s'.refresh L).diag = (s.refresh L).diag) :
    ∃ st st' : E n, (s.compute solve L).2 = .step st ∧ (s'.compute solve L).2 = .step st' ∧
      weightedSq (s.refresh L).diag st ≤ weightedSq (s.refresh L).diag st' ∧
      modelCost L st' ≤ modelCost L st := by
  obtain ⟨st, h1, h2⟩ := lm_step_normal solve hsolve s L hr hd
  obtain ⟨st', h1', h2'⟩ := lm_step_normal solve hsolve s' L (lt_trans hr hlt)
    (by rw [hsame]; exact hd)
  refine ⟨st, st', h1, h1', ?_⟩
  have e := damped_expand h2 st'
  have e' := damped_expand h2' st
  rw [hsame] at e'
  have hsm : ∀ (ρ : ℝ) (u : Fin n → ℝ), weightedSq (fun i => (s.refresh L).diag i / ρ) u =
      (1 / ρ) * weightedSq (s.refresh L).diag u := by
    intro ρ u
    rw [← weightedSq_smul]
    congr 1
    funext i
    ring
  rw [hsm, hsm, hsm] at e e'
  have hp : 0 < 1 / s.radius := by positivity
  have hr' := lt_trans hr hlt
  have hp' : 0 < 1 / s'.radius := by positivity
  have hlt' : 1 / s'.radius < 1 / s.radius := one_div_lt_one_div_of_lt hr hlt
  have q1 : 0 ≤ ∑ k, (∑ i, L.J k i * (st' i - st i)) ^ 2 :=
    Finset.sum_nonneg fun _ _ => sq_nonneg _
  have q2 : 0 ≤ ∑ k, (∑ i, L.J k i * (st i - st' i)) ^ 2 :=
    Finset.sum_nonneg fun _ _ => sq_nonneg _
  have q3 := mul_nonneg (le_of_lt hp) (weightedSq_nonneg hd (fun i => st' i - st i))
  have q4 := mul_nonneg (le_of_lt hp') (weightedSq_nonneg hd (fun i => st i - st' i))
  have key : (1 / s.radius - 1 / s'.radius) *
      (weightedSq (s.refresh L).diag st' - weightedSq (s.refresh L).diag st) ≥ 0 := by
    nlinarith
  have hle : weightedSq (s.refresh L).diag st ≤ weightedSq (s.refresh L).diag st' := by
    by_contra hc
    push Not at hc
    nlinarith
  refine ⟨hle, ?_⟩
  have := mul_le_mul_of_nonneg_left hle (le_of_lt hp')
  linarith

/-! ### Non-vacuity -/

/-- An exact solver exists for every size: the damped normal matrix is invertible. -/
theorem exists_exact_solver (m n : Nat) : ∃ solve : Solver m n, SolvesExactly solve := by
  classical
  have h : ∀ (L : Linearization m n) (D : Fin n → ℝ), ∃ y : E n, (∀ i, D i ≠ 0) →
      ∀ i, ∑ k, L.J k i * (∑ j, L.J k j * y j) + D i ^ 2 * y i = ∑ k, L.J k i * L.r k := by
    intro L D
    by_cases hD : ∀ i, D i ≠ 0
    swap
    · exact ⟨0, fun h => absurd h hD⟩
    let A : Matrix (Fin n) (Fin n) ℝ := L.Jᵀ * L.J + Matrix.diagonal (fun i => D i ^ 2)
    have hinj : Function.Injective A.mulVec := by
      intro u v huv
      have h0 : A.mulVec (u - v) = 0 := by rw [Matrix.mulVec_sub, huv, sub_self]
      by_contra hne
      have hne' : u - v ≠ 0 := sub_ne_zero.mpr hne
      have hq : (u - v) ⬝ᵥ A.mulVec (u - v) = 0 := by rw [h0]; simp
      have hexp : (u - v) ⬝ᵥ A.mulVec (u - v) =
          (L.J.mulVec (u - v)) ⬝ᵥ (L.J.mulVec (u - v)) +
            weightedSq (fun i => D i ^ 2) (u - v) := by
        simp only [A, Matrix.add_mulVec, dotProduct_add, ← Matrix.mulVec_mulVec]
        congr 1
        · rw [Matrix.dotProduct_mulVec, Matrix.vecMul_transpose]
        · unfold weightedSq
          simp only [dotProduct, Matrix.mulVec_diagonal]
          exact Finset.sum_congr rfl fun i _ => by ring
      have h1 : 0 ≤ (L.J.mulVec (u - v)) ⬝ᵥ (L.J.mulVec (u - v)) :=
        Finset.sum_nonneg fun i _ => mul_self_nonneg _
      have h2 : 0 < weightedSq (fun i => D i ^ 2) (u - v) :=
        weightedSq_pos (fun i => by have := hD i; positivity) hne'
      linarith
    have hsurj : Function.Surjective A.mulVec :=
      (LinearMap.injective_iff_surjective (f := A.mulVecLin)).mp hinj
    obtain ⟨y, hy⟩ := hsurj (L.Jᵀ.mulVec L.r)
    refine ⟨vec y, fun _ i => ?_⟩
    have := congrFun hy i
    simp only [A, Matrix.add_mulVec, ← Matrix.mulVec_mulVec, Pi.add_apply, Matrix.mulVec_diagonal]
      at this
    simpa [Matrix.mulVec, dotProduct, Matrix.transpose_apply] using this
  choose f hf using h
  refine ⟨fun L D => .step (f L D), fun L D hD => ⟨f L D, rfl, hf L D hD⟩⟩

/-- A concrete case of the hypotheses: default-like strategy, nonzero gradient. -/
example : ∃ (solve : Solver 1 1) (s : LM 1) (L : Linearization 1 1), SolvesExactly solve ∧
    0 < s.radius ∧ (∀ i, 0 < (s.refresh L).diag i) ∧ ∃ i, ∑ k, L.J k i * L.r k ≠ 0 := by
  obtain ⟨solve, h⟩ := exists_exact_solver 1 1
  refine ⟨solve, ⟨10, 100, 1, 2, 2, false, fun _ => 0⟩, ⟨fun _ _ => 3, fun _ => 5⟩, h,
    by norm_num, ?_, ⟨0, by norm_num⟩⟩
  intro i
  simp [LM.refresh]

end Ceres.Strategy
