import Verif.Robust.LossProps
import Mathlib.Algebra.BigOperators.Ring.Finset

/-!
# The corrector (C40)
-/
noncomputable section
namespace Ceres.Robust
open Matrix

variable {n : ℕ} {m : Type}

theorem sum_sq_eq_zero {r : Fin n → ℝ} (h : ∑ i, r i * r i = 0) (i : Fin n) : r i = 0 := by
  have := (Finset.sum_eq_zero_iff_of_nonneg fun i _ => mul_self_nonneg (r i)).mp h i
    (Finset.mem_univ i)
  exact mul_self_eq_zero.mp this

theorem full_alpha {s : ℝ} {rho : Rho} (hs : 0 < s) (h2 : 0 < rho.r2) (h1 : 0 < rho.r1) :
    1 < √(1 + 2 * s * rho.r2 / rho.r1) := by
  rw [Real.lt_sqrt (by norm_num)]
  have : 0 < 2 * s * rho.r2 / rho.r1 := by positivity
  linarith

/-- The constructor in the case of the second order correction. -/
theorem mkCorrector_full {s : ℝ} {rho : Rho} {C : Corrector} (h : mkCorrector s rho = some C)
    (hs : s ≠ 0) (h2 : 0 < rho.r2) :
    0 < s ∧ 0 < rho.r1 ∧ ∃ D : ℝ, 1 < √D ∧ D = 1 + 2 * s * rho.r2 / rho.r1 ∧
      C = ⟨√rho.r1, √rho.r1 / √D, (1 - √D) / s⟩ := by
  unfold mkCorrector at h
  by_cases hs0 : 0 ≤ s
  · rw [if_neg (not_not.mpr hs0)] at h
    have hsp : 0 < s := lt_of_le_of_ne hs0 (Ne.symm hs)
    rw [if_neg (by push Not; exact ⟨hs, h2⟩)] at h
    by_cases h1 : 0 < rho.r1
    · rw [if_neg (not_not.mpr h1)] at h
      refine ⟨hsp, h1, _, full_alpha hsp h2 h1, rfl, ?_⟩
      simp only [Option.some.injEq] at h
      rw [← h]
      congr 2
      ring
    · rw [if_pos h1] at h; simp at h
  · rw [if_pos hs0] at h; simp at h

/-- The constructor in the other cases. -/
theorem mkCorrector_plain {s : ℝ} {rho : Rho} {C : Corrector} (h : mkCorrector s rho = some C)
    (hc : s = 0 ∨ rho.r2 ≤ 0) : C = ⟨√rho.r1, √rho.r1, 0⟩ := by
  unfold mkCorrector at h
  by_cases hs0 : 0 ≤ s
  · rw [if_neg (not_not.mpr hs0), if_pos hc] at h
    exact (Option.some.inj h).symm
  · rw [if_pos hs0] at h; simp at h

/-- **C40.** The corrected residuals and Jacobian have the gradient of the robust cost:
`J̃ᵀ r̃ = ρ' Jᵀ r`. -/
theorem corrected_gradient {r : Fin n → ℝ} {rho : Rho} {C : Corrector}
    (h : mkCorrector (∑ i, r i * r i) rho = some C) (h1 : 0 ≤ rho.r1)
    (J : Matrix (Fin n) m ℝ) :
    (C.jacobian r J)ᵀ *ᵥ C.residuals r = rho.r1 • (Jᵀ *ᵥ r) := by
  have hq := Real.mul_self_sqrt h1
  funext c
  by_cases hc : ∑ i, r i * r i = 0 ∨ rho.r2 ≤ 0
  · rw [mkCorrector_plain h hc]
    simp only [mulVec, dotProduct, Matrix.transpose_apply, Corrector.jacobian,
      Corrector.residuals, if_true, Pi.smul_apply, smul_eq_mul, Finset.mul_sum]
    refine Finset.sum_congr rfl fun i _ => ?_
    linear_combination J i c * r i * hq
  · push Not at hc
    obtain ⟨hs, h1', D, hD, -, hC⟩ := mkCorrector_full h hc.1 hc.2
    have ha : (1 - √D) / (∑ i, r i * r i) ≠ 0 := div_ne_zero (by linarith) hs.ne'
    rw [hC]
    simp only [mulVec, dotProduct, Matrix.transpose_apply, Corrector.jacobian,
      Corrector.residuals, if_neg ha, Pi.smul_apply, smul_eq_mul]
    have hD0 : √D ≠ 0 := by linarith
    generalize √rho.r1 = q at hq
    have e : ∀ i, q * (J i c - (1 - √D) / (∑ i, r i * r i) * r i * ∑ k, J k c * r k) *
        (r i * (q / √D)) = rho.r1 / √D * (J i c * r i) -
          rho.r1 / √D * ((1 - √D) / (∑ i, r i * r i) * ∑ k, J k c * r k) * (r i * r i) := by
      intro i
      rw [← hq]
      ring
    rw [Finset.sum_congr rfl fun i _ => e i, Finset.sum_sub_distrib, ← Finset.mul_sum,
      ← Finset.mul_sum]
    generalize ∑ i, r i * r i = s at *
    field_simp
    ring

/-- **C40.** Where the loss curves upwards and the residual is not zero, the Gauss-Newton matrix
of the corrected problem is that of the robust cost:
`J̃ᵀ J̃ = ρ' Jᵀ J + 2 ρ'' (Jᵀ r) (Jᵀ r)ᵀ`. -/
theorem corrected_hessian {r : Fin n → ℝ} {rho : Rho} {C : Corrector}
    (h : mkCorrector (∑ i, r i * r i) rho = some C) (h2 : 0 < rho.r2) (hr : r ≠ 0)
    (J : Matrix (Fin n) m ℝ) (c d : m) :
    ((C.jacobian r J)ᵀ * C.jacobian r J) c d =
      rho.r1 * (Jᵀ * J) c d + 2 * rho.r2 * ((Jᵀ *ᵥ r) c * (Jᵀ *ᵥ r) d) := by
  have hs0 : ∑ i, r i * r i ≠ 0 := fun h0 => hr (funext fun i => sum_sq_eq_zero h0 i)
  obtain ⟨hs, h1', D, hD, hDe, hC⟩ := mkCorrector_full h hs0 h2
  have ha : (1 - √D) / (∑ i, r i * r i) ≠ 0 := div_ne_zero (by linarith) hs.ne'
  have hq := Real.mul_self_sqrt h1'.le
  have hD0 : 0 ≤ D := by
    rw [hDe]; positivity
  have hDD := Real.mul_self_sqrt hD0
  rw [hC]
  simp only [mulVec, dotProduct, Matrix.transpose_apply, Corrector.jacobian,
    if_neg ha, Matrix.mul_apply]
  generalize √rho.r1 = q at hq
  set s := ∑ i, r i * r i with hsdef
  set k := (1 - √D) / s with hk
  set tc := ∑ k, J k c * r k with htc
  set td := ∑ k, J k d * r k with htd
  have e : ∀ i, q * (J i c - k * r i * tc) * (q * (J i d - k * r i * td)) =
      rho.r1 * (J i c * J i d) - rho.r1 * k * td * (J i c * r i) -
        rho.r1 * k * tc * (J i d * r i) + rho.r1 * (k * k) * (tc * td) * (r i * r i) := by
    intro i
    rw [← hq]
    ring
  rw [Finset.sum_congr rfl fun i _ => e i, Finset.sum_add_distrib, Finset.sum_sub_distrib,
    Finset.sum_sub_distrib, ← Finset.mul_sum, ← Finset.mul_sum, ← Finset.mul_sum,
    ← Finset.mul_sum, ← htc, ← htd, ← hsdef]
  have hks : k * s = 1 - √D := by rw [hk]; field_simp
  have key : rho.r1 * (k * k * s - 2 * k) = 2 * rho.r2 := by
    have h3 : s * (rho.r1 * (k * k * s - 2 * k)) = s * (2 * rho.r2) := by
      have : s * (rho.r1 * (k * k * s - 2 * k)) = rho.r1 * ((k * s) * (k * s) - 2 * (k * s)) := by
        ring
      rw [this, hks]
      have : (1 - √D) * (1 - √D) - 2 * (1 - √D) = √D * √D - 1 := by ring
      rw [this, hDD, hDe]
      field_simp
      ring
    exact mul_left_cancel₀ hs.ne' h3
  linear_combination (tc * td) * key

/-- **C40.** Otherwise the correction is a scaling by the square root of the derivative. -/
theorem corrected_plain {r : Fin n → ℝ} {rho : Rho} {C : Corrector}
    (h : mkCorrector (∑ i, r i * r i) rho = some C) (hc : r = 0 ∨ rho.r2 ≤ 0)
    (J : Matrix (Fin n) m ℝ) :
    C.residuals r = √rho.r1 • r ∧ C.jacobian r J = √rho.r1 • J := by
  have hc' : ∑ i, r i * r i = 0 ∨ rho.r2 ≤ 0 := hc.imp_left fun h => by simp [h]
  rw [mkCorrector_plain h hc']
  constructor
  · funext i; simp [Corrector.residuals, mul_comm]
  · funext i c; simp [Corrector.jacobian, mul_comm]

/-- **C40.** In every case the Gauss-Newton matrix of the corrected problem is between zero and
the exact one: `0 ≤ ‖J̃ v‖²`, and `‖J̃ v‖² = ρ' ‖J v‖² + 2 max(ρ'', 0) (rᵀ J v)²`. -/
theorem corrected_quadratic [Fintype m] {r : Fin n → ℝ} {rho : Rho} {C : Corrector}
    (h : mkCorrector (∑ i, r i * r i) rho = some C) (h1 : 0 ≤ rho.r1)
    (J : Matrix (Fin n) m ℝ) (v : m → ℝ) :
    (C.jacobian r J *ᵥ v) ⬝ᵥ (C.jacobian r J *ᵥ v) =
      rho.r1 * ((J *ᵥ v) ⬝ᵥ (J *ᵥ v)) + 2 * max rho.r2 0 * (r ⬝ᵥ (J *ᵥ v)) ^ 2 := by
  by_cases hc : r = 0 ∨ rho.r2 ≤ 0
  · rw [(corrected_plain h hc J).2, Matrix.smul_mulVec, smul_dotProduct, dotProduct_smul,
      smul_eq_mul, smul_eq_mul, ← mul_assoc, Real.mul_self_sqrt h1]
    rcases hc with hc | hc
    · rw [hc, zero_dotProduct]; ring
    · rw [max_eq_right hc]; ring
  · push Not at hc
    rw [max_eq_left hc.2.le]
    have hH : (C.jacobian r J)ᵀ * C.jacobian r J =
        rho.r1 • (Jᵀ * J) + (2 * rho.r2) • Matrix.vecMulVec (Jᵀ *ᵥ r) (Jᵀ *ᵥ r) := by
      funext c d
      rw [corrected_hessian h hc.2 hc.1 J c d]
      simp [Matrix.vecMulVec_apply]
    have q : ∀ A : Matrix (Fin n) m ℝ, (A *ᵥ v) ⬝ᵥ (A *ᵥ v) = v ⬝ᵥ ((Aᵀ * A) *ᵥ v) := by
      intro A
      rw [← Matrix.mulVec_mulVec, Matrix.mulVec_transpose, dotProduct_comm v,
        ← Matrix.dotProduct_mulVec]
    rw [q, hH, Matrix.add_mulVec, dotProduct_add, Matrix.smul_mulVec, Matrix.smul_mulVec,
      dotProduct_smul, dotProduct_smul, ← q, smul_eq_mul, smul_eq_mul]
    congr 1
    rw [Matrix.vecMulVec_mulVec]
    have e : (Jᵀ *ᵥ r) ⬝ᵥ v = r ⬝ᵥ (J *ᵥ v) := by
      rw [Matrix.mulVec_transpose, ← Matrix.dotProduct_mulVec]
    rw [e]
    have e2 : v ⬝ᵥ (Jᵀ *ᵥ r) = r ⬝ᵥ (J *ᵥ v) := by rw [dotProduct_comm, e]
    simp only [op_smul_eq_mul, dotProduct_smul, e2, smul_eq_mul]
    ring

/-! ### The hypotheses can be met -/

/-- A loss that curves upwards and a residual that is not zero. -/
example : ∃ C, mkCorrector (∑ i, (![1, 2] : Fin 2 → ℝ) i * (![1, 2] : Fin 2 → ℝ) i)
    (tolerant 1 1 5) = some C ∧ 0 < (tolerant 1 1 5).r2 := by
  have h2 : 0 < (tolerant 1 1 5).r2 := by
    rw [tolerant_of_le (by norm_num)]
    have := Real.cosh_pos (((5 : ℝ) - 1) / 1)
    positivity
  have e : ∑ i, (![1, 2] : Fin 2 → ℝ) i * (![1, 2] : Fin 2 → ℝ) i = 5 := by
    simp [Fin.sum_univ_two]; norm_num
  rw [e]
  obtain ⟨C, hC⟩ := Option.isSome_iff_exists.mp (corrector_never_aborts (.tolerant 1 1)
    ⟨zero_le_one, one_pos⟩ (show (0 : ℝ) ≤ 5 by norm_num))
  exact ⟨C, hC, h2⟩

end Ceres.Robust
