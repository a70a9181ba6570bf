import Verif.Rotation.Quat
import Mathlib.Analysis.Normed.Algebra.QuaternionExponential
import Mathlib.Analysis.SpecialFunctions.Trigonometric.Sinc
import Mathlib.Analysis.Real.Pi.Bounds

/-!
# Angle-axis vectors

Specification: an angle-axis vector `a` stands for the unit quaternion `exp (a / 2)` of Mathlib's
quaternion algebra.
-/

namespace Ceres.Rotation

open Quaternion Matrix

noncomputable section

/-- The length of a vector. -/
def theta (a : V3) : ℝ := Real.sqrt (a 0 * a 0 + a 1 * a 1 + a 2 * a 2)

theorem theta_nonneg (a : V3) : 0 ≤ theta a := Real.sqrt_nonneg _

theorem theta_mul_self (a : V3) : theta a * theta a = a 0 * a 0 + a 1 * a 1 + a 2 * a 2 :=
  Real.mul_self_sqrt (by nlinarith [sq_nonneg (a 0), sq_nonneg (a 1), sq_nonneg (a 2)])

theorem theta_eq_zero {a : V3} (h : theta a = 0) : a = 0 := by
  have h2 := theta_mul_self a
  rw [h] at h2
  have h0 : a 0 = 0 := by nlinarith [sq_nonneg (a 0), sq_nonneg (a 1), sq_nonneg (a 2)]
  have h1 : a 1 = 0 := by nlinarith [sq_nonneg (a 0), sq_nonneg (a 1), sq_nonneg (a 2)]
  have h2 : a 2 = 0 := by nlinarith [sq_nonneg (a 0), sq_nonneg (a 1), sq_nonneg (a 2)]
  funext i
  fin_cases i <;> assumption

theorem theta_smul (c : ℝ) (a : V3) : theta (c • a) = |c| * theta a := by
  have : (c • a) 0 * (c • a) 0 + (c • a) 1 * (c • a) 1 + (c • a) 2 * (c • a) 2
      = c ^ 2 * (a 0 * a 0 + a 1 * a 1 + a 2 * a 2) := by
    simp only [Pi.smul_apply, smul_eq_mul]; ring
  rw [theta, this, Real.sqrt_mul (sq_nonneg c), Real.sqrt_sq_eq_abs, theta]

/-- The length of a vector is the norm of its pure quaternion. -/
theorem norm_pure (a : V3) : ‖pure a‖ = theta a := by
  have h1 : ‖pure a‖ * ‖pure a‖ = theta a * theta a := by
    rw [← Quaternion.normSq_eq_norm_mul_self, theta_mul_self, Quaternion.normSq_def']
    simp only [pure, quat_re, quat_imI, quat_imJ, quat_imK]; ring
  nlinarith [norm_nonneg (pure a), theta_nonneg a, mul_self_inj (norm_nonneg (pure a)) (theta_nonneg a)
    |>.1 h1]

/-- The value of `AngleAxisToQuaternion` in closed form. -/
theorem angleAxisToQuaternion_eq (o : Order) (a : V3) :
    angleAxisToQuaternion o a = mk o (Real.cos (theta a / 2))
      (a 0 * (Real.sinc (theta a / 2) / 2)) (a 1 * (Real.sinc (theta a / 2) / 2))
      (a 2 * (Real.sinc (theta a / 2) / 2)) := by
  have ht : hypot3 (a 0) (a 1) (a 2) = theta a := rfl
  simp only [angleAxisToQuaternion, ht]
  by_cases h : theta a ≠ 0
  · rw [if_pos h]
    have h2 : theta a / 2 ≠ 0 := div_ne_zero h two_ne_zero
    rw [Real.sinc_of_ne_zero h2]
    have e1 : theta a * (1 / 2) = theta a / 2 := by ring
    rw [e1]
    have e2 : Real.sin (theta a / 2) / (theta a / 2) / 2 = Real.sin (theta a / 2) / theta a := by
      field_simp
    rw [e2]
  · rw [if_neg h]
    push Not at h
    rw [h]
    simp [angleAxisToQuaternionZero]

/-- **C42.** `AngleAxisToQuaternion` gives the exponential of half the vector. -/
theorem angleAxisToQuaternion_spec {o : Order} (ho : o.Valid) (a : V3) :
    toH o (angleAxisToQuaternion o a) = NormedSpace.exp ((1 / 2 : ℝ) • pure a) := by
  have hre : ((1 / 2 : ℝ) • pure a).re = 0 := by simp [pure]
  rw [Quaternion.exp_of_re_eq_zero _ hre, norm_smul, norm_pure, angleAxisToQuaternion_eq,
    toH_mk ho, Real.norm_of_nonneg (by norm_num : (0 : ℝ) ≤ 1 / 2)]
  have e : (1 / 2 : ℝ) * theta a = theta a / 2 := by ring
  rw [e]
  by_cases h : theta a = 0
  · have := theta_eq_zero h
    subst this
    rw [h]
    ext <;> simp [pure]
  · rw [Real.sinc_of_ne_zero (div_ne_zero h two_ne_zero)]
    ext <;> simp [pure] <;> ring

/-- **C42.** `AngleAxisToQuaternion` always gives a unit quaternion. -/
theorem angleAxisToQuaternion_unit {o : Order} (ho : o.Valid) (a : V3) :
    IsUnitQ o (angleAxisToQuaternion o a) := by
  rw [IsUnitQ, angleAxisToQuaternion_spec ho, Quaternion.normSq_exp]
  simp [pure]

/-- The two half-angle facts used below. -/
theorem half_angle (t : ℝ) :
    Real.cos t = Real.cos (t / 2) ^ 2 - Real.sin (t / 2) ^ 2
      ∧ Real.sin t = 2 * Real.sin (t / 2) * Real.cos (t / 2)
      ∧ Real.sin (t / 2) ^ 2 + Real.cos (t / 2) ^ 2 = 1 := by
  refine ⟨?_, ?_, Real.sin_sq_add_cos_sq _⟩
  · have := Real.cos_two_mul' (t / 2)
    rwa [show 2 * (t / 2) = t by ring] at this
  · have := Real.sin_two_mul (t / 2)
    rwa [show 2 * (t / 2) = t by ring] at this

/-- **C42.** `AngleAxisToRotationMatrix` is the matrix of the quaternion of the vector. -/
theorem angleAxisToRotationMatrix_eq {o : Order} (ho : o.Valid) (a : V3) :
    angleAxisToRotationMatrix a = quaternionToRotation o (angleAxisToQuaternion o a) := by
  rw [quaternionToRotation_unit (angleAxisToQuaternion_unit ho a), angleAxisToQuaternion_eq]
  have ht : hypot3 (a 0) (a 1) (a 2) = theta a := rfl
  simp only [angleAxisToRotationMatrix, ht, quaternionToScaledRotation, mk_w ho, mk_x ho, mk_y ho,
    mk_z ho]
  by_cases h : theta a ≠ 0
  · rw [if_pos h, Real.sinc_of_ne_zero (div_ne_zero h two_ne_zero)]
    obtain ⟨hc, hs, h1⟩ := half_angle (theta a)
    have htt := theta_mul_self a
    rw [hc, hs]
    generalize Real.sin (theta a / 2) = S at *
    generalize Real.cos (theta a / 2) = C at *
    generalize theta a = t at *
    have hS : S / (t / 2) / 2 = S / t := by field_simp
    rw [hS]
    have hw : a 0 / t * (a 0 / t) + a 1 / t * (a 1 / t) + a 2 / t * (a 2 / t) = 1 := by
      field_simp; linarith
    have e : ∀ i, a i * (S / t) = a i / t * S := fun i => by ring
    simp only [e]
    generalize a 0 / t = x at *
    generalize a 1 / t = y at *
    generalize a 2 / t = z at *
    have hCS : 1 - (C ^ 2 - S ^ 2) = 2 * S ^ 2 := by linarith
    rw [hCS]
    ext i j
    fin_cases i <;> fin_cases j <;> simp
    · linear_combination (S ^ 2) * hw
    · ring
    · ring
    · ring
    · linear_combination (S ^ 2) * hw
    · ring
    · ring
    · ring
    · linear_combination (S ^ 2) * hw
  · rw [if_neg h]
    push Not at h
    have := theta_eq_zero h
    subst this
    ext i j
    fin_cases i <;> fin_cases j <;> simp [h, angleAxisToRotationMatrixZero]

/-- **C42.** Rotating a point with `AngleAxisRotatePoint` is multiplying it with the matrix of
`AngleAxisToRotationMatrix`. -/
theorem angleAxisRotatePoint_eq_mulVec (a p : V3) :
    angleAxisRotatePoint a p = angleAxisToRotationMatrix a *ᵥ p := by
  have ht : hypot3 (a 0) (a 1) (a 2) = theta a := rfl
  simp only [angleAxisRotatePoint, angleAxisToRotationMatrix, ht]
  by_cases h : theta a ≠ 0
  · rw [if_pos h, if_pos h]
    simp only [div_eq_mul_inv, one_mul]
    generalize a 0 * (theta a)⁻¹ = x
    generalize a 1 * (theta a)⁻¹ = y
    generalize a 2 * (theta a)⁻¹ = z
    funext i
    fin_cases i <;> simp [Matrix.mulVec, _root_.dotProduct, Fin.sum_univ_three] <;> ring
  · rw [if_neg h, if_neg h]
    funext i
    fin_cases i <;> simp [angleAxisToRotationMatrixZero, angleAxisRotatePointZero, Matrix.mulVec, _root_.dotProduct, Fin.sum_univ_three] <;> ring

/-- **C42.** `AngleAxisRotatePoint` is `exp(a/2) p exp(a/2)⁻¹`. -/
theorem angleAxisRotatePoint_spec (a p : V3) :
    pure (angleAxisRotatePoint a p)
      = NormedSpace.exp ((1 / 2 : ℝ) • pure a) * pure p
        * (NormedSpace.exp ((1 / 2 : ℝ) • pure a))⁻¹ := by
  rw [angleAxisRotatePoint_eq_mulVec, angleAxisToRotationMatrix_eq ceresOrder_valid,
    quaternionToRotation_mulVec, angleAxisToQuaternion_spec ceresOrder_valid]

/-- **C42.** `AngleAxisToRotationMatrix` gives a rotation matrix for every vector. -/
theorem angleAxisToRotationMatrix_isRotation (a : V3) :
    IsRotation (angleAxisToRotationMatrix a) := by
  rw [angleAxisToRotationMatrix_eq ceresOrder_valid]
  exact quaternionToRotation_isRotation _ _ (angleAxisToQuaternion_unit ceresOrder_valid a).ne_zero

/-- The rotation keeps its axis, and its trace gives the angle. -/
theorem angleAxisToRotationMatrix_axis (a : V3) :
    angleAxisToRotationMatrix a *ᵥ a = a
      ∧ (angleAxisToRotationMatrix a).trace = 1 + 2 * Real.cos (theta a) := by
  have ht : hypot3 (a 0) (a 1) (a 2) = theta a := rfl
  by_cases h : theta a ≠ 0
  · have htt := theta_mul_self a
    simp only [angleAxisToRotationMatrix, ht, if_pos h]
    generalize theta a = t at *
    constructor
    · funext i
      fin_cases i <;> simp [Matrix.mulVec, _root_.dotProduct, Fin.sum_univ_three]
      · field_simp
        linear_combination (-a 0 * (1 - Real.cos t)) * htt
      · field_simp
        linear_combination (-a 1 * (1 - Real.cos t)) * htt
      · field_simp
        linear_combination (-a 2 * (1 - Real.cos t)) * htt
    · simp [Matrix.trace, Fin.sum_univ_three]
      field_simp
      linear_combination (Real.cos t - 1) * htt
  · simp only [angleAxisToRotationMatrix, ht, if_neg h]
    push Not at h
    have := theta_eq_zero h
    subst this
    constructor
    · simp
    · rw [h]; simp [angleAxisToRotationMatrixZero, Matrix.trace, Fin.sum_univ_three]; norm_num

/-- `atan2` of the sine and the cosine of an angle in `(-π, π]` is the angle. -/
theorem atan2_sin_cos {r t : ℝ} (hr : 0 < r) (h1 : -Real.pi < t) (h2 : t ≤ Real.pi) :
    atan2 (r * Real.sin t) (r * Real.cos t) = t := by
  have := Complex.arg_mul_cos_add_sin_mul_I hr (θ := t) ⟨h1, h2⟩
  rw [← Complex.ofReal_cos, ← Complex.ofReal_sin] at this
  refine Eq.trans (congrArg Complex.arg ?_) this
  apply Complex.ext <;> simp [-Complex.ofReal_cos, -Complex.ofReal_sin]

theorem copysign1_cases (x : ℝ) :
    (copysign1 x = 1 ∧ 0 ≤ x) ∨ (copysign1 x = -1 ∧ x < 0) := by
  unfold copysign1
  by_cases h : x < 0
  · rw [if_pos h]; exact Or.inr ⟨rfl, h⟩
  · rw [if_neg h]; exact Or.inl ⟨rfl, not_lt.1 h⟩

/-- The vector part of a quaternion. -/
def vec (o : Order) (q : Q) : V3 := ![q o.x, q o.y, q o.z]

/-- The norm of a quaternion in terms of its real part and the length of its vector part. -/
theorem norm_toH (o : Order) (q : Q) :
    ‖toH o q‖ * ‖toH o q‖ = q o.w * q o.w + theta (vec o q) * theta (vec o q) := by
  rw [theta_mul_self, ← Quaternion.normSq_eq_norm_mul_self, normSq_toH]
  simp [vec]
  ring

/-- The angle `QuaternionToAngleAxis` computes, half of the rotation angle. -/
def halfAngle (o : Order) (q : Q) : ℝ :=
  atan2 (copysign1 (q o.w) * theta (vec o q)) (copysign1 (q o.w) * q o.w)

/-- The vector `QuaternionToAngleAxis` gives, as a multiple of the vector part. -/
theorem quaternionToAngleAxis_eq (o : Order) (q : Q) :
    quaternionToAngleAxis o q
      = (if theta (vec o q) ≠ 0 then 2 * halfAngle o q / theta (vec o q) else 2) • vec o q := by
  have ht : hypot3 (q o.x) (q o.y) (q o.z) = theta (vec o q) := rfl
  simp only [quaternionToAngleAxis, ht, halfAngle]
  by_cases h : theta (vec o q) ≠ 0
  · rw [if_pos h, if_pos h]
    funext i
    fin_cases i <;> simp [vec, mul_comm]
  · rw [if_neg h, if_neg h]
    funext i
    fin_cases i <;> simp [vec, quaternionToAngleAxisZero, mul_comm]

/-- The angle is at most a quarter turn, and has the right sine and cosine. -/
theorem halfAngle_spec (o : Order) (q : Q) (hq : toH o q ≠ 0) :
    |halfAngle o q| ≤ Real.pi / 2
      ∧ Real.cos (halfAngle o q) = copysign1 (q o.w) * q o.w / ‖toH o q‖
      ∧ Real.sin (halfAngle o q) = copysign1 (q o.w) * theta (vec o q) / ‖toH o q‖ := by
  have hn0 : 0 < ‖toH o q‖ := norm_pos_iff.2 hq
  have hn := norm_toH o q
  have hs : copysign1 (q o.w) * copysign1 (q o.w) = 1 := by
    rcases copysign1_cases (q o.w) with ⟨h, -⟩ | ⟨h, -⟩ <;> rw [h] <;> norm_num
  have hz : ‖(⟨copysign1 (q o.w) * q o.w, copysign1 (q o.w) * theta (vec o q)⟩ : ℂ)‖ = ‖toH o q‖ := by
    refine (mul_self_inj (norm_nonneg _) hn0.le).1 ?_
    rw [Complex.norm_mul_self_eq_normSq, Complex.normSq_mk, hn]
    linear_combination (q o.w * q o.w + theta (vec o q) * theta (vec o q)) * hs
  have hz0 : (⟨copysign1 (q o.w) * q o.w, copysign1 (q o.w) * theta (vec o q)⟩ : ℂ) ≠ 0 := by
    rw [← norm_pos_iff, hz]; exact hn0
  refine ⟨?_, ?_, ?_⟩
  · rw [halfAngle, atan2, Complex.abs_arg_le_pi_div_two_iff]
    show 0 ≤ copysign1 (q o.w) * q o.w
    rcases copysign1_cases (q o.w) with ⟨h, h'⟩ | ⟨h, h'⟩ <;> rw [h] <;> linarith
  · rw [halfAngle, atan2, Complex.cos_arg hz0, hz]
  · rw [halfAngle, atan2, Complex.sin_arg, hz]

/-- **C42.** Converting a non-zero quaternion to an angle-axis vector and back gives the quaternion
scaled to unit length, up to its sign. -/
theorem angleAxisToQuaternion_quaternionToAngleAxis {o : Order} (ho : o.Valid) (q : Q)
    (hq : toH o q ≠ 0) :
    toH o (angleAxisToQuaternion o (quaternionToAngleAxis o q))
      = (copysign1 (q o.w) / ‖toH o q‖) • toH o q := by
  have hn0 : 0 < ‖toH o q‖ := norm_pos_iff.2 hq
  rw [angleAxisToQuaternion_eq, toH_mk ho, quaternionToAngleAxis_eq]
  by_cases h : theta (vec o q) ≠ 0
  · rw [if_pos h]
    obtain ⟨h1, h2, h3⟩ := halfAngle_spec o q hq
    have hα : halfAngle o q ≠ 0 := by
      intro h0
      rw [h0, Real.sin_zero, eq_comm, div_eq_zero_iff] at h3
      rcases h3 with h3 | h3
      · rcases mul_eq_zero.1 h3 with h4 | h4
        · rcases copysign1_cases (q o.w) with ⟨h5, -⟩ | ⟨h5, -⟩ <;> rw [h5] at h4 <;> norm_num at h4
        · exact h h4
      · exact hn0.ne' h3
    have htheta : theta ((2 * halfAngle o q / theta (vec o q)) • vec o q) / 2 = |halfAngle o q| := by
      rw [theta_smul, abs_div, abs_mul, abs_of_nonneg (theta_nonneg _)]
      rw [abs_of_nonneg (by norm_num : (0 : ℝ) ≤ 2)]
      field_simp
    have hsinc : Real.sinc |halfAngle o q| = Real.sin (halfAngle o q) / halfAngle o q := by
      rw [Real.sinc_of_ne_zero (abs_ne_zero.2 hα)]
      rcases abs_choice (halfAngle o q) with h4 | h4 <;> rw [h4]
      rw [Real.sin_neg, neg_div_neg_eq]
    rw [htheta, Real.cos_abs, hsinc, h2, h3]
    generalize ‖toH o q‖ = n at *
    generalize theta (vec o q) = t at *
    ext <;> simp [toH, vec] <;> field_simp
  · rw [if_neg h]
    push Not at h
    have hv := theta_eq_zero h
    have hx : q o.x = 0 := congrFun hv 0
    have hy : q o.y = 0 := congrFun hv 1
    have hz : q o.z = 0 := congrFun hv 2
    have hn := norm_toH o q
    rw [h] at hn
    have hw : copysign1 (q o.w) * q o.w = ‖toH o q‖ := by
      refine (mul_self_inj ?_ hn0.le).1 ?_
      · rcases copysign1_cases (q o.w) with ⟨h5, h6⟩ | ⟨h5, h6⟩ <;> rw [h5] <;> linarith
      · rw [hn]
        rcases copysign1_cases (q o.w) with ⟨h5, h6⟩ | ⟨h5, h6⟩ <;> rw [h5] <;> ring
    rw [hv]
    have ht0 : theta 0 = 0 := by simp [theta]
    generalize ‖toH o q‖ = n at *
    ext <;> simp [toH, hx, hy, hz, ht0]
    rw [div_mul_eq_mul_div, hw, div_self hn0.ne']

/-- **C42.** The vector `QuaternionToAngleAxis` gives has at most the length `π`. -/
theorem quaternionToAngleAxis_le_pi (o : Order) (q : Q) (hq : toH o q ≠ 0) :
    theta (quaternionToAngleAxis o q) ≤ Real.pi := by
  rw [quaternionToAngleAxis_eq]
  by_cases h : theta (vec o q) ≠ 0
  · rw [if_pos h, theta_smul, abs_div, abs_mul, abs_of_nonneg (theta_nonneg _),
      abs_of_nonneg (by norm_num : (0 : ℝ) ≤ 2)]
    have := (halfAngle_spec o q hq).1
    rw [div_mul_cancel₀ _ h]
    linarith
  · rw [if_neg h, theta_smul]
    push Not at h
    rw [h]
    simp [Real.pi_pos.le]

/-- **C42.** The vector of `QuaternionToAngleAxis` and the quaternion give the same rotation, for
every non-zero quaternion. -/
theorem angleAxisToRotationMatrix_quaternionToAngleAxis {o : Order} (ho : o.Valid) (q : Q)
    (hq : toH o q ≠ 0) :
    angleAxisToRotationMatrix (quaternionToAngleAxis o q) = quaternionToRotation o q := by
  rw [angleAxisToRotationMatrix_eq ho]
  apply ext_mulVec
  intro p
  apply pure_injective
  rw [quaternionToRotation_mulVec, quaternionToRotation_mulVec,
    angleAxisToQuaternion_quaternionToAngleAxis ho q hq]
  have hn0 : ‖toH o q‖ ≠ 0 := norm_ne_zero_iff.2 hq
  have hc : copysign1 (q o.w) / ‖toH o q‖ ≠ 0 := by
    refine div_ne_zero ?_ hn0
    rcases copysign1_cases (q o.w) with ⟨h5, -⟩ | ⟨h5, -⟩ <;> rw [h5] <;> norm_num
  rw [smul_inv₀, smul_mul_assoc, smul_mul_smul_comm, mul_inv_cancel₀ hc, one_smul]

/-- **C42.** Converting an angle-axis vector of length at most `π` to a quaternion and back gives
the vector. -/
theorem quaternionToAngleAxis_angleAxisToQuaternion {o : Order} (ho : o.Valid) (a : V3)
    (ha : theta a ≤ Real.pi) :
    quaternionToAngleAxis o (angleAxisToQuaternion o a) = a := by
  by_cases h : theta a = 0
  · have := theta_eq_zero h
    subst this
    rw [quaternionToAngleAxis_eq]
    have : vec o (angleAxisToQuaternion o 0) = 0 := by
      rw [angleAxisToQuaternion_eq]
      funext i
      fin_cases i <;> simp [vec, mk_x ho, mk_y ho, mk_z ho]
    rw [this, smul_zero]
  · have hpos : 0 < theta a := lt_of_le_of_ne (theta_nonneg a) (Ne.symm h)
    have hv : vec o (angleAxisToQuaternion o a) = (Real.sinc (theta a / 2) / 2) • a := by
      rw [angleAxisToQuaternion_eq]
      funext i
      fin_cases i <;> simp [vec, mk_x ho, mk_y ho, mk_z ho, mul_comm]
    have hw : angleAxisToQuaternion o a o.w = Real.cos (theta a / 2) := by
      rw [angleAxisToQuaternion_eq, mk_w ho]
    have hsin : 0 < Real.sin (theta a / 2) :=
      Real.sin_pos_of_pos_of_lt_pi (by linarith) (by linarith [Real.pi_pos])
    have hcos : 0 ≤ Real.cos (theta a / 2) :=
      Real.cos_nonneg_of_mem_Icc ⟨by linarith [Real.pi_pos], by linarith⟩
    have hsc : Real.sinc (theta a / 2) / 2 = Real.sin (theta a / 2) / theta a := by
      rw [Real.sinc_of_ne_zero (div_ne_zero h two_ne_zero)]; field_simp
    have hth : theta (vec o (angleAxisToQuaternion o a)) = Real.sin (theta a / 2) := by
      rw [hv, theta_smul, hsc, abs_of_pos (div_pos hsin hpos)]; field_simp
    have hcp : copysign1 (Real.cos (theta a / 2)) = 1 := by
      rw [copysign1, if_neg (not_lt.2 hcos)]
    have hha : halfAngle o (angleAxisToQuaternion o a) = theta a / 2 := by
      rw [halfAngle, hth, hw, hcp]
      exact atan2_sin_cos one_pos (by linarith [Real.pi_pos]) (by linarith [Real.pi_pos])
    rw [quaternionToAngleAxis_eq, hth, if_pos hsin.ne', hha, hv, hsc, smul_smul]
    rw [show 2 * (theta a / 2) / Real.sin (theta a / 2) * (Real.sin (theta a / 2) / theta a) = 1 by
      field_simp, one_smul]

/-- A vector with all coordinates different from zero and length `3`, less than `π`. -/
example : theta ![1, 2, 2] = 3 ∧ theta ![1, 2, 2] ≤ Real.pi := by
  have h : theta ![1, 2, 2] = 3 := by
    rw [theta, Real.sqrt_eq_iff_mul_self_eq (by simp; norm_num) (by norm_num)]
    simp; norm_num
  exact ⟨h, by rw [h]; exact Real.pi_gt_three |>.le⟩

end

end Ceres.Rotation
