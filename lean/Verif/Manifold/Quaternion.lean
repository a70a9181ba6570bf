import Verif.Manifold.Sphere

/-! # The quaternion manifolds

`QuaternionManifold` and `EigenQuaternionManifold` are the two storage orders of one model.  The
specification is in Mathlib's quaternion algebra: `Plus(x, delta) = exp(delta) * x`. -/

namespace Ceres.Manifold

open Ceres.Rotation Quaternion Matrix Filter Topology

noncomputable section

/-- The exponential of a pure quaternion. -/
theorem exp_pure (a : V3) : NormedSpace.exp (Ceres.Rotation.pure a)
    = quat (Real.cos (theta a)) (a 0 * Real.sinc (theta a)) (a 1 * Real.sinc (theta a))
      (a 2 * Real.sinc (theta a)) := by
  have h := angleAxisToQuaternion_spec ceresOrder_valid ((2 : ℝ) • a)
  have e : (1 / 2 : ℝ) • Ceres.Rotation.pure ((2 : ℝ) • a) = Ceres.Rotation.pure a := by
    ext <;> simp [Ceres.Rotation.pure]
  rw [e] at h
  rw [← h, angleAxisToQuaternion_eq, toH_mk ceresOrder_valid, theta_smul]
  have e2 : |(2 : ℝ)| * theta a / 2 = theta a := by norm_num
  rw [e2]
  ext <;> simp <;> ring

/-- **C43.** `Plus(x, delta)` is `exp(delta) * x`. -/
theorem quaternionPlus_spec {o : Order} (ho : o.Valid) (x : Q) (delta : V3) :
    toH o (quaternionPlus o x delta) = NormedSpace.exp (Ceres.Rotation.pure delta) * toH o x := by
  have ht : hypot3 (delta 0) (delta 1) (delta 2) = theta delta := rfl
  simp only [quaternionPlus, ht]
  by_cases h : theta delta = 0
  · have := theta_eq_zero h
    subst this
    rw [if_pos h, exp_pure, h]
    ext <;> simp
  · rw [if_neg h, quaternionProduct_spec ho, toH_mk ho, exp_pure, Real.sinc_of_ne_zero h]
    congr 1
    ext <;> simp [mul_comm]

/-- **C43.** `Plus(x, 0) = x`. -/
theorem quaternionPlus_zero (o : Order) (x : Q) : quaternionPlus o x 0 = x := by
  have ht : hypot3 ((0 : V3) 0) ((0 : V3) 1) ((0 : V3) 2) = 0 := by simp [hypot3]
  simp only [quaternionPlus]
  rw [if_pos ht]

theorem norm_exp_pure (a : V3) : ‖NormedSpace.exp (Ceres.Rotation.pure a)‖ = 1 := by
  have h : Quaternion.normSq (NormedSpace.exp (Ceres.Rotation.pure a)) = 1 := by
    rw [Quaternion.normSq_exp]
    simp [Ceres.Rotation.pure]
  rw [Quaternion.normSq_eq_norm_mul_self] at h
  nlinarith [norm_nonneg (NormedSpace.exp (Ceres.Rotation.pure a))]

/-- **C43.** `Plus` keeps the norm; in particular unit quaternions stay unit quaternions. -/
theorem norm_quaternionPlus {o : Order} (ho : o.Valid) (x : Q) (delta : V3) :
    ‖toH o (quaternionPlus o x delta)‖ = ‖toH o x‖ := by
  rw [quaternionPlus_spec ho, norm_mul, norm_exp_pure, one_mul]

/-- The quaternion from which `Minus` is computed. -/
def diff (o : Order) (y x : Q) : Q := quaternionProduct o y (quaternionConjugate o x)

theorem toH_diff {o : Order} (ho : o.Valid) (y x : Q) :
    toH o (diff o y x) = toH o y * star (toH o x) := by
  rw [diff, quaternionProduct_spec ho, quaternionConjugate_spec ho]

theorem quaternionMinus_eq (o : Order) (y x : Q) :
    quaternionMinus o y x = if theta (vec o (diff o y x)) ≠ 0 then
      (atan2 (theta (vec o (diff o y x))) (diff o y x o.w) / theta (vec o (diff o y x)))
        • vec o (diff o y x) else 0 := by
  have ht : hypot3 (diff o y x o.x) (diff o y x o.y) (diff o y x o.z) = theta (vec o (diff o y x)) := rfl
  simp only [quaternionMinus, ← diff.eq_def, ht]
  split_ifs
  · funext i
    fin_cases i <;> simp [vec] <;> ring
  · funext i
    fin_cases i <;> simp

theorem pure_vec (o : Order) (q : Q) : toH o q = quat (q o.w) (vec o q 0) (vec o q 1) (vec o q 2) := rfl

/-- **C43.** `Minus(Plus(x, delta), x) = delta` for `‖delta‖ < π` and every `x ≠ 0`. -/
theorem quaternionMinus_plus {o : Order} (ho : o.Valid) {x : Q} (hx : toH o x ≠ 0) {delta : V3}
    (hd : theta delta < Real.pi) : quaternionMinus o (quaternionPlus o x delta) x = delta := by
  have hN : 0 < Quaternion.normSq (toH o x) :=
    lt_of_le_of_ne Quaternion.normSq_nonneg (Ne.symm (by rwa [Ne, Quaternion.normSq_eq_zero]))
  have h1 : toH o (diff o (quaternionPlus o x delta) x)
      = Quaternion.normSq (toH o x) • NormedSpace.exp (Ceres.Rotation.pure delta) := by
    rw [toH_diff ho, quaternionPlus_spec ho, mul_assoc, Quaternion.self_mul_star,
      ← Quaternion.coe_mul_eq_smul, (Quaternion.coe_commutes _ _)]
  rw [exp_pure] at h1
  generalize Quaternion.normSq (toH o x) = N at *
  rw [quaternionMinus_eq]
  generalize diff o (quaternionPlus o x delta) x = d at *
  have hw : d o.w = N * Real.cos (theta delta) := by
    have := congrArg (fun q : ℍ[ℝ] => q.re) h1; simpa [toH] using this
  have hv : vec o d = (N * Real.sinc (theta delta)) • delta := by
    have e1 := congrArg (fun q : ℍ[ℝ] => q.imI) h1
    have e2 := congrArg (fun q : ℍ[ℝ] => q.imJ) h1
    have e3 := congrArg (fun q : ℍ[ℝ] => q.imK) h1
    simp [toH] at e1 e2 e3
    funext i
    fin_cases i <;> simp [vec, e1, e2, e3] <;> ring
  have hs0 : 0 ≤ Real.sin (theta delta) :=
    Real.sin_nonneg_of_nonneg_of_le_pi (theta_nonneg delta) hd.le
  have hu : theta (vec o d) = N * Real.sin (theta delta) := by
    rw [hv, theta_smul]
    nth_rewrite 2 [← abs_of_nonneg (theta_nonneg delta)]
    rw [← abs_mul, mul_assoc, sinc_mul, abs_of_nonneg (mul_nonneg hN.le hs0)]
  rw [hu, hw, hv]
  by_cases h : theta delta = 0
  · have := theta_eq_zero h
    subst this
    simp
  · have hs : 0 < Real.sin (theta delta) :=
      Real.sin_pos_of_pos_of_lt_pi (lt_of_le_of_ne (theta_nonneg delta) (Ne.symm h)) hd
    rw [if_pos (mul_pos hN hs).ne', atan2_sin_cos hN (by linarith [theta_nonneg delta, Real.pi_pos]) hd.le,
      smul_smul, Real.sinc_of_ne_zero h]
    have : theta delta / (N * Real.sin (theta delta)) * (N * (Real.sin (theta delta) / theta delta)) = 1 := by
      have := hN.ne'
      have := hs.ne'
      field_simp
    rw [this, one_smul]

/-- **C43.** `Plus(x, Minus(y, x)) = y` for quaternions of the same norm, except that for `y = -x`,
which is the same rotation as `x`, it is `x`.  The norm of `Minus(y, x)` is at most `π`. -/
theorem quaternionPlus_minus {o : Order} (ho : o.Valid) {x y : Q} (hx : toH o x ≠ 0)
    (hy : ‖toH o y‖ = ‖toH o x‖) :
    quaternionPlus o x (quaternionMinus o y x) = (if y = -x then x else y)
      ∧ theta (quaternionMinus o y x) ≤ Real.pi := by
  have hN : 0 < ‖toH o x‖ * ‖toH o x‖ := mul_pos (norm_pos_iff.2 hx) (norm_pos_iff.2 hx)
  have hd : ‖toH o (diff o y x)‖ = ‖toH o x‖ * ‖toH o x‖ := by
    rw [toH_diff ho, norm_mul, Quaternion.norm_star, hy]
  have hback : ∀ z : Q, toH o z * star (toH o x) = (‖toH o x‖ * ‖toH o x‖) • (1 : ℍ[ℝ]) → z = x := by
    intro z hz
    apply toH_injective ho
    have h2 := congrArg (· * toH o x) hz
    simp only [mul_assoc, Quaternion.star_mul_self, Quaternion.normSq_eq_norm_mul_self, smul_mul_assoc,
      one_mul] at h2
    rw [← Quaternion.coe_commutes, Quaternion.coe_mul_eq_smul] at h2
    exact smul_right_injective _ hN.ne' h2
  have hyy : (‖toH o x‖ * ‖toH o x‖)⁻¹ • toH o (diff o y x) * toH o x = toH o y := by
    rw [toH_diff ho, smul_mul_assoc, mul_assoc, Quaternion.star_mul_self,
      Quaternion.normSq_eq_norm_mul_self, ← Quaternion.coe_commutes, Quaternion.coe_mul_eq_smul,
      smul_smul, inv_mul_cancel₀ hN.ne', one_smul]
  have hdd := toH_diff ho y x
  have hneg : ∀ z : Q, toH o (-z) = -toH o z := by intro z; ext <;> simp [toH]
  rw [quaternionMinus_eq]
  generalize diff o y x = d at *
  generalize hNN : ‖toH o x‖ * ‖toH o x‖ = N at *
  have hsq : d o.w * d o.w + theta (vec o d) * theta (vec o d) = N * N := by
    rw [← hd, ← Quaternion.normSq_eq_norm_mul_self, normSq_toH, theta_mul_self]
    simp [vec]; ring
  by_cases h : theta (vec o d) ≠ 0
  · rw [if_pos h]
    have hpos : 0 < theta (vec o d) := lt_of_le_of_ne (theta_nonneg _) (Ne.symm h)
    obtain ⟨hs, hc⟩ := sin_cos_atan2 (y := theta (vec o d)) (x := d o.w) hN hsq
    have ha : 0 ≤ atan2 (theta (vec o d)) (d o.w) := by
      rw [atan2]; exact Complex.arg_nonneg_iff.2 (theta_nonneg _)
    have hne : atan2 (theta (vec o d)) (d o.w) ≠ 0 := by
      intro h0
      rw [h0, Real.sin_zero] at hs
      exact (div_pos hpos hN).ne hs
    have hth : theta ((atan2 (theta (vec o d)) (d o.w) / theta (vec o d)) • vec o d)
        = atan2 (theta (vec o d)) (d o.w) := by
      rw [theta_smul, abs_of_nonneg (div_nonneg ha hpos.le)]
      field_simp
    have hyx : y ≠ -x := by
      rintro rfl
      rw [hneg, neg_mul, Quaternion.self_mul_star, Quaternion.normSq_eq_norm_mul_self, hNN] at hdd
      have e1 := congrArg (fun q : ℍ[ℝ] => q.imI) hdd
      have e2 := congrArg (fun q : ℍ[ℝ] => q.imJ) hdd
      have e3 := congrArg (fun q : ℍ[ℝ] => q.imK) hdd
      simp [toH] at e1 e2 e3
      exact h (by simp [theta, vec, e1, e2, e3])
    rw [if_neg hyx]
    refine ⟨toH_injective ho ?_, by rw [hth]; exact Complex.arg_le_pi _⟩
    rw [quaternionPlus_spec ho, ← hyy, exp_pure, hth, Real.sinc_of_ne_zero hne, hs, hc]
    congr 1
    generalize atan2 (theta (vec o d)) (d o.w) = t at *
    generalize theta (vec o d) = u at *
    have hN' := hN.ne'
    ext <;> simp [toH, vec] <;> field_simp
  · rw [if_neg h, quaternionPlus_zero]
    push Not at h
    refine ⟨?_, by rw [theta_zero]; exact Real.pi_pos.le⟩
    have hv := theta_eq_zero h
    have hw : d o.w = N ∨ d o.w = -N := by
      rw [h] at hsq
      have : (d o.w - N) * (d o.w + N) = 0 := by linarith
      rcases mul_eq_zero.1 this with h | h
      · left; linarith
      · right; linarith
    have e1 : d o.x = 0 := congrFun hv 0
    have e2 : d o.y = 0 := congrFun hv 1
    have e3 : d o.z = 0 := congrFun hv 2
    rcases hw with hw | hw
    · have : y = x := hback y (by
        rw [← hdd]; ext <;> simp [toH, hw, e1, e2, e3])
      subst this
      split_ifs <;> rfl
    · have : -y = x := hback (-y) (by
        rw [hneg, neg_mul, ← hdd]; ext <;> simp [toH, hw, e1, e2, e3])
      rw [if_pos (by rw [← this, neg_neg])]

/-! ## Jacobians -/

/-- The step of `PlusJacobian` is the product with the pure quaternion. -/
theorem quaternionPlusJacobian_mulVec {o : Order} (ho : o.Valid) (x : Q) (delta : V3) :
    toH o (quaternionPlusJacobian o x *ᵥ delta) = Ceres.Rotation.pure delta * toH o x := by
  obtain ⟨h1, h2, h3, h4, h5, h6⟩ := ho
  ext <;> simp [toH, Ceres.Rotation.pure, Matrix.mulVec, _root_.dotProduct, Fin.sum_univ_three,
    quaternionPlusJacobian, h1.symm, h2.symm, h3.symm, h4.symm, h5.symm, h6.symm] <;> ring

theorem quaternionPlus_closed {o : Order} (ho : o.Valid) (x : Q) (delta : V3) :
    quaternionPlus o x delta = Real.cos (theta delta) • x
      + Real.sinc (theta delta) • (quaternionPlusJacobian o x *ᵥ delta) := by
  apply toH_injective ho
  have e : toH o (Real.cos (theta delta) • x + Real.sinc (theta delta) • (quaternionPlusJacobian o x *ᵥ delta))
      = Real.cos (theta delta) • toH o x
        + Real.sinc (theta delta) • toH o (quaternionPlusJacobian o x *ᵥ delta) := by
    ext <;> simp [toH]
  rw [e, quaternionPlusJacobian_mulVec ho, quaternionPlus_spec ho, exp_pure]
  generalize Real.cos (theta delta) = c
  generalize Real.sinc (theta delta) = s
  ext <;> simp [toH, Ceres.Rotation.pure] <;> ring

/-- **C44.** `PlusJacobian(x)` is the derivative of `Plus(x, ·)` at zero, for every `x`. -/
theorem quaternionPlus_hasFDerivAt {o : Order} (ho : o.Valid) (x : Q) :
    HasFDerivAt (quaternionPlus o x) (asMap (quaternionPlusJacobian o x)) 0 := by
  rw [hasFDerivAt_pi']
  intro i
  have e : (fun d : V3 => quaternionPlus o x d i) = fun d => Real.cos (theta d) * x i
      + ((ContinuousLinearMap.proj i).comp (asMap (quaternionPlusJacobian o x))) d
        * Real.sinc (theta d) := by
    funext d
    rw [quaternionPlus_closed ho]
    simp [mul_comm]
  rw [e]
  have h1 : HasFDerivAt (fun d : V3 => Real.cos (theta d) * x i) (x i • (0 : V3 →L[ℝ] ℝ)) 0 := by
    have := hasFDerivAt_cos_theta 1
    simp only [mul_one] at this
    exact this.mul_const (x i)
  have hk : Continuous fun d : V3 => Real.sinc (theta d) := Real.continuous_sinc.comp continuous_theta
  have h2 := hasFDerivAt_mul_of_zero ((ContinuousLinearMap.proj i).comp
    (asMap (quaternionPlusJacobian o x))) _ 0 (by simp) hk.continuousAt
  refine (h1.add h2).congr_fderiv ?_
  rw [theta_zero, Real.sinc_zero, one_smul, smul_zero, zero_add]

/-- `MinusJacobian(x) * y` is the vector part of `y * conj(x)`. -/
theorem quaternionMinusJacobian_mulVec {o : Order} (ho : o.Valid) (x y : Q) :
    quaternionMinusJacobian o x *ᵥ y = vec o (diff o y x) := by
  have h := toH_diff ho y x
  have e1 := congrArg (fun q : ℍ[ℝ] => q.imI) h
  have e2 := congrArg (fun q : ℍ[ℝ] => q.imJ) h
  have e3 := congrArg (fun q : ℍ[ℝ] => q.imK) h
  simp [toH] at e1 e2 e3
  have hsum : ∀ f : Fin 4 → ℝ, ∑ i, f i = f o.w + f o.x + f o.y + f o.z := by
    obtain ⟨h1, h2, h3, h4, h5, h6⟩ := ho
    intro f
    have hu : (Finset.univ : Finset (Fin 4)) = {o.w, o.x, o.y, o.z} := by
      symm
      rw [Finset.eq_univ_iff_forall]
      intro i
      have := Order.Valid.cover ⟨h1, h2, h3, h4, h5, h6⟩ i
      simpa using this
    rw [hu, Finset.sum_insert (by simp [h1, h2, h3]), Finset.sum_insert (by simp [h4, h5]),
      Finset.sum_insert (by simp [h6]), Finset.sum_singleton]
    ring
  funext i
  simp only [Matrix.mulVec, _root_.dotProduct, hsum]
  fin_cases i <;> simp [quaternionMinusJacobian, vec, mk_w ho, mk_x ho, mk_y ho, mk_z ho, e1, e2, e3] <;>
    ring

/-- The derivative of `Minus(·, x)` at `x`, for every `x ≠ 0`. -/
theorem quaternionMinus_hasFDerivAt_general {o : Order} (ho : o.Valid) {x : Q} (hx : toH o x ≠ 0) :
    HasFDerivAt (fun y => quaternionMinus o y x)
      ((Quaternion.normSq (toH o x))⁻¹ • asMap (quaternionMinusJacobian o x)) x := by
  have hN : 0 < Quaternion.normSq (toH o x) :=
    lt_of_le_of_ne Quaternion.normSq_nonneg (Ne.symm (by rwa [Ne, Quaternion.normSq_eq_zero]))
  set V : Q →L[ℝ] V3 := asMap (quaternionMinusJacobian o x) with hV
  have hVy : ∀ y, V y = vec o (diff o y x) := fun y => quaternionMinusJacobian_mulVec ho x y
  have hself : toH o (diff o x x) = ((Quaternion.normSq (toH o x) : ℝ) : ℍ[ℝ]) := by
    rw [toH_diff ho, Quaternion.self_mul_star]
  have hw0 : diff o x x o.w = Quaternion.normSq (toH o x) := by
    have := congrArg (fun q : ℍ[ℝ] => q.re) hself; simpa [toH] using this
  have hv0 : V x = 0 := by
    have e1 := congrArg (fun q : ℍ[ℝ] => q.imI) hself
    have e2 := congrArg (fun q : ℍ[ℝ] => q.imJ) hself
    have e3 := congrArg (fun q : ℍ[ℝ] => q.imK) hself
    simp [toH] at e1 e2 e3
    rw [hVy]
    funext i
    fin_cases i <;> simp [vec, e1, e2, e3]
  have hwc : Continuous fun y => diff o y x o.w := by
    simp only [diff, quaternionProduct, mk_w ho]
    fun_prop
  have hpos : ∀ᶠ y in 𝓝 x, 0 < diff o y x o.w :=
    hwc.continuousAt.eventually (lt_mem_nhds (by simp only [hw0]; exact hN))
  have hk : ContinuousAt (fun y => (diff o y x o.w)⁻¹ * atanc (theta (V y) / diff o y x o.w)) x := by
    have hl : diff o x x o.w ≠ 0 := by rw [hw0]; exact hN.ne'
    refine (hwc.continuousAt.inv₀ hl).mul ?_
    have hq : ContinuousAt (fun y => theta (V y) / diff o y x o.w) x :=
      (continuous_theta.comp V.continuous).continuousAt.div hwc.continuousAt hl
    exact ContinuousAt.comp (g := atanc) (by
      rw [hv0, theta_zero, zero_div]; exact continuousAt_atanc) hq
  have key : HasFDerivAt (fun y : Q => fun i : Fin 3 => ((ContinuousLinearMap.proj i).comp V) y
      * ((diff o y x o.w)⁻¹ * atanc (theta (V y) / diff o y x o.w)))
      ((Quaternion.normSq (toH o x))⁻¹ • V) x := by
    rw [hasFDerivAt_pi']
    intro i
    have := hasFDerivAt_mul_of_zero ((ContinuousLinearMap.proj (R := ℝ) (φ := fun _ => ℝ) i).comp V) _ x (by
      simp [hv0]) hk
    refine this.congr_fderiv ?_
    ext1 y
    simp only [hw0, hv0, theta_zero, zero_div, atanc_zero, mul_one]
    simp
  refine key.congr_of_eventuallyEq ?_
  filter_upwards [hpos] with y hy
  rw [quaternionMinus_eq, ← hVy]
  by_cases h : theta (V y) ≠ 0
  · rw [if_pos h, atan2_of_pos hy, atanc_of_ne (div_ne_zero h hy.ne')]
    funext i
    simp only [Pi.smul_apply, smul_eq_mul, ContinuousLinearMap.comp_apply, ContinuousLinearMap.proj_apply]
    have := hy.ne'
    field_simp
  · rw [if_neg h]
    push Not at h
    have := theta_eq_zero h
    funext i
    simp [this]

/-- **C44.** For a unit quaternion `x`, `MinusJacobian(x)` is the derivative of `Minus(·, x)` at
`x`. -/
theorem quaternionMinus_hasFDerivAt {o : Order} (ho : o.Valid) {x : Q} (hx : IsUnitQ o x) :
    HasFDerivAt (fun y => quaternionMinus o y x) (asMap (quaternionMinusJacobian o x)) x := by
  have := quaternionMinus_hasFDerivAt_general ho hx.ne_zero
  rw [IsUnitQ] at hx
  rwa [hx, inv_one, one_smul] at this

/-- `MinusJacobian(x) * PlusJacobian(x) = ‖x‖² I`. -/
theorem quaternionMinusJacobian_mul_general {o : Order} (ho : o.Valid) (x : Q) :
    quaternionMinusJacobian o x * quaternionPlusJacobian o x
      = Quaternion.normSq (toH o x) • (1 : Matrix (Fin 3) (Fin 3) ℝ) := by
  apply Matrix.ext_of_mulVec_single
  intro i
  rw [← Matrix.mulVec_mulVec, quaternionMinusJacobian_mulVec ho]
  generalize (Pi.single i (1 : ℝ) : V3) = d
  have h : toH o (diff o (quaternionPlusJacobian o x *ᵥ d) x)
      = Quaternion.normSq (toH o x) • Ceres.Rotation.pure d := by
    rw [toH_diff ho, quaternionPlusJacobian_mulVec ho, mul_assoc, Quaternion.self_mul_star,
      ← Quaternion.coe_mul_eq_smul, Quaternion.coe_commutes]
  rw [Matrix.smul_mulVec, Matrix.one_mulVec]
  generalize Quaternion.normSq (toH o x) = N at *
  have e1 := congrArg (fun q : ℍ[ℝ] => q.imI) h
  have e2 := congrArg (fun q : ℍ[ℝ] => q.imJ) h
  have e3 := congrArg (fun q : ℍ[ℝ] => q.imK) h
  simp only [toH, quat_imI, quat_imJ, quat_imK, Quaternion.imI_smul, Quaternion.imJ_smul,
    Quaternion.imK_smul, Ceres.Rotation.pure, smul_eq_mul] at e1 e2 e3
  funext i
  fin_cases i <;> simp [vec, e1, e2, e3]

/-- **C44.** For a unit quaternion, `MinusJacobian(x) * PlusJacobian(x) = I`. -/
theorem quaternionMinusJacobian_mul {o : Order} (ho : o.Valid) {x : Q} (hx : IsUnitQ o x) :
    quaternionMinusJacobian o x * quaternionPlusJacobian o x = 1 := by
  rw [quaternionMinusJacobian_mul_general ho, show Quaternion.normSq (toH o x) = 1 from hx, one_smul]

/-- The hypotheses are met, e.g. by this unit quaternion, in both storage orders. -/
example : IsUnitQ ceresOrder ![3 / 5, 0, 4 / 5, 0] ∧ IsUnitQ eigenOrder ![3 / 5, 0, 4 / 5, 0] := by
  constructor <;> rw [IsUnitQ, normSq_toH] <;> simp [ceresOrder, eigenOrder] <;> norm_num

end

end Ceres.Manifold
