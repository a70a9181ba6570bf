import Verif.Rotation.AngleAxis
import Mathlib.Analysis.Calculus.FDeriv.Mul
import Mathlib.Analysis.Calculus.FDeriv.Linear
import Mathlib.Analysis.Calculus.FDeriv.Pi
import Mathlib.Analysis.Calculus.DSlope
import Mathlib.Analysis.SpecialFunctions.Trigonometric.ArctanDeriv

/-!
# Derivatives at the zero vector

At the zero vector the functions use a separate branch.  When the functions are evaluated with
automatic differentiation only that branch is differentiated, so its derivative must be the
derivative of the whole function.  That is proved here for the conversions from angle-axis vectors,
and for `QuaternionToAngleAxis` at the identity; at the quaternion `-1` it fails.
-/

namespace Ceres.Rotation

open Filter Topology

noncomputable section

/-- A linear function times a continuous factor, at a zero of the linear function. -/
theorem hasFDerivAt_mul_of_zero {E : Type*} [NormedAddCommGroup E] [NormedSpace ℝ E] (L : E →L[ℝ] ℝ)
    (k : E → ℝ) (z : E) (hz : L z = 0) (hk : ContinuousAt k z) :
    HasFDerivAt (fun x => L x * k x) (k z • L) z := by
  rw [hasFDerivAt_iff_isLittleO]
  have h1 : (fun x => L x * k x - L z * k z - (k z • L) (x - z)) = fun x => (k x - k z) * L (x - z) := by
    funext x
    simp only [hz, map_sub, ContinuousLinearMap.smul_apply, smul_eq_mul, map_sub]
    ring
  rw [h1]
  have h2 : (fun x => k x - k z) =o[𝓝 z] (fun _ => (1 : ℝ)) := by
    rw [Asymptotics.isLittleO_one_iff]
    have := Tendsto.sub_const (hk : Tendsto k (𝓝 z) (𝓝 (k z))) (k z)
    rwa [sub_self] at this
  have h3 : (fun x => L (x - z)) =O[𝓝 z] (fun x => x - z) := L.isBigO_comp _ _
  simpa using h2.mul_isBigO h3.norm_right

/-- The coordinate functions. -/
abbrev coord {n : ℕ} (i : Fin n) : (Fin n → ℝ) →L[ℝ] ℝ := ContinuousLinearMap.proj i

theorem continuous_theta : Continuous theta := by
  unfold theta
  fun_prop

/-- A coordinate times a continuous factor, at the zero vector. -/
theorem hasFDerivAt_coord_mul (i : Fin 3) (k : V3 → ℝ) (hk : Continuous k) :
    HasFDerivAt (fun a : V3 => a i * k a) (k 0 • coord i) 0 :=
  hasFDerivAt_mul_of_zero (coord i) k 0 (by simp) hk.continuousAt

/-- Two coordinates times a continuous factor, at the zero vector. -/
theorem hasFDerivAt_coord_coord_mul (i j : Fin 3) (k : V3 → ℝ) (hk : Continuous k) :
    HasFDerivAt (fun a : V3 => a i * (a j * k a)) (0 : V3 →L[ℝ] ℝ) 0 := by
  have := hasFDerivAt_coord_mul i (fun a => a j * k a) (by fun_prop)
  simpa using this

/-- `1 - cos t` in terms of `sinc`. -/
theorem one_sub_cos (t : ℝ) : 1 - Real.cos t = t * t * (Real.sinc (t / 2) * Real.sinc (t / 2) / 2) := by
  obtain ⟨h1, -, h2⟩ := half_angle t
  by_cases h : t = 0
  · subst h; simp
  · rw [Real.sinc_of_ne_zero (div_ne_zero h two_ne_zero), h1]
    field_simp
    linarith

/-- The cosine of the length has derivative zero. -/
theorem hasFDerivAt_cos_theta (c : ℝ) :
    HasFDerivAt (fun a : V3 => Real.cos (theta a * c)) (0 : V3 →L[ℝ] ℝ) 0 := by
  set k : V3 → ℝ := fun a => c * c * (Real.sinc (theta a * c / 2) * Real.sinc (theta a * c / 2) / 2)
  have hk : Continuous k := by
    have := continuous_theta
    have := Real.continuous_sinc
    fun_prop
  have he : (fun a : V3 => Real.cos (theta a * c))
      = fun a : V3 => 1 - (a 0 * (a 0 * k a) + a 1 * (a 1 * k a) + a 2 * (a 2 * k a)) := by
    funext a
    have h1 := one_sub_cos (theta a * c)
    have h2 := theta_mul_self a
    have h3 : theta a * c * (theta a * c) = (a 0 * a 0 + a 1 * a 1 + a 2 * a 2) * (c * c) := by
      rw [← h2]; ring
    rw [h3] at h1
    show _ = 1 - (a 0 * (a 0 * (c * c * (Real.sinc (theta a * c / 2) * Real.sinc (theta a * c / 2) / 2)))
      + a 1 * (a 1 * (c * c * (Real.sinc (theta a * c / 2) * Real.sinc (theta a * c / 2) / 2)))
      + a 2 * (a 2 * (c * c * (Real.sinc (theta a * c / 2) * Real.sinc (theta a * c / 2) / 2))))
    linarith
  rw [he]
  have h := (((hasFDerivAt_coord_coord_mul 0 0 k hk).add (hasFDerivAt_coord_coord_mul 1 1 k hk)).add
    (hasFDerivAt_coord_coord_mul 2 2 k hk)).const_sub 1
  simpa using h

theorem theta_zero : theta 0 = 0 := by simp [theta]

/-- A function into arrays is differentiable if its four coefficients are. -/
theorem hasFDerivAt_mk {o : Order} (ho : o.Valid) {E : Type*} [NormedAddCommGroup E] [NormedSpace ℝ E]
    {w x y z : E → ℝ} {w' x' y' z' : E →L[ℝ] ℝ} {p : E} (hw : HasFDerivAt w w' p)
    (hx : HasFDerivAt x x' p) (hy : HasFDerivAt y y' p) (hz : HasFDerivAt z z' p) :
    HasFDerivAt (fun a => mk o (w a) (x a) (y a) (z a))
      (ContinuousLinearMap.pi fun i => if i = o.w then w' else if i = o.x then x' else
        if i = o.y then y' else z') p := by
  rw [hasFDerivAt_pi]
  intro i
  rcases ho.cover i with h | h | h | h <;> subst h
  · simpa [mk] using hw
  · simpa [mk, ho.1.symm] using hx
  · simpa [mk, ho.2.1.symm, ho.2.2.2.1.symm] using hy
  · simpa [mk, ho.2.2.1.symm, ho.2.2.2.2.1.symm, ho.2.2.2.2.2.symm] using hz

/-- **C42.** At the zero vector, the branch of `AngleAxisToQuaternion` for zero has the derivative
of the whole function. -/
theorem angleAxisToQuaternion_hasFDerivAt {o : Order} (ho : o.Valid) :
    ∃ D : V3 →L[ℝ] Q, HasFDerivAt (angleAxisToQuaternion o) D 0
      ∧ HasFDerivAt (angleAxisToQuaternionZero o) D 0 := by
  have hk : Continuous fun a : V3 => Real.sinc (theta a / 2) / 2 := by
    have := continuous_theta
    have := Real.continuous_sinc
    fun_prop
  have hc : ∀ i : Fin 3, HasFDerivAt (fun a : V3 => a i * (Real.sinc (theta a / 2) / 2))
      ((1 / 2 : ℝ) • coord i) 0 := by
    intro i
    have := hasFDerivAt_coord_mul i _ hk
    simpa [theta_zero] using this
  have hz : ∀ i : Fin 3, HasFDerivAt (fun a : V3 => a i * (1 / 2)) ((1 / 2 : ℝ) • coord i) 0 := by
    intro i
    exact hasFDerivAt_coord_mul i (fun _ => 1 / 2) continuous_const
  have hw : HasFDerivAt (fun a : V3 => Real.cos (theta a / 2)) (0 : V3 →L[ℝ] ℝ) 0 := by
    have := hasFDerivAt_cos_theta (1 / 2)
    have e : (fun a : V3 => Real.cos (theta a * (1 / 2))) = fun a => Real.cos (theta a / 2) := by
      funext a; congr 1; ring
    rwa [e] at this
  refine ⟨_, ?_, hasFDerivAt_mk ho (hasFDerivAt_const (1 : ℝ) (0 : V3)) (hz 0) (hz 1) (hz 2)⟩
  have e : angleAxisToQuaternion o = fun a => mk o (Real.cos (theta a / 2))
      (a 0 * (Real.sinc (theta a / 2) / 2)) (a 1 * (Real.sinc (theta a / 2) / 2))
      (a 2 * (Real.sinc (theta a / 2) / 2)) := funext (angleAxisToQuaternion_eq o)
  rw [e]
  exact hasFDerivAt_mk ho hw (hc 0) (hc 1) (hc 2)

/-- The entries of the rotation matrix in closed form. -/
theorem angleAxisToRotationMatrix_closed (a : V3) :
    let c := Real.cos (theta a)
    let s := Real.sinc (theta a)
    let h := Real.sinc (theta a / 2) * Real.sinc (theta a / 2) / 2
    angleAxisToRotationMatrix a =
      !![c + a 0 * (a 0 * h), a 0 * (a 1 * h) - a 2 * s, a 1 * s + a 0 * (a 2 * h);
         a 2 * s + a 0 * (a 1 * h), c + a 1 * (a 1 * h), -(a 0 * s) + a 1 * (a 2 * h);
         -(a 1 * s) + a 0 * (a 2 * h), a 0 * s + a 1 * (a 2 * h), c + a 2 * (a 2 * h)] := by
  intro c s h
  have ht : hypot3 (a 0) (a 1) (a 2) = theta a := rfl
  simp only [angleAxisToRotationMatrix, ht]
  by_cases h0 : theta a ≠ 0
  · rw [if_pos h0]
    have h1 := one_sub_cos (theta a)
    have hs : s = Real.sin (theta a) / theta a := Real.sinc_of_ne_zero h0
    have hh : 1 - Real.cos (theta a) = theta a * theta a * h := h1
    rw [hh, hs]
    show _ = !![Real.cos (theta a) + a 0 * (a 0 * h), _, _; _, Real.cos (theta a) + a 1 * (a 1 * h), _;
      _, _, Real.cos (theta a) + a 2 * (a 2 * h)]
    generalize h = h at *
    ext i j
    fin_cases i <;> fin_cases j <;> simp <;> field_simp
  · rw [if_neg h0]
    push Not at h0
    have := theta_eq_zero h0
    subst this
    have hc : c = 1 := by show Real.cos (theta 0) = 1; rw [theta_zero, Real.cos_zero]
    rw [hc]
    ext i j
    fin_cases i <;> fin_cases j <;> simp [angleAxisToRotationMatrixZero]

/-- **C42.** At the zero vector, the branch of `AngleAxisToRotationMatrix` for zero has the
derivative of the whole function, entry by entry. -/
theorem angleAxisToRotationMatrix_hasFDerivAt (i j : Fin 3) :
    ∃ D : V3 →L[ℝ] ℝ, HasFDerivAt (fun a => angleAxisToRotationMatrix a i j) D 0
      ∧ HasFDerivAt (fun a => angleAxisToRotationMatrixZero a i j) D 0 := by
  have ht := continuous_theta
  have hsc := Real.continuous_sinc
  have hs : Continuous fun a : V3 => Real.sinc (theta a) := by fun_prop
  have hh : Continuous fun a : V3 => Real.sinc (theta a / 2) * Real.sinc (theta a / 2) / 2 := by
    fun_prop
  have hc : HasFDerivAt (fun a : V3 => Real.cos (theta a)) (0 : V3 →L[ℝ] ℝ) 0 := by
    have := hasFDerivAt_cos_theta 1
    simpa using this
  have h1 : ∀ n : Fin 3, HasFDerivAt (fun a : V3 => a n * Real.sinc (theta a)) (coord n) 0 := by
    intro n
    have := hasFDerivAt_coord_mul n _ hs
    simpa [theta_zero] using this
  have h2 : ∀ n m : Fin 3, HasFDerivAt (fun a : V3 => a n * (a m *
      (Real.sinc (theta a / 2) * Real.sinc (theta a / 2) / 2))) (0 : V3 →L[ℝ] ℝ) 0 :=
    fun n m => hasFDerivAt_coord_coord_mul n m _ hh
  have hl : ∀ n : Fin 3, HasFDerivAt (fun a : V3 => a n) (coord n) 0 :=
    fun n => (coord n).hasFDerivAt
  simp only [angleAxisToRotationMatrix_closed]
  fin_cases i <;> fin_cases j
  · exact ⟨_, hc.add (h2 0 0), by
      show HasFDerivAt (fun _ : V3 => (1 : ℝ)) _ _
      simpa using hasFDerivAt_const (1 : ℝ) (0 : V3)⟩
  · exact ⟨_, (h2 0 1).sub (h1 2), by
      show HasFDerivAt (fun a : V3 => -a 2) _ _
      simpa using (hl 2).fun_neg⟩
  · exact ⟨_, (h1 1).add (h2 0 2), by
      show HasFDerivAt (fun a : V3 => a 1) _ _
      simpa using hl 1⟩
  · exact ⟨_, (h1 2).add (h2 0 1), by
      show HasFDerivAt (fun a : V3 => a 2) _ _
      simpa using hl 2⟩
  · exact ⟨_, hc.add (h2 1 1), by
      show HasFDerivAt (fun _ : V3 => (1 : ℝ)) _ _
      simpa using hasFDerivAt_const (1 : ℝ) (0 : V3)⟩
  · exact ⟨_, (h1 0).neg.add (h2 1 2), by
      show HasFDerivAt (fun a : V3 => -a 0) _ _
      simpa using (hl 0).fun_neg⟩
  · exact ⟨_, (h1 1).neg.add (h2 0 2), by
      show HasFDerivAt (fun a : V3 => -a 1) _ _
      simpa using (hl 1).fun_neg⟩
  · exact ⟨_, (h1 0).add (h2 1 2), by
      show HasFDerivAt (fun a : V3 => a 0) _ _
      simpa using hl 0⟩
  · exact ⟨_, hc.add (h2 2 2), by
      show HasFDerivAt (fun _ : V3 => (1 : ℝ)) _ _
      simpa using hasFDerivAt_const (1 : ℝ) (0 : V3)⟩

/-- **C42.** At the zero vector, the branch of `AngleAxisRotatePoint` for zero has the derivative
of the whole function. -/
theorem angleAxisRotatePoint_hasFDerivAt (p : V3) :
    ∃ D : V3 →L[ℝ] V3, HasFDerivAt (fun a => angleAxisRotatePoint a p) D 0
      ∧ HasFDerivAt (fun a => angleAxisRotatePointZero a p) D 0 := by
  choose D h1 h2 using angleAxisToRotationMatrix_hasFDerivAt
  refine ⟨ContinuousLinearMap.pi fun i => p 0 • D i 0 + p 1 • D i 1 + p 2 • D i 2, ?_, ?_⟩
  · rw [hasFDerivAt_pi]
    intro i
    have e : (fun a => angleAxisRotatePoint a p i) = fun a => angleAxisToRotationMatrix a i 0 * p 0
        + angleAxisToRotationMatrix a i 1 * p 1 + angleAxisToRotationMatrix a i 2 * p 2 := by
      funext a
      rw [angleAxisRotatePoint_eq_mulVec]
      simp [Matrix.mulVec, _root_.dotProduct, Fin.sum_univ_three]
    rw [e]
    exact (((h1 i 0).mul_const (p 0)).add ((h1 i 1).mul_const (p 1))).add ((h1 i 2).mul_const (p 2))
  · rw [hasFDerivAt_pi]
    intro i
    have e : (fun a => angleAxisRotatePointZero a p i) = fun a => angleAxisToRotationMatrixZero a i 0 * p 0
        + angleAxisToRotationMatrixZero a i 1 * p 1 + angleAxisToRotationMatrixZero a i 2 * p 2 := by
      funext a
      fin_cases i <;> simp [angleAxisRotatePointZero, angleAxisToRotationMatrixZero] <;> ring
    rw [e]
    exact (((h2 i 0).mul_const (p 0)).add ((h2 i 1).mul_const (p 1))).add ((h2 i 2).mul_const (p 2))

/-! ## `QuaternionToAngleAxis` -/

/-- The vector part as a linear function. -/
def vecL (o : Order) : Q →L[ℝ] V3 := ContinuousLinearMap.pi ![coord o.x, coord o.y, coord o.z]

theorem vecL_apply (o : Order) (q : Q) : vecL o q = vec o q := by
  funext i
  fin_cases i <;> simp [vecL, vec]

/-- `arctan u / u`, continued to zero. -/
def atanc (u : ℝ) : ℝ := dslope Real.arctan 0 u

theorem atanc_zero : atanc 0 = 1 := by
  simp [atanc, dslope_same]

theorem atanc_of_ne {u : ℝ} (h : u ≠ 0) : atanc u = Real.arctan u / u := by
  rw [atanc, dslope_of_ne _ h, slope_def_field]
  simp

theorem continuousAt_atanc : ContinuousAt atanc 0 :=
  continuousAt_dslope_same.2 (Real.differentiableAt_arctan 0)

theorem atan2_of_pos {y x : ℝ} (hx : 0 < x) : atan2 y x = Real.arctan (y / x) := by
  have h1 : |Complex.arg ⟨x, y⟩| < Real.pi / 2 := Complex.abs_arg_lt_pi_div_two_iff.2 (Or.inl hx)
  have h2 := Complex.tan_arg ⟨x, y⟩
  rw [abs_lt] at h1
  rw [atan2, ← Real.arctan_tan h1.1 h1.2, h2]

/-- The angle-axis vector of a quaternion with non-zero real part, in closed form. -/
theorem quaternionToAngleAxis_closed (o : Order) (q : Q) (hw : q o.w ≠ 0) :
    quaternionToAngleAxis o q = (2 / q o.w * atanc (theta (vec o q) / q o.w)) • vec o q := by
  rw [quaternionToAngleAxis_eq]
  by_cases h : theta (vec o q) ≠ 0
  · rw [if_pos h, atanc_of_ne (div_ne_zero h hw)]
    congr 1
    have hpos : 0 < copysign1 (q o.w) * q o.w := by
      rcases copysign1_cases (q o.w) with ⟨h5, h6⟩ | ⟨h5, h6⟩ <;> rw [h5]
      · rw [one_mul]; exact lt_of_le_of_ne h6 (Ne.symm hw)
      · linarith
    have hc : copysign1 (q o.w) ≠ 0 := by
      rcases copysign1_cases (q o.w) with ⟨h5, -⟩ | ⟨h5, -⟩ <;> rw [h5] <;> norm_num
    rw [halfAngle, atan2_of_pos hpos, mul_div_mul_left _ _ hc]
    field_simp
  · rw [if_neg h]
    push Not at h
    rw [theta_eq_zero h, smul_zero, smul_zero]

/-- The derivative of `QuaternionToAngleAxis` at a real quaternion `w ≠ 0` is `2 / w` times the
vector part. -/
theorem quaternionToAngleAxis_hasFDerivAt {o : Order} (ho : o.Valid) {w : ℝ} (hw : w ≠ 0) :
    HasFDerivAt (quaternionToAngleAxis o) ((2 / w) • vecL o) (mk o w 0 0 0) := by
  have hq : mk o w 0 0 0 o.w = w := mk_w ho _ _ _ _
  have hv : vec o (mk o w 0 0 0) = 0 := by
    funext i
    fin_cases i <;> simp [vec, mk_x ho, mk_y ho, mk_z ho]
  have hne : ∀ᶠ q : Q in 𝓝 (mk o w 0 0 0), q o.w ≠ 0 :=
    ((continuous_apply o.w).continuousAt.eventually_ne (by rw [hq]; exact hw))
  have hvc : Continuous (vec o) := by
    have : vec o = fun q => vecL o q := funext fun q => (vecL_apply o q).symm
    rw [this]; exact (vecL o).continuous
  have hk : ContinuousAt (fun q : Q => 2 / q o.w * atanc (theta (vec o q) / q o.w)) (mk o w 0 0 0) := by
    have h1 : ContinuousAt (fun q : Q => theta (vec o q) / q o.w) (mk o w 0 0 0) :=
      ((continuous_theta.comp hvc).continuousAt).div (continuous_apply o.w).continuousAt
        (by rw [hq]; exact hw)
    have h2 : theta (vec o (mk o w 0 0 0)) / mk o w 0 0 0 o.w = 0 := by rw [hv, theta_zero, zero_div]
    refine ContinuousAt.mul (continuousAt_const.div (continuous_apply o.w).continuousAt
      (by rw [hq]; exact hw)) ?_
    exact ContinuousAt.comp (g := atanc) (by rw [h2]; exact continuousAt_atanc) h1
  have key : HasFDerivAt (fun q : Q => fun i : Fin 3 => coord (![o.x, o.y, o.z] i) q
      * (2 / q o.w * atanc (theta (vec o q) / q o.w))) ((2 / w) • vecL o) (mk o w 0 0 0) := by
    rw [hasFDerivAt_pi']
    intro i
    have hz : coord (![o.x, o.y, o.z] i) (mk o w 0 0 0) = 0 := by
      have := congrFun hv i
      fin_cases i <;> simpa [vec] using this
    have := hasFDerivAt_mul_of_zero (coord (![o.x, o.y, o.z] i)) _ _ hz hk
    have e : 2 / mk o w 0 0 0 o.w * atanc (theta (vec o (mk o w 0 0 0)) / mk o w 0 0 0 o.w) = 2 / w := by
      rw [hv, theta_zero, zero_div, atanc_zero, hq, mul_one]
    rw [e] at this
    refine this.congr_fderiv ?_
    ext q
    fin_cases i <;> simp [vecL]
  refine key.congr_of_eventuallyEq ?_
  filter_upwards [hne] with q hqw
  rw [quaternionToAngleAxis_closed o q hqw]
  funext i
  fin_cases i <;> simp [vec, mul_comm]

theorem quaternionToAngleAxisZero_hasFDerivAt (o : Order) (q : Q) :
    HasFDerivAt (quaternionToAngleAxisZero o) ((2 : ℝ) • vecL o) q := by
  have e : quaternionToAngleAxisZero o = fun q => ((2 : ℝ) • vecL o) q := by
    funext q i
    fin_cases i <;> simp [quaternionToAngleAxisZero, vecL, mul_comm]
  rw [e]
  exact ((2 : ℝ) • vecL o).hasFDerivAt

/-- **C42.** At the identity, the branch of `QuaternionToAngleAxis` for a zero vector part has the
derivative of the whole function. -/
theorem quaternionToAngleAxis_hasFDerivAt_one {o : Order} (ho : o.Valid) :
    HasFDerivAt (quaternionToAngleAxis o) ((2 : ℝ) • vecL o) (mk o 1 0 0 0)
      ∧ HasFDerivAt (quaternionToAngleAxisZero o) ((2 : ℝ) • vecL o) (mk o 1 0 0 0) := by
  refine ⟨?_, quaternionToAngleAxisZero_hasFDerivAt o _⟩
  simpa using quaternionToAngleAxis_hasFDerivAt ho one_ne_zero

/-- **Finding.** At the quaternion `-1`, which stands for the same rotation, the function has the
derivative `-2` times the vector part, while the branch that is differentiated there gives `+2`
times the vector part: the sign of the derivative is wrong. -/
theorem quaternionToAngleAxis_minus_one_wrong {o : Order} (ho : o.Valid) :
    HasFDerivAt (quaternionToAngleAxis o) ((-2 : ℝ) • vecL o) (mk o (-1) 0 0 0)
      ∧ ¬HasFDerivAt (quaternionToAngleAxisZero o) ((-2 : ℝ) • vecL o) (mk o (-1) 0 0 0) := by
  constructor
  · have := quaternionToAngleAxis_hasFDerivAt ho (w := -1) (by norm_num)
    rwa [show (2 : ℝ) / -1 = -2 by norm_num] at this
  · intro h
    have h2 := h.unique (quaternionToAngleAxisZero_hasFDerivAt o _)
    have h3 := congrFun (congrArg (fun L : Q →L[ℝ] V3 => L (mk o 0 1 0 0)) h2) 0
    simp [vecL, mk_x ho] at h3
    norm_num at h3

end

end Ceres.Rotation
