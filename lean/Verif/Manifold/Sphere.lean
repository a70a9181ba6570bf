import Verif.Manifold.Householder
import Verif.Rotation.Euler
import Verif.Rotation.Zero
import Mathlib.Analysis.Calculus.FDeriv.Add
import Mathlib.Topology.Algebra.Module.FiniteDimension

/-! # The sphere manifold

All statements are about points `x ≠ 0` that are `Regular` (their first entries are all zero, or the
sum of their squares is greater than the machine epsilon), except where said. -/

namespace Ceres.Manifold

open Ceres.Rotation Matrix Filter Topology

noncomputable section

theorem norm2_smul {n : ℕ} (c : ℝ) (x : Vec n) : norm2 (c • x) = |c| * norm2 x := by
  rw [norm2, squaredNorm_eq_inner, inner_smul, inner_comm, inner_smul, ← squaredNorm_eq_inner,
    ← mul_assoc, Real.sqrt_mul (mul_self_nonneg c), Real.sqrt_mul_self_eq_abs, norm2]

theorem sinc_mul (t : ℝ) : Real.sinc t * t = Real.sin t := by
  by_cases h : t = 0
  · subst h; simp
  · rw [Real.sinc_of_ne_zero h]; field_simp

/-- The point of the unit sphere at `delta` from the last unit vector. -/
def expo {n : ℕ} (delta : Vec n) : Vec (n + 1) :=
  snoc (Real.sinc (norm2 delta) • delta) (Real.cos (norm2 delta))

theorem expo_zero {n : ℕ} : expo (0 : Vec n) = snoc 0 1 := by
  have : norm2 (0 : Vec n) = 0 := norm2_eq_zero.2 rfl
  simp [expo, this]

theorem norm2_expo {n : ℕ} (delta : Vec n) : norm2 (expo delta) = 1 := by
  rw [norm2, squaredNorm_eq_inner, inner_split, expo, head_snoc, last_snoc, inner_smul, inner_comm,
    inner_smul, ← squaredNorm_eq_inner, ← norm2_mul_self]
  have h := sinc_mul (norm2 delta)
  have h2 := Real.sin_sq_add_cos_sq (norm2 delta)
  rw [Real.sqrt_eq_one]
  linear_combination (Real.sinc (norm2 delta) * norm2 delta + Real.sin (norm2 delta)) * h + h2

/-- `Plus` in closed form. -/
theorem spherePlus_eq {n : ℕ} {x : Vec (n + 1)} (hx : Regular x) (delta : Vec n) :
    spherePlus x delta = norm2 x • H x (expo delta) := by
  simp only [spherePlus]
  by_cases h : norm2 delta = 0
  · rw [if_pos h, norm2_eq_zero.1 h, expo_zero, H_last hx]
  · rw [if_neg h]
    funext i
    simp only [computeSphereManifoldPlus, H, expo, Real.sinc_of_ne_zero h, Pi.smul_apply, smul_eq_mul]
    rfl

/-- **C43.** `Plus(x, 0) = x`, for every `x`. -/
theorem spherePlus_zero {n : ℕ} (x : Vec (n + 1)) : spherePlus x 0 = x := by
  simp only [spherePlus]
  rw [if_pos (norm2_eq_zero.2 rfl)]

/-- **C43.** `Plus` keeps the norm: the result is on the sphere of `x`. -/
theorem norm2_spherePlus {n : ℕ} {x : Vec (n + 1)} (hx : Regular x) (delta : Vec n) :
    norm2 (spherePlus x delta) = norm2 x := by
  rw [spherePlus_eq hx, norm2_smul, norm2_H hx, norm2_expo, mul_one, abs_of_nonneg (norm2_nonneg x)]

/-- `Plus` moves `x` by the angle `‖delta‖`. -/
theorem inner_spherePlus {n : ℕ} {x : Vec (n + 1)} (hx : Regular x) (delta : Vec n) :
    inner x (spherePlus x delta) = norm2 x * norm2 x * Real.cos (norm2 delta) := by
  have e : inner (H x x) (H x (spherePlus x delta)) = inner x (spherePlus x delta) := inner_H hx _ _
  rw [← e, spherePlus_eq hx, H_smul, H_H hx, householder_self hx, inner_smul, inner_split, expo]
  simp [inner]
  ring

/-- `Minus` in terms of the transformed point. -/
theorem sphereMinus_eq {n : ℕ} (x y : Vec (n + 1)) :
    sphereMinus y x = (let z := (norm2 x)⁻¹ • H x y
      if norm2 (head z) = 0 then
        fun i => if i.val + 1 = n then (if 0 ≤ last z then 0 else Real.pi) else 0
      else (atan2 (norm2 (head z)) (last z) / norm2 (head z)) • head z) := by
  have e : (fun i => applyHouseholderVector y (computeHouseholderVector x).1
      (computeHouseholderVector x).2 i / norm2 x) = (norm2 x)⁻¹ • H x y := by
    funext i; simp [H, div_eq_inv_mul]
  simp only [sphereMinus, computeSphereManifoldMinus, e]
  rfl

/-- **C43.** `Minus(Plus(x, delta), x) = delta` for `‖delta‖ < π`. -/
theorem sphereMinus_plus {n : ℕ} {x : Vec (n + 1)} (hx : Regular x) (h0 : x ≠ 0) {delta : Vec n}
    (hd : norm2 delta < Real.pi) : sphereMinus (spherePlus x delta) x = delta := by
  have hn : norm2 x ≠ 0 := fun h => h0 (norm2_eq_zero.1 h)
  have hz : (norm2 x)⁻¹ • H x (spherePlus x delta) = expo delta := by
    rw [spherePlus_eq hx, H_smul, H_H hx, smul_smul, inv_mul_cancel₀ hn, one_smul]
  rw [sphereMinus_eq]
  simp only [hz]
  have hh : norm2 (head (expo delta)) = Real.sin (norm2 delta) := by
    rw [expo, head_snoc, norm2_smul, ← abs_of_nonneg (norm2_nonneg delta), ← abs_mul,
      abs_of_nonneg (norm2_nonneg delta), sinc_mul, abs_of_nonneg]
    exact Real.sin_nonneg_of_nonneg_of_le_pi (norm2_nonneg delta) hd.le
  rw [hh]
  by_cases h : norm2 delta = 0
  · rw [if_pos (by rw [h, Real.sin_zero]), norm2_eq_zero.1 h, expo_zero]
    funext i
    simp
  · have hs : 0 < Real.sin (norm2 delta) :=
      Real.sin_pos_of_pos_of_lt_pi (lt_of_le_of_ne (norm2_nonneg delta) (Ne.symm h)) hd
    have ha := atan2_sin_cos (r := 1) one_pos (by linarith [norm2_nonneg delta, Real.pi_pos]) hd.le
    rw [one_mul, one_mul] at ha
    rw [if_neg hs.ne', expo, last_snoc, head_snoc, ha, smul_smul, Real.sinc_of_ne_zero h]
    have : norm2 delta / Real.sin (norm2 delta) * (Real.sin (norm2 delta) / norm2 delta) = 1 := by
      field_simp
    rw [this, one_smul]

theorem H_inv {n : ℕ} {x y : Vec (n + 1)} (hx : Regular x) (h0 : x ≠ 0) :
    norm2 x • H x ((norm2 x)⁻¹ • H x y) = y := by
  have hn : norm2 x ≠ 0 := fun h => h0 (norm2_eq_zero.1 h)
  rw [H_smul, H_H hx, smul_smul, mul_inv_cancel₀ hn, one_smul]

/-- Where `Minus` leads back to: the transformed point. -/
theorem expo_minus {n : ℕ} (hn : 1 ≤ n) {x y : Vec (n + 1)}
    (hz : norm2 ((norm2 x)⁻¹ • H x y) = 1) :
    expo (sphereMinus y x) = (norm2 x)⁻¹ • H x y ∧ norm2 (sphereMinus y x) ≤ Real.pi := by
  rw [sphereMinus_eq]
  generalize (norm2 x)⁻¹ • H x y = z at *
  have hzz : norm2 (head z) * norm2 (head z) + last z * last z = 1 := by
    have := norm2_mul_self z
    rw [hz, squaredNorm_eq_inner, inner_split, ← squaredNorm_eq_inner, ← norm2_mul_self] at this
    linarith
  simp only
  by_cases h : norm2 (head z) = 0
  · rw [if_pos h]
    rw [h] at hzz
    have h1 : last z = 1 ∨ last z = -1 := by
      have : (last z - 1) * (last z + 1) = 0 := by linarith
      rcases mul_eq_zero.1 this with h | h
      · left; linarith
      · right; linarith
    have hh := norm2_eq_zero.1 h
    rcases h1 with h1 | h1
    · have e : (fun i : Fin n => if i.val + 1 = n then (if 0 ≤ last z then 0 else Real.pi) else 0) = 0 := by
        funext i; simp [h1]
      rw [e]
      refine ⟨?_, ?_⟩
      · rw [expo_zero]; exact ext_head_last (by simp [hh]) (by simp [h1])
      · rw [norm2_eq_zero.2 rfl]; exact Real.pi_pos.le
    · have e : norm2 (fun i : Fin n => if i.val + 1 = n then (if 0 ≤ last z then 0 else Real.pi) else 0)
          = Real.pi := by
        rw [norm2, squaredNorm, Finset.sum_eq_single ⟨n - 1, by omega⟩]
        · have : n - 1 + 1 = n := by omega
          simp only [this, if_pos, h1]
          norm_num
          rw [← sq, Real.sqrt_sq Real.pi_pos.le]
        · intro i _ hi
          have : ¬i.val + 1 = n := fun h => hi (Fin.ext (by simp; omega))
          simp [this]
        · simp
      refine ⟨?_, e.le⟩
      rw [expo, e]
      apply ext_head_last
      · rw [head_snoc, hh, Real.sinc_of_ne_zero Real.pi_ne_zero]; simp
      · rw [last_snoc, Real.cos_pi, h1]
  · rw [if_neg h]
    have hpos : 0 < norm2 (head z) := lt_of_le_of_ne (norm2_nonneg _) (Ne.symm h)
    obtain ⟨hs, hc⟩ := sin_cos_atan2 (y := norm2 (head z)) (x := last z) one_pos (by linarith)
    rw [div_one] at hs hc
    have ha : 0 ≤ atan2 (norm2 (head z)) (last z) := by
      rw [atan2]; exact Complex.arg_nonneg_iff.2 (norm2_nonneg _)
    have hne : atan2 (norm2 (head z)) (last z) ≠ 0 := by
      intro h0; rw [h0, Real.sin_zero] at hs; exact h hs.symm
    have hnorm : norm2 ((atan2 (norm2 (head z)) (last z) / norm2 (head z)) • head z)
        = atan2 (norm2 (head z)) (last z) := by
      rw [norm2_smul, abs_of_nonneg (div_nonneg ha hpos.le)]
      field_simp
    refine ⟨?_, by rw [hnorm]; exact Complex.arg_le_pi _⟩
    rw [expo, hnorm, smul_smul, Real.sinc_of_ne_zero hne, hs, hc]
    have : norm2 (head z) / atan2 (norm2 (head z)) (last z)
        * (atan2 (norm2 (head z)) (last z) / norm2 (head z)) = 1 := by field_simp
    rw [this, one_smul, snoc_head_last]

/-- **C43.** `Plus(x, Minus(y, x)) = y` for every `y` of the same norm, and `‖Minus(y, x)‖ ≤ π`. -/
theorem spherePlus_minus {n : ℕ} (hn : 1 ≤ n) {x y : Vec (n + 1)} (hx : Regular x) (h0 : x ≠ 0)
    (hy : norm2 y = norm2 x) :
    spherePlus x (sphereMinus y x) = y ∧ norm2 (sphereMinus y x) ≤ Real.pi := by
  have hn0 : norm2 x ≠ 0 := fun h => h0 (norm2_eq_zero.1 h)
  have hz : norm2 ((norm2 x)⁻¹ • H x y) = 1 := by
    rw [norm2_smul, norm2_H hx, hy, abs_of_nonneg (inv_nonneg.2 (norm2_nonneg x)), inv_mul_cancel₀ hn0]
  obtain ⟨h1, h2⟩ := expo_minus hn hz
  exact ⟨by rw [spherePlus_eq hx, h1, H_inv hx h0], h2⟩

/-! ## Jacobians -/

/-- A matrix as a continuous linear map. -/
def asMap {m n : Type} [Fintype m] [Fintype n] [DecidableEq n] (J : Matrix m n ℝ) :
    (n → ℝ) →L[ℝ] (m → ℝ) := LinearMap.toContinuousLinearMap J.mulVecLin

@[simp] theorem asMap_apply {m n : Type} [Fintype m] [Fintype n] [DecidableEq n] (J : Matrix m n ℝ)
    (v : n → ℝ) : asMap J v = J *ᵥ v := rfl

theorem continuous_norm2 {n : ℕ} : Continuous (norm2 : Vec n → ℝ) := by
  unfold norm2 squaredNorm
  fun_prop

theorem norm2_zero {n : ℕ} : norm2 (0 : Vec n) = 0 := norm2_eq_zero.2 rfl

/-- The coordinate as a linear function. -/
def proj {n : ℕ} (i : Fin n) : Vec n →L[ℝ] ℝ := ContinuousLinearMap.proj i

theorem hasFDerivAt_cos_norm2 {n : ℕ} :
    HasFDerivAt (fun d : Vec n => Real.cos (norm2 d)) (0 : Vec n →L[ℝ] ℝ) 0 := by
  have e : (fun d : Vec n => Real.cos (norm2 d)) = fun d => 1 - ∑ i, d i
      * (d i * (Real.sinc (norm2 d / 2) * Real.sinc (norm2 d / 2) / 2)) := by
    funext d
    have := one_sub_cos (norm2 d)
    rw [norm2_mul_self] at this
    have e2 : ∑ i, d i * (d i * (Real.sinc (norm2 d / 2) * Real.sinc (norm2 d / 2) / 2))
        = squaredNorm d * (Real.sinc (norm2 d / 2) * Real.sinc (norm2 d / 2) / 2) := by
      rw [squaredNorm, Finset.sum_mul]
      exact Finset.sum_congr rfl fun i _ => by ring
    rw [e2]
    linarith
  rw [e]
  have hk : Continuous fun d : Vec n => Real.sinc (norm2 d / 2) * Real.sinc (norm2 d / 2) / 2 := by
    have h1 := continuous_norm2 (n := n)
    have h2 := Real.continuous_sinc
    fun_prop
  have h : ∀ i ∈ (Finset.univ : Finset (Fin n)), HasFDerivAt (fun d : Vec n => d i
      * (d i * (Real.sinc (norm2 d / 2) * Real.sinc (norm2 d / 2) / 2))) (0 : Vec n →L[ℝ] ℝ) 0 := by
    intro i _
    have := hasFDerivAt_mul_of_zero (proj i) (fun d : Vec n => d i
      * (Real.sinc (norm2 d / 2) * Real.sinc (norm2 d / 2) / 2)) 0 (by simp [proj])
      (((continuous_apply i).mul hk).continuousAt)
    simpa [proj] using this
  have h2 := (HasFDerivAt.fun_sum h).const_sub 1
  simpa using h2

/-- The derivative of the exponential at zero: append a zero. -/
theorem hasFDerivAt_expo {n : ℕ} :
    HasFDerivAt (expo : Vec n → Vec (n + 1))
      (ContinuousLinearMap.pi fun i => Fin.lastCases (motive := fun _ => Vec n →L[ℝ] ℝ) 0 proj i) 0 := by
  rw [hasFDerivAt_pi']
  intro i
  refine Fin.lastCases ?_ (fun j => ?_) i
  · have e : (fun d : Vec n => expo d (Fin.last n)) = fun d => Real.cos (norm2 d) := by
      funext d; simp [expo, snoc]
    rw [e]
    refine hasFDerivAt_cos_norm2.congr_fderiv ?_
    ext d
    simp
  · have e : (fun d : Vec n => expo d j.castSucc) = fun d => proj j d * Real.sinc (norm2 d) := by
      funext d; simp [expo, snoc, proj, mul_comm]
    rw [e]
    have hk : Continuous fun d : Vec n => Real.sinc (norm2 d) :=
      Real.continuous_sinc.comp continuous_norm2
    have := hasFDerivAt_mul_of_zero (proj j) _ 0 (by simp [proj]) hk.continuousAt
    refine this.congr_fderiv ?_
    ext d
    simp [norm2_zero]

/-- The Householder map as a linear map. -/
def Hmap {n : ℕ} (x : Vec (n + 1)) : Vec (n + 1) →L[ℝ] Vec (n + 1) :=
  LinearMap.toContinuousLinearMap
    { toFun := H x, map_add' := H_add x, map_smul' := fun c y => H_smul c x y }

@[simp] theorem Hmap_apply {n : ℕ} (x y : Vec (n + 1)) : Hmap x y = H x y := rfl

/-- The columns of `PlusJacobian` are `‖x‖` times the first columns of the Householder matrix. -/
theorem plusJacobian_mulVec {n : ℕ} (x : Vec (n + 1)) (d : Vec n) :
    computeSphereManifoldPlusJacobian x *ᵥ d = norm2 x • H x (snoc d 0) := by
  funext r
  simp only [computeSphereManifoldPlusJacobian, Matrix.mulVec, _root_.dotProduct, Matrix.of_apply,
    Pi.smul_apply, smul_eq_mul, H, applyHouseholderVector]
  rw [Fin.sum_univ_castSucc]
  have h1 : snoc d 0 (Fin.last n) = 0 := by simp [snoc]
  have h2 : ∀ j : Fin n, snoc d 0 j.castSucc = d j := fun j => by simp [snoc]
  simp only [h1, h2, mul_zero, add_zero]
  have h3 : snoc d 0 r = ∑ c : Fin n, (if r = c.castSucc then 1 else 0) * d c := by
    refine Fin.lastCases ?_ (fun j => ?_) r
    · rw [h1, Finset.sum_eq_zero]
      intro c _
      rw [if_neg (Fin.castSucc_lt_last c).ne', zero_mul]
    · rw [h2, Finset.sum_eq_single j]
      · simp
      · intro b _ hb
        rw [if_neg (fun h => hb (Fin.castSucc_injective _ h).symm), zero_mul]
      · simp
  rw [h3, Finset.mul_sum, Finset.mul_sum, ← Finset.sum_sub_distrib, Finset.mul_sum]
  exact Finset.sum_congr rfl fun c _ => by ring

/-- The rows of `MinusJacobian` are the first rows of the Householder matrix over `‖x‖`. -/
theorem minusJacobian_mulVec {n : ℕ} (x y : Vec (n + 1)) :
    computeSphereManifoldMinusJacobian x *ᵥ y = head ((norm2 x)⁻¹ • H x y) := by
  funext r
  simp only [computeSphereManifoldMinusJacobian, Matrix.mulVec, _root_.dotProduct, Matrix.of_apply,
    Pi.smul_apply, smul_eq_mul, H, applyHouseholderVector, head]
  have h3 : y r.castSucc = ∑ c : Fin (n + 1), (if c = r.castSucc then 1 else 0) * y c := by
    simp
  conv_rhs => rw [h3]
  rw [Finset.mul_sum, Finset.mul_sum, ← Finset.sum_sub_distrib, Finset.mul_sum]
  exact Finset.sum_congr rfl fun c _ => by ring

/-- **C44.** `PlusJacobian(x)` is the derivative of `Plus(x, ·)` at zero. -/
theorem spherePlus_hasFDerivAt {n : ℕ} {x : Vec (n + 1)} (hx : Regular x) :
    HasFDerivAt (spherePlus x) (asMap (spherePlusJacobian x)) 0 := by
  have e : spherePlus x = fun d => norm2 x • Hmap x (expo d) := by
    funext d; exact spherePlus_eq hx d
  rw [e]
  have h := ((Hmap x).hasFDerivAt.comp (0 : Vec n) hasFDerivAt_expo).const_smul (norm2 x)
  refine h.congr_fderiv ?_
  ext1 d
  rw [asMap_apply, spherePlusJacobian, plusJacobian_mulVec]
  have : (ContinuousLinearMap.pi fun i : Fin (n + 1) =>
      Fin.lastCases (motive := fun _ => Vec n →L[ℝ] ℝ) 0 proj i) d = snoc d 0 := by
    funext i
    refine Fin.lastCases ?_ (fun j => ?_) i
    · simp [snoc]
    · simp [snoc, proj]
  simp [this]

/-- **C44.** `MinusJacobian(x)` is the derivative of `Minus(·, x)` at `x`. -/
theorem sphereMinus_hasFDerivAt {n : ℕ} {x : Vec (n + 1)} (hx : Regular x) (h0 : x ≠ 0) :
    HasFDerivAt (fun y => sphereMinus y x) (asMap (sphereMinusJacobian x)) x := by
  have hn : norm2 x ≠ 0 := fun h => h0 (norm2_eq_zero.1 h)
  set Z : Vec (n + 1) →L[ℝ] Vec (n + 1) := (norm2 x)⁻¹ • Hmap x with hZ
  have hZx : Z x = snoc 0 1 := by
    rw [hZ, ContinuousLinearMap.smul_apply, Hmap_apply, householder_self hx]
    exact ext_head_last (by funext i; simp [head, snoc]) (by simp [last, snoc, hn])
  have hlast : Continuous fun y : Vec (n + 1) => last (Z y) :=
    (continuous_apply (Fin.last n)).comp Z.continuous
  have hhead : Continuous fun y : Vec (n + 1) => head (Z y) :=
    continuous_pi fun i => (continuous_apply i.castSucc).comp Z.continuous
  have hpos : ∀ᶠ y in 𝓝 x, 0 < last (Z y) :=
    (hlast.continuousAt).eventually (lt_mem_nhds (by simp only [hZx, last_snoc]; exact one_pos))
  have hk : ContinuousAt (fun y => (last (Z y))⁻¹ * atanc (norm2 (head (Z y)) / last (Z y))) x := by
    have hl : last (Z x) ≠ 0 := by rw [hZx, last_snoc]; exact one_ne_zero
    refine (hlast.continuousAt.inv₀ hl).mul ?_
    have hq : ContinuousAt (fun y => norm2 (head (Z y)) / last (Z y)) x :=
      (continuous_norm2.comp hhead).continuousAt.div hlast.continuousAt hl
    exact ContinuousAt.comp (g := atanc) (by
      rw [hZx, head_snoc, norm2_zero, zero_div]; exact continuousAt_atanc) hq
  have key : HasFDerivAt (fun y : Vec (n + 1) => fun i : Fin n => ((proj i.castSucc).comp Z) y
      * ((last (Z y))⁻¹ * atanc (norm2 (head (Z y)) / last (Z y))))
      (asMap (sphereMinusJacobian x)) x := by
    rw [hasFDerivAt_pi']
    intro i
    have := hasFDerivAt_mul_of_zero ((proj i.castSucc).comp Z) _ x (by
      simp [hZx, proj, snoc]) hk
    refine this.congr_fderiv ?_
    ext1 y
    have h1 : asMap (sphereMinusJacobian x) y = head (Z y) := minusJacobian_mulVec x y
    simp only [ContinuousLinearMap.smul_apply, ContinuousLinearMap.comp_apply,
      ContinuousLinearMap.proj_apply, h1, hZx, last_snoc, head_snoc, norm2_zero, zero_div, atanc_zero]
    simp [proj, head]
  refine key.congr_of_eventuallyEq ?_
  filter_upwards [hpos] with y hy
  rw [sphereMinus_eq]
  have hz : (norm2 x)⁻¹ • H x y = Z y := rfl
  simp only [hz]
  by_cases h : norm2 (head (Z y)) = 0
  · rw [if_pos h]
    funext i
    have := congrFun (norm2_eq_zero.1 h) i
    have h2 : (Z y) i.castSucc = 0 := this
    simp [hy.le, proj, h2]
  · rw [if_neg h, atan2_of_pos hy, atanc_of_ne (div_ne_zero h hy.ne')]
    funext i
    simp only [Pi.smul_apply, smul_eq_mul, ContinuousLinearMap.comp_apply, proj,
      ContinuousLinearMap.proj_apply, head]
    have := hy.ne'
    field_simp

/-- **C44.** `MinusJacobian(x) * PlusJacobian(x) = I`. -/
theorem sphereMinusJacobian_mul {n : ℕ} {x : Vec (n + 1)} (hx : Regular x) (h0 : x ≠ 0) :
    sphereMinusJacobian x * spherePlusJacobian x = 1 := by
  have hn : norm2 x ≠ 0 := fun h => h0 (norm2_eq_zero.1 h)
  apply Matrix.ext_of_mulVec_single
  intro i
  rw [← Matrix.mulVec_mulVec, spherePlusJacobian, plusJacobian_mulVec, sphereMinusJacobian,
    minusJacobian_mulVec, H_smul, H_H hx, smul_smul, inv_mul_cancel₀ hn, one_smul, head_snoc,
    Matrix.one_mulVec]

/-! ## Points that are not regular -/

/-- **Finding.** For a point with a tiny first part and a negative last entry, `Plus` leaves the
sphere. -/
theorem spherePlus_leaves_sphere :
    ∃ (x : Vec 2) (d : Vec 1), norm2 x ≠ 0 ∧ norm2 (spherePlus x d) ≠ norm2 x := by
  refine ⟨snoc ![1 / 2 ^ 26] (-1), ![Real.pi / 2], ?_, ?_⟩
  · rw [Ne, norm2_eq_zero]
    intro h
    have := congrArg last h
    norm_num [last] at this
    simp [snoc] at this
  · intro h
    have hv : computeHouseholderVector (snoc ![(1 : ℝ) / 2 ^ 26] (-1)) = (snoc ![1 / 2 ^ 26] 1, 2) := by
      simp only [computeHouseholderVector, head_snoc, last_snoc]
      rw [if_pos (by norm_num [squaredNorm, eps])]
      norm_num
    have hd : norm2 ![Real.pi / 2] = Real.pi / 2 := by
      rw [norm2, squaredNorm]
      simp
      rw [← sq, Real.sqrt_sq (by positivity)]
    have hp : Real.pi / 2 ≠ 0 := by positivity
    have e : spherePlus (snoc ![(1 : ℝ) / 2 ^ 26] (-1)) ![Real.pi / 2]
        = norm2 (snoc ![(1 : ℝ) / 2 ^ 26] (-1)) • (snoc ![1 - 1 / 2 ^ 51] (-1 / 2 ^ 25) : Vec 2) := by
      simp only [spherePlus, hd, if_neg hp, hv, computeSphereManifoldPlus, Real.sin_pi_div_two,
        Real.cos_pi_div_two]
      funext i
      simp only [Pi.smul_apply, smul_eq_mul]
      congr 1
      have hs : (Fin.snoc (α := fun _ => ℝ) (fun _ : Fin 1 => (1 : ℝ)) 0 : Vec 2) 1 = 0 := rfl
      fin_cases i <;> simp [applyHouseholderVector, snoc, Fin.sum_univ_two] <;> field_simp <;>
        norm_num [hs]
    rw [e, norm2_smul, abs_of_nonneg (norm2_nonneg _)] at h
    have hn : norm2 (snoc ![(1 : ℝ) / 2 ^ 26] (-1)) ≠ 0 := by
      rw [Ne, norm2_eq_zero]
      intro h
      have := congrArg last h
      norm_num [last] at this
      simp [snoc] at this
    have h2 : norm2 (snoc ![1 - 1 / 2 ^ 51] (-1 / 2 ^ 25) : Vec 2) = 1 :=
      mul_left_cancel₀ hn (by rw [h, mul_one])
    have h3 := norm2_mul_self (snoc ![1 - 1 / 2 ^ 51] (-1 / 2 ^ 25) : Vec 2)
    rw [h2, squaredNorm_eq_inner, inner_split, head_snoc, last_snoc] at h3
    norm_num [inner] at h3

/-- **Finding.** For a short vector, `Minus(x, x)` is not zero. -/
theorem sphereMinus_self_ne_zero : ∃ x : Vec 2, norm2 x ≠ 0 ∧ sphereMinus x x ≠ 0 := by
  have hx : norm2 (snoc ![(1 : ℝ) / 2 ^ 26] 0) = 1 / 2 ^ 26 := by
    rw [norm2, squaredNorm_eq_inner, inner_split, head_snoc, last_snoc]
    have : inner ![(1 : ℝ) / 2 ^ 26] ![(1 : ℝ) / 2 ^ 26] + 0 * 0 = (1 / 2 ^ 26) ^ 2 := by
      simp [inner]; ring
    rw [this, Real.sqrt_sq (by positivity)]
  refine ⟨snoc ![1 / 2 ^ 26] 0, by rw [hx]; positivity, ?_⟩
  have hv : computeHouseholderVector (snoc ![(1 : ℝ) / 2 ^ 26] 0) = (snoc ![1 / 2 ^ 26] 1, 0) := by
    simp only [computeHouseholderVector, head_snoc, last_snoc]
    rw [if_pos (by norm_num [squaredNorm, eps])]
    norm_num
  have hz : (norm2 (snoc ![(1 : ℝ) / 2 ^ 26] 0))⁻¹ • H (snoc ![(1 : ℝ) / 2 ^ 26] 0)
      (snoc ![(1 : ℝ) / 2 ^ 26] 0) = snoc ![1] 0 := by
    rw [hx, H, hv, apply_eq]
    exact ext_head_last (by funext i; fin_cases i; simp [head, snoc]) (by simp [last, snoc])
  rw [sphereMinus_eq]
  simp only [hz, head_snoc, last_snoc]
  have h1 : norm2 ![(1 : ℝ)] = 1 := by simp [norm2, squaredNorm]
  rw [h1, if_neg one_ne_zero]
  intro h
  have h2 := congrFun h 0
  have h3 := atan2_sin_cos (r := 1) (t := Real.pi / 2) one_pos (by linarith [Real.pi_pos])
    (by linarith [Real.pi_pos])
  rw [Real.sin_pi_div_two, Real.cos_pi_div_two, one_mul, mul_zero] at h3
  simp [h3, Real.pi_ne_zero] at h2

end

end Ceres.Manifold
