import Verif.Jet.Model
import Mathlib.Analysis.SpecialFunctions.Sqrt
import Mathlib.Analysis.SpecialFunctions.Complex.LogDeriv
import Mathlib.Analysis.SpecialFunctions.Trigonometric.DerivHyp
import Mathlib.Analysis.Calculus.Deriv.Abs
import Mathlib.Analysis.Calculus.Deriv.Pi
import Mathlib.Analysis.Calculus.ParametricIntervalIntegral
import Mathlib.Analysis.Calculus.LocalExtr.Basic
import Mathlib.MeasureTheory.Integral.IntervalIntegral.FundThmCalculus
import Mathlib.Topology.Algebra.Order.Floor

/-! # Every jet operation propagates first derivatives

`Represents j F t`: the jet `j` is the value and the gradient of `F` at `t`.  Each theorem below says
that the jet operation takes jets representing functions to the jet representing the composition. -/

namespace Ceres.Jet

open Filter Topology

noncomputable section

variable {n : ℕ}

/-- The linear functional with coefficients `v`. -/
def grad (v : Fin n → ℝ) : (Fin n → ℝ) →L[ℝ] ℝ :=
  ∑ i, v i • (ContinuousLinearMap.proj i : (Fin n → ℝ) →L[ℝ] ℝ)

@[simp] theorem grad_apply (v s : Fin n → ℝ) : grad v s = ∑ i, v i * s i := by
  simp [grad]

/-- The specification of a jet: value and first order part of `F` at `t`. -/
structure Represents (j : Jet n) (F : (Fin n → ℝ) → ℝ) (t : Fin n → ℝ) : Prop where
  value : j.a = F t
  deriv : HasFDerivAt F (grad j.v) t

theorem grad_add (v w : Fin n → ℝ) : grad (v + w) = grad v + grad w := by
  ext s; simp [add_mul, Finset.sum_add_distrib]

theorem grad_sub (v w : Fin n → ℝ) : grad (v - w) = grad v - grad w := by
  ext s; simp [sub_mul, Finset.sum_sub_distrib]

theorem grad_neg (v : Fin n → ℝ) : grad (-v) = -grad v := by
  ext s; simp

theorem grad_smul (c : ℝ) (v : Fin n → ℝ) : grad (c • v) = c • grad v := by
  ext s; simp [Finset.mul_sum, mul_assoc]

theorem grad_zero : grad (fun _ : Fin n => 0) = 0 := by
  ext s; simp

theorem grad_inj {v w : Fin n → ℝ} (h : grad v = grad w) : v = w := by
  funext i
  have := congrArg (fun L => L (Pi.single i 1)) h
  simpa [Pi.single_apply] using this

/-- A jet is determined by the function it represents. -/
theorem Represents.unique {j k : Jet n} {F : (Fin n → ℝ) → ℝ} {t : Fin n → ℝ}
    (hj : Represents j F t) (hk : Represents k F t) : j = k :=
  Jet.ext (hj.value.trans hk.value.symm) (grad_inj (hj.deriv.unique hk.deriv))

/-- The components of the infinitesimal part are the partial derivatives. -/
theorem Represents.partial_deriv {j : Jet n} {F : (Fin n → ℝ) → ℝ} {t : Fin n → ℝ}
    (hj : Represents j F t) (i : Fin n) :
    HasDerivAt (fun s => F (Function.update t i s)) (j.v i) (t i) := by
  have h1 : HasFDerivAt F (grad j.v) (Function.update t i (t i)) := by
    rw [Function.update_eq_self]; exact hj.deriv
  have h2 := h1.comp_hasDerivAt (t i) (hasDerivAt_update t i (t i))
  have : grad j.v (Pi.single i 1) = j.v i := by simp [Pi.single_apply]
  rwa [this] at h2

variable {f g h : Jet n} {F G H : (Fin n → ℝ) → ℝ} {t : Fin n → ℝ}

theorem Represents.congr {F' : (Fin n → ℝ) → ℝ} (hf : Represents f F t) (h : F' =ᶠ[𝓝 t] F) :
    Represents f F' t :=
  ⟨hf.value.trans h.self_of_nhds.symm, hf.deriv.congr_of_eventuallyEq h⟩

/-- Chain rule for a function of one variable. -/
theorem Represents.comp₁ {φ : ℝ → ℝ} {d : ℝ} (hf : Represents f F t) (hφ : HasDerivAt φ d f.a) :
    Represents ⟨φ f.a, d • f.v⟩ (fun s => φ (F s)) t := by
  refine ⟨by simp only [hf.value], ?_⟩
  rw [hf.value] at hφ
  rw [grad_smul]
  exact hφ.comp_hasFDerivAt t hf.deriv

/-- Chain rule for a function of two variables. -/
theorem Represents.comp₂ {φ : ℝ × ℝ → ℝ} {L : ℝ × ℝ →L[ℝ] ℝ} {p q : ℝ} (hf : Represents f F t)
    (hg : Represents g G t) (hφ : HasFDerivAt φ L (f.a, g.a)) (hp : L (1, 0) = p)
    (hq : L (0, 1) = q) :
    Represents ⟨φ (f.a, g.a), p • f.v + q • g.v⟩ (fun s => φ (F s, G s)) t := by
  refine ⟨by simp only [hf.value, hg.value], ?_⟩
  rw [hf.value, hg.value] at hφ
  have := HasFDerivAt.comp (g := φ) (f := fun s => (F s, G s)) t hφ (hf.deriv.prodMk hg.deriv)
  refine this.congr_fderiv ?_
  have hL : ∀ a b : ℝ, L (a, b) = p * a + q * b := by
    intro a b
    have : ((a, b) : ℝ × ℝ) = a • (1, 0) + b • (0, 1) := by simp
    rw [this, map_add, map_smul, map_smul, hp, hq, smul_eq_mul, smul_eq_mul]; ring
  ext s
  rw [ContinuousLinearMap.comp_apply, ContinuousLinearMap.prod_apply, hL, grad_add, grad_smul,
    grad_smul]
  rfl

/-! ## Constructors and arithmetic -/

/-- `Jet(value)` represents the constant function. -/
theorem const_represents (c : ℝ) : Represents (Jet.const c) (fun _ => c) t :=
  ⟨rfl, by rw [Jet.const, grad_zero]; exact hasFDerivAt_const _ _⟩

/-- `Jet(value, k)` represents the `k`-th coordinate. -/
theorem seed_represents (k : Fin n) : Represents (Jet.seed (t k) k) (fun s => s k) t := by
  refine ⟨rfl, (hasFDerivAt_apply k t).congr_fderiv ?_⟩
  ext s
  simp [Jet.seed, Fin.val_inj, Finset.sum_ite_eq']

theorem neg_represents (hf : Represents f F t) : Represents f.neg (fun s => -F s) t :=
  ⟨by simp [Jet.neg, hf.value], by rw [Jet.neg, grad_neg]; exact hf.deriv.neg⟩

theorem add_represents (hf : Represents f F t) (hg : Represents g G t) :
    Represents (f.add g) (fun s => F s + G s) t :=
  ⟨by simp [Jet.add, hf.value, hg.value], by
    rw [Jet.add, grad_add]; exact hf.deriv.add hg.deriv⟩

theorem addScalar_represents (hf : Represents f F t) (c : ℝ) :
    Represents (f.addScalar c) (fun s => F s + c) t :=
  ⟨by simp [Jet.addScalar, hf.value], hf.deriv.add_const c⟩

theorem sub_represents (hf : Represents f F t) (hg : Represents g G t) :
    Represents (f.sub g) (fun s => F s - G s) t :=
  ⟨by simp [Jet.sub, hf.value, hg.value], by
    rw [Jet.sub, grad_sub]; exact hf.deriv.sub hg.deriv⟩

theorem subScalar_represents (hf : Represents f F t) (c : ℝ) :
    Represents (f.subScalar c) (fun s => F s - c) t :=
  ⟨by simp [Jet.subScalar, hf.value], hf.deriv.sub_const c⟩

theorem scalarSub_represents (hf : Represents f F t) (c : ℝ) :
    Represents (Jet.scalarSub c f) (fun s => c - F s) t :=
  ⟨by simp [Jet.scalarSub, hf.value], by
    simpa only [Jet.scalarSub, grad_neg] using hf.deriv.const_sub c⟩

theorem mul_represents (hf : Represents f F t) (hg : Represents g G t) :
    Represents (f.mul g) (fun s => F s * G s) t := by
  refine ⟨by simp [Jet.mul, hf.value, hg.value], ?_⟩
  have := hf.deriv.mul hg.deriv
  rw [← hf.value, ← hg.value] at this
  rw [Jet.mul, grad_add, grad_smul, grad_smul]
  exact this

theorem mulScalar_represents (hf : Represents f F t) (c : ℝ) :
    Represents (f.mulScalar c) (fun s => F s * c) t :=
  ⟨by simp [Jet.mulScalar, hf.value], by
    simpa only [Jet.mulScalar, grad_smul] using hf.deriv.mul_const c⟩

theorem div_represents (hf : Represents f F t) (hg : Represents g G t) (h0 : g.a ≠ 0) :
    Represents (f.div g) (fun s => F s / G s) t := by
  have hg' := hg.comp₁ (hasDerivAt_inv h0)
  have h := mul_represents hf hg'
  have e : f.mul ⟨g.a⁻¹, -(g.a ^ 2)⁻¹ • g.v⟩ = f.div g := by
    refine Jet.ext ?_ ?_
    · simp [Jet.mul, Jet.div]
    · funext i
      simp only [Jet.mul, Jet.div, Pi.add_apply, Pi.smul_apply, smul_eq_mul, Pi.sub_apply]
      field_simp
      ring
  rw [e] at h
  simpa only [div_eq_mul_inv] using h

theorem scalarDiv_represents (hg : Represents g G t) (c : ℝ) (h0 : g.a ≠ 0) :
    Represents (Jet.scalarDiv c g) (fun s => c / G s) t := by
  have hd : HasDerivAt (fun x => c / x) (-c / (g.a * g.a)) g.a := by
    have := (hasDerivAt_inv h0).const_mul c
    simp only [div_eq_mul_inv]
    refine this.congr_deriv ?_
    rw [pow_two]; ring
  exact hg.comp₁ hd

theorem divScalar_represents (hf : Represents f F t) (c : ℝ) :
    Represents (f.divScalar c) (fun s => F s / c) t := by
  have := mulScalar_represents hf (1 / c)
  simpa only [Jet.divScalar, Jet.mulScalar, mul_one_div] using this

/-! ## Functions of one variable -/

theorem log_represents (hf : Represents f F t) (h0 : 0 < f.a) :
    Represents f.log (fun s => Real.log (F s)) t := by
  have := Real.hasDerivAt_log h0.ne'
  rw [← one_div] at this
  exact hf.comp₁ this

theorem hasDerivAt_logb (b x : ℝ) (hx : x ≠ 0) :
    HasDerivAt (Real.logb b) (1 / (x * Real.log b)) x := by
  have := (Real.hasDerivAt_log hx).div_const (Real.log b)
  have e : Real.logb b = fun y => Real.log y / Real.log b := rfl
  rw [e]
  refine this.congr_deriv ?_
  rw [one_div, mul_inv, div_eq_mul_inv]

theorem log10_represents (hf : Represents f F t) (h0 : 0 < f.a) :
    Represents f.log10 (fun s => log10 (F s)) t :=
  hf.comp₁ (hasDerivAt_logb 10 f.a h0.ne')

theorem log2_represents (hf : Represents f F t) (h0 : 0 < f.a) :
    Represents f.log2 (fun s => log2 (F s)) t :=
  hf.comp₁ (hasDerivAt_logb 2 f.a h0.ne')

theorem log1p_represents (hf : Represents f F t) (h0 : -1 < f.a) :
    Represents f.log1p (fun s => log1p (F s)) t := by
  have h1 : (1 + f.a) ≠ 0 := by linarith
  have := ((hasDerivAt_id f.a).const_add 1).log h1
  exact hf.comp₁ this

theorem exp_represents (hf : Represents f F t) :
    Represents f.exp (fun s => Real.exp (F s)) t :=
  hf.comp₁ (Real.hasDerivAt_exp f.a)

theorem expm1_represents (hf : Represents f F t) :
    Represents f.expm1 (fun s => expm1 (F s)) t := by
  have h := (Real.hasDerivAt_exp f.a).sub_const 1
  have e : Real.exp f.a = expm1 f.a + 1 := by simp [expm1]
  rw [e] at h
  exact hf.comp₁ h

theorem sqrt_represents (hf : Represents f F t) (h0 : 0 < f.a) :
    Represents f.sqrt (fun s => Real.sqrt (F s)) t :=
  hf.comp₁ (Real.hasDerivAt_sqrt h0.ne')

theorem cos_represents (hf : Represents f F t) :
    Represents f.cos (fun s => Real.cos (F s)) t :=
  hf.comp₁ (Real.hasDerivAt_cos f.a)

theorem sin_represents (hf : Represents f F t) :
    Represents f.sin (fun s => Real.sin (F s)) t :=
  hf.comp₁ (Real.hasDerivAt_sin f.a)

theorem acos_represents (hf : Represents f F t) (h1 : -1 < f.a) (h2 : f.a < 1) :
    Represents f.acos (fun s => Real.arccos (F s)) t := by
  have h := Real.hasDerivAt_arccos h1.ne' h2.ne
  rw [pow_two, ← neg_div] at h
  exact hf.comp₁ h

theorem asin_represents (hf : Represents f F t) (h1 : -1 < f.a) (h2 : f.a < 1) :
    Represents f.asin (fun s => Real.arcsin (F s)) t := by
  have h := Real.hasDerivAt_arcsin h1.ne' h2.ne
  rw [pow_two] at h
  exact hf.comp₁ h

theorem tan_represents (hf : Represents f F t) (h0 : Real.cos f.a ≠ 0) :
    Represents f.tan (fun s => Real.tan (F s)) t := by
  have h := Real.hasDerivAt_tan h0
  have e : 1 / Real.cos f.a ^ 2 = 1 + Real.tan f.a * Real.tan f.a := by
    rw [Real.tan_eq_sin_div_cos]
    field_simp
    linarith [Real.sin_sq_add_cos_sq f.a]
  rw [e] at h
  exact hf.comp₁ h

theorem atan_represents (hf : Represents f F t) :
    Represents f.atan (fun s => Real.arctan (F s)) t := by
  have h := Real.hasDerivAt_arctan f.a
  rw [pow_two] at h
  exact hf.comp₁ h

theorem sinh_represents (hf : Represents f F t) :
    Represents f.sinh (fun s => Real.sinh (F s)) t :=
  hf.comp₁ (Real.hasDerivAt_sinh f.a)

theorem cosh_represents (hf : Represents f F t) :
    Represents f.cosh (fun s => Real.cosh (F s)) t :=
  hf.comp₁ (Real.hasDerivAt_cosh f.a)

theorem hasDerivAt_tanh' (x : ℝ) :
    HasDerivAt Real.tanh (1 - Real.tanh x * Real.tanh x) x := by
  have hc : Real.cosh x ≠ 0 := (Real.cosh_pos x).ne'
  have h := (Real.hasDerivAt_sinh x).div (Real.hasDerivAt_cosh x) hc
  have e : Real.tanh = Real.sinh / Real.cosh := by
    funext y; simp [Real.tanh_eq_sinh_div_cosh]
  have e2 : 1 - Real.tanh x * Real.tanh x
      = (Real.cosh x * Real.cosh x - Real.sinh x * Real.sinh x) / Real.cosh x ^ 2 := by
    rw [Real.tanh_eq_sinh_div_cosh]; field_simp
  rw [e2, e]
  exact h

theorem tanh_represents (hf : Represents f F t) :
    Represents f.tanh (fun s => Real.tanh (F s)) t :=
  hf.comp₁ (hasDerivAt_tanh' f.a)

theorem hasDerivAt_cbrt {x : ℝ} (hx : x ≠ 0) :
    HasDerivAt cbrt (1 / (3 * cbrt (x * x))) x := by
  have hq : cbrt (x * x) = |x| ^ (2 / 3 : ℝ) := by
    rw [cbrt, if_neg (not_lt.2 (mul_self_nonneg x)), ← abs_mul_abs_self x,
      Real.mul_rpow (abs_nonneg x) (abs_nonneg x), ← Real.rpow_add (abs_pos.2 hx)]
    norm_num
  have key : ∀ y : ℝ, 0 < y →
      HasDerivAt (fun z : ℝ => z ^ (1 / 3 : ℝ)) (1 / (3 * y ^ (2 / 3 : ℝ))) y := by
    intro y hy
    have h := Real.hasDerivAt_rpow_const (x := y) (p := 1 / 3) (Or.inl hy.ne')
    have e : (1 / 3 : ℝ) * y ^ (1 / 3 - 1 : ℝ) = 1 / (3 * y ^ (2 / 3 : ℝ)) := by
      have : (1 / 3 - 1 : ℝ) = -(2 / 3) := by norm_num
      rw [this, Real.rpow_neg hy.le]
      field_simp
    rwa [e] at h
  rw [hq]
  rcases lt_or_gt_of_ne hx with h | h
  · have h1 := ((key (-x) (by linarith)).comp x (hasDerivAt_neg x)).neg
    rw [abs_of_neg h]
    have h2 : cbrt =ᶠ[𝓝 x] -((fun z : ℝ => z ^ (1 / 3 : ℝ)) ∘ Neg.neg) := by
      filter_upwards [gt_mem_nhds h] with y hy
      simp [cbrt, hy]
    refine HasDerivAt.congr_of_eventuallyEq ?_ h2
    convert h1 using 1
    ring
  · rw [abs_of_pos h]
    refine (key x h).congr_of_eventuallyEq ?_
    filter_upwards [lt_mem_nhds h] with y hy
    simp [cbrt, not_lt.2 hy.le]

theorem cbrt_represents (hf : Represents f F t) (h0 : f.a ≠ 0) :
    Represents f.cbrt (fun s => cbrt (F s)) t :=
  hf.comp₁ (hasDerivAt_cbrt h0)

/-- `cbrt` of the model is the cube root. -/
theorem cbrt_pow (x : ℝ) : cbrt x ^ 3 = x := by
  have key : ∀ y : ℝ, 0 ≤ y → (y ^ (1 / 3 : ℝ)) ^ 3 = y := by
    intro y hy
    rw [← Real.rpow_natCast, ← Real.rpow_mul hy]; norm_num
  unfold cbrt
  split_ifs with h
  · have := key (-x) (by linarith)
    rw [Odd.neg_pow (by decide), this, neg_neg]
  · exact key x (not_lt.1 h)

theorem exp2_represents (hf : Represents f F t) :
    Represents f.exp2 (fun s => exp2 (F s)) t := by
  have h : HasDerivAt exp2 (exp2 f.a * Real.log 2) f.a := by
    have := (hasDerivAt_id f.a).const_rpow (a := 2) (by norm_num)
    refine this.congr_deriv ?_
    simp [exp2, mul_comm]
  exact hf.comp₁ h

theorem two_div_sqrt_pi : 1 / Real.sqrt (Real.arctan 1) = 2 / Real.sqrt Real.pi := by
  rw [Real.arctan_one, Real.sqrt_div Real.pi_pos.le]
  have : Real.sqrt 4 = 2 := by
    rw [show (4 : ℝ) = 2 ^ 2 by norm_num]; exact Real.sqrt_sq (by norm_num)
  rw [this, one_div_div]

theorem hasDerivAt_erf (x : ℝ) :
    HasDerivAt erf (1 / Real.sqrt (Real.arctan 1) * Real.exp (-x * x)) x := by
  have hc : Continuous fun s : ℝ => Real.exp (-s ^ 2) := by fun_prop
  have h := intervalIntegral.integral_hasDerivAt_right (f := fun s : ℝ => Real.exp (-s ^ 2))
    (a := 0) (b := x) (hc.intervalIntegrable _ _) (hc.stronglyMeasurableAtFilter _ _)
    hc.continuousAt
  have h2 := h.const_mul (2 / Real.sqrt Real.pi)
  rw [two_div_sqrt_pi]
  have e : -x * x = -x ^ 2 := by ring
  rw [e]
  exact h2

theorem erf_represents (hf : Represents f F t) :
    Represents f.erf (fun s => erf (F s)) t := by
  have h := hf.comp₁ (hasDerivAt_erf f.a)
  simpa only [Jet.erf, smul_smul] using h

theorem erfc_represents (hf : Represents f F t) :
    Represents f.erfc (fun s => erfc (F s)) t := by
  have h := hf.comp₁ ((hasDerivAt_erf f.a).const_sub 1)
  simp only [Jet.erfc, smul_smul, smul_neg]
  rw [neg_smul] at h
  exact h

theorem norm_represents (hf : Represents f F t) : Represents f.norm (fun s => F s * F s) t := by
  have h : HasDerivAt (fun x : ℝ => x * x) (2 * f.a) f.a := by
    have := (hasDerivAt_id f.a).mul (hasDerivAt_id f.a)
    refine this.congr_deriv ?_
    simp only [id]; ring
  exact hf.comp₁ h

/-! ## Bessel functions of integer order -/

theorem hasDerivAt_besselJ (k : ℤ) (x : ℝ) :
    HasDerivAt (besselJ k) (1 / 2 * (besselJ (k - 1) x - besselJ (k + 1) x)) x := by
  have hd : ∀ τ y : ℝ, HasDerivAt (fun y => Real.cos (k * τ - y * Real.sin τ))
      (Real.sin (k * τ - y * Real.sin τ) * Real.sin τ) y := by
    intro τ y
    have h1 : HasDerivAt (fun y : ℝ => k * τ - y * Real.sin τ) (-Real.sin τ) y := by
      simpa using ((hasDerivAt_id y).mul_const (Real.sin τ)).const_sub (k * τ)
    convert h1.cos using 1
    ring
  have key := (intervalIntegral.hasDerivAt_integral_of_dominated_loc_of_deriv_le
    (μ := MeasureTheory.volume) (a := 0) (b := Real.pi) (s := Set.univ) (x₀ := x)
    (F := fun y τ => Real.cos (k * τ - y * Real.sin τ))
    (F' := fun y τ => Real.sin (k * τ - y * Real.sin τ) * Real.sin τ) (bound := fun _ => 1)
    Filter.univ_mem
    (Eventually.of_forall fun y => (by fun_prop : Continuous fun τ : ℝ =>
      Real.cos (k * τ - y * Real.sin τ)).aestronglyMeasurable)
    ((by fun_prop : Continuous fun τ : ℝ =>
      Real.cos (k * τ - x * Real.sin τ)).intervalIntegrable _ _)
    ((by fun_prop : Continuous fun τ : ℝ =>
      Real.sin (k * τ - x * Real.sin τ) * Real.sin τ).aestronglyMeasurable)
    (Eventually.of_forall fun τ _ y _ => by
      rw [norm_mul]
      exact mul_le_one₀ (Real.abs_sin_le_one _) (norm_nonneg _) (Real.abs_sin_le_one _))
    (_root_.intervalIntegrable_const)
    (Eventually.of_forall fun τ _ y _ => hd τ y)).2
  have h2 := key.const_mul (1 / Real.pi)
  refine h2.congr_deriv ?_
  have e : ∀ τ : ℝ, Real.sin (k * τ - x * Real.sin τ) * Real.sin τ
      = 1 / 2 * (Real.cos (((k - 1 : ℤ) : ℝ) * τ - x * Real.sin τ)
        - Real.cos (((k + 1 : ℤ) : ℝ) * τ - x * Real.sin τ)) := by
    intro τ
    have e1 : ((k - 1 : ℤ) : ℝ) * τ - x * Real.sin τ = (k * τ - x * Real.sin τ) - τ := by
      push_cast; ring
    have e2 : ((k + 1 : ℤ) : ℝ) * τ - x * Real.sin τ = (k * τ - x * Real.sin τ) + τ := by
      push_cast; ring
    rw [e1, e2, Real.cos_sub, Real.cos_add]; ring
  simp only [e]
  rw [intervalIntegral.integral_const_mul, intervalIntegral.integral_sub]
  · simp only [besselJ]; ring
  · exact (by fun_prop : Continuous fun τ : ℝ =>
      Real.cos (((k - 1 : ℤ) : ℝ) * τ - x * Real.sin τ)).intervalIntegrable _ _
  · exact (by fun_prop : Continuous fun τ : ℝ =>
      Real.cos (((k + 1 : ℤ) : ℝ) * τ - x * Real.sin τ)).intervalIntegrable _ _

/-- `J_{-1} = -J_1`. -/
theorem besselJ_neg_one (x : ℝ) : besselJ (-1) x = -besselJ 1 x := by
  have h := intervalIntegral.integral_comp_sub_left (a := 0) (b := Real.pi)
    (fun τ => Real.cos (((-1 : ℤ) : ℝ) * τ - x * Real.sin τ)) Real.pi
  rw [sub_self, sub_zero] at h
  unfold besselJ
  rw [← h, ← mul_neg, ← intervalIntegral.integral_neg]
  congr 1
  refine intervalIntegral.integral_congr fun τ _ => ?_
  have e : ((-1 : ℤ) : ℝ) * (Real.pi - τ) - x * Real.sin (Real.pi - τ)
      = (((1 : ℤ) : ℝ) * τ - x * Real.sin τ) - Real.pi := by
    rw [Real.sin_pi_sub]; push_cast; ring
  simp only [e, Real.cos_sub_pi]

theorem besselJn_represents (hf : Represents f F t) (k : ℤ) :
    Represents (Jet.besselJn k f) (fun s => besselJ k (F s)) t :=
  hf.comp₁ (hasDerivAt_besselJ k f.a)

theorem besselJ0_represents (hf : Represents f F t) :
    Represents f.besselJ0 (fun s => besselJ 0 (F s)) t := by
  have h := hasDerivAt_besselJ 0 f.a
  have e : 1 / 2 * (besselJ (0 - 1) f.a - besselJ (0 + 1) f.a) = -besselJ 1 f.a := by
    rw [zero_sub, zero_add, besselJ_neg_one]; ring
  rw [e] at h
  exact hf.comp₁ h

theorem besselJ1_represents (hf : Represents f F t) :
    Represents f.besselJ1 (fun s => besselJ 1 (F s)) t :=
  hf.comp₁ (hasDerivAt_besselJ 1 f.a)

/-! ## `hypot`, `fma`, `lerp`, `midpoint`, `atan2` -/

theorem hypot_represents (hf : Represents f F t) (hg : Represents g G t)
    (h0 : f.a ≠ 0 ∨ g.a ≠ 0) : Represents (f.hypot g) (fun s => hypot (F s) (G s)) t := by
  have hp : 0 < f.a * f.a + g.a * g.a := by
    rcases h0 with h | h
    · nlinarith [mul_self_pos.2 h, mul_self_nonneg g.a]
    · nlinarith [mul_self_pos.2 h, mul_self_nonneg f.a]
  have h := sqrt_represents (add_represents (mul_represents hf hf) (mul_represents hg hg)) hp
  have hs : 0 < Real.sqrt (f.a * f.a + g.a * g.a) := Real.sqrt_pos.2 hp
  have e : ((f.mul f).add (g.mul g)).sqrt = f.hypot g := by
    refine Jet.ext rfl (funext fun i => ?_)
    simp only [Jet.sqrt, Jet.add, Jet.mul, Jet.hypot, hypot, Pi.smul_apply, Pi.add_apply,
      smul_eq_mul]
    field_simp
    ring
  rwa [e] at h

theorem hypot3_represents (hf : Represents f F t) (hg : Represents g G t) (hh : Represents h H t)
    (h0 : f.a ≠ 0 ∨ g.a ≠ 0 ∨ h.a ≠ 0) :
    Represents (f.hypot3 g h) (fun s => hypot3 (F s) (G s) (H s)) t := by
  have hp : 0 < f.a * f.a + g.a * g.a + h.a * h.a := by
    rcases h0 with h1 | h1 | h1 <;>
      nlinarith [mul_self_pos.2 h1, mul_self_nonneg g.a, mul_self_nonneg f.a, mul_self_nonneg h.a]
  have hr := sqrt_represents (add_represents (add_represents (mul_represents hf hf)
    (mul_represents hg hg)) (mul_represents hh hh)) hp
  have hs : 0 < Real.sqrt (f.a * f.a + g.a * g.a + h.a * h.a) := Real.sqrt_pos.2 hp
  have e : (((f.mul f).add (g.mul g)).add (h.mul h)).sqrt = f.hypot3 g h := by
    refine Jet.ext rfl (funext fun i => ?_)
    simp only [Jet.sqrt, Jet.add, Jet.mul, Jet.hypot3, hypot3, Pi.smul_apply, Pi.add_apply,
      smul_eq_mul]
    field_simp
    ring
  rwa [e] at hr

theorem fma_represents (hf : Represents f F t) (hg : Represents g G t) (hh : Represents h H t) :
    Represents (f.fma g h) (fun s => fma (F s) (G s) (H s)) t := by
  have hr := add_represents (mul_represents hf hg) hh
  have e : (f.mul g).add h = f.fma g h := by
    refine Jet.ext rfl (funext fun i => ?_)
    simp only [Jet.add, Jet.mul, Jet.fma, Pi.smul_apply, Pi.add_apply, smul_eq_mul]
    ring
  rwa [e] at hr

theorem lerp_represents (hf : Represents f F t) (hg : Represents g G t) (hh : Represents h H t) :
    Represents (f.lerp g h) (fun s => lerp (F s) (G s) (H s)) t := by
  have hr := add_represents hf (mul_represents hh (sub_represents hg hf))
  have e : f.add (h.mul (g.sub f)) = f.lerp g h := by
    refine Jet.ext rfl (funext fun i => ?_)
    simp only [Jet.add, Jet.mul, Jet.sub, Jet.lerp, Pi.smul_apply, Pi.add_apply, Pi.sub_apply,
      smul_eq_mul]
    ring
  rwa [e] at hr

theorem midpoint_eq (f g : Jet n) : f.midpoint g = (f.add g).mulScalar (1 / 2) := by
  refine Jet.ext ?_ (funext fun i => ?_)
  · simp [Jet.midpoint, Jet.add, Jet.mulScalar, midpoint]; ring
  · simp [Jet.midpoint, Jet.add, Jet.mulScalar, midpoint]; ring

theorem midpoint_represents (hf : Represents f F t) (hg : Represents g G t) :
    Represents (f.midpoint g) (fun s => midpoint (F s) (G s)) t := by
  rw [midpoint_eq]
  have := mulScalar_represents (add_represents hf hg) (1 / 2)
  simpa only [midpoint, mul_one_div] using this

theorem hasFDerivAt_arg {x y : ℝ} (h : 0 < x ∨ y ≠ 0) :
    HasFDerivAt (fun p : ℝ × ℝ => atan2 p.1 p.2)
      ((1 / (x * x + y * y)) • (x • ContinuousLinearMap.fst ℝ ℝ ℝ
        - y • ContinuousLinearMap.snd ℝ ℝ ℝ)) (y, x) := by
  have hz : (⟨x, y⟩ : ℂ) ∈ Complex.slitPlane := h
  have h1 := (Complex.hasStrictDerivAt_log hz).hasDerivAt.hasFDerivAt.restrictScalars ℝ
  have hL : HasFDerivAt (fun p : ℝ × ℝ => (⟨p.2, p.1⟩ : ℂ))
      (Complex.equivRealProdCLM.symm.toContinuousLinearMap.comp
        ((ContinuousLinearMap.snd ℝ ℝ ℝ).prod (ContinuousLinearMap.fst ℝ ℝ ℝ))) (y, x) :=
    (Complex.equivRealProdCLM.symm.toContinuousLinearMap.comp
        ((ContinuousLinearMap.snd ℝ ℝ ℝ).prod (ContinuousLinearMap.fst ℝ ℝ ℝ))).hasFDerivAt
  have h2 := HasFDerivAt.comp (g := Complex.log) (f := fun p : ℝ × ℝ => (⟨p.2, p.1⟩ : ℂ)) (y, x)
    h1 hL
  have h3 := Complex.imCLM.hasFDerivAt.comp (y, x) h2
  have e : (Complex.imCLM ∘ (Complex.log ∘ fun p : ℝ × ℝ => (⟨p.2, p.1⟩ : ℂ)))
      = fun p : ℝ × ℝ => atan2 p.1 p.2 := by
    funext p; simp [Complex.log_im, atan2]
  rw [e] at h3
  refine h3.congr_fderiv ?_
  have hne : x * x + y * y ≠ 0 := by
    rcases h with h | h
    · nlinarith [mul_self_nonneg y, mul_pos h h]
    · nlinarith [mul_self_pos.2 h, mul_self_nonneg x]
  ext
  · simp [Complex.inv_im, Complex.inv_re, Complex.normSq_apply, Complex.mul_im]
    field_simp
  · simp [Complex.inv_im, Complex.inv_re, Complex.normSq_apply, Complex.mul_im]
    field_simp

theorem atan2_represents (hg : Represents g G t) (hf : Represents f F t)
    (h0 : 0 < f.a ∨ g.a ≠ 0) : Represents (g.atan2 f) (fun s => atan2 (G s) (F s)) t := by
  have h := hg.comp₂ hf (hasFDerivAt_arg h0) rfl rfl
  have e : (⟨atan2 g.a f.a, (((1 / (f.a * f.a + g.a * g.a)) • (f.a • ContinuousLinearMap.fst ℝ ℝ ℝ
        - g.a • ContinuousLinearMap.snd ℝ ℝ ℝ)) (1, 0)) • g.v
      + (((1 / (f.a * f.a + g.a * g.a)) • (f.a • ContinuousLinearMap.fst ℝ ℝ ℝ
        - g.a • ContinuousLinearMap.snd ℝ ℝ ℝ)) (0, 1)) • f.v⟩ : Jet n) = g.atan2 f := by
    refine Jet.ext rfl (funext fun i => ?_)
    simp [Jet.atan2]
    ring
  rwa [e] at h

end

end Ceres.Jet
