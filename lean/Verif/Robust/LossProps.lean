import Verif.Robust.Loss
import Mathlib.Analysis.SpecialFunctions.Trigonometric.Bounds
import Mathlib.Tactic.LinearCombination

/-!
# Shape of the loss functions (C39)

The shipped losses and everything built from them with `ComposedLoss` and `ScaledLoss`.
-/
noncomputable section
namespace Ceres.Robust

/-- A loss function object built from the classes of loss_function.h. -/
inductive Loss where
  | trivial
  | huber (a : ℝ)
  | softLOne (a : ℝ)
  | cauchy (a : ℝ)
  | arctan (a : ℝ)
  | tolerant (a b : ℝ)
  | tukey (a : ℝ)
  | composed (f g : Loss)
  | scaled (f : Loss) (a : ℝ)
  | scaledNull (a : ℝ)

/-- Its `Evaluate`. -/
def Loss.eval : Loss → ℝ → Rho
  | .trivial => Robust.trivial
  | .huber a => Robust.huber a
  | .softLOne a => Robust.softLOne a
  | .cauchy a => Robust.cauchy a
  | .arctan a => Robust.arctan a
  | .tolerant a b => Robust.tolerant a b
  | .tukey a => Robust.tukey a
  | .composed f g => Robust.composed f.eval g.eval
  | .scaled f a => Robust.scaled (some f.eval) a
  | .scaledNull a => Robust.scaled none a

/-- Sensible parameters: positive scales, `a ≥ 0` and `b > 0` for `TolerantLoss` (this is what its
constructor checks), non-negative weights. -/
def Loss.Admissible : Loss → Prop
  | .trivial => True
  | .huber a | .softLOne a | .cauchy a | .arctan a | .tukey a => 0 < a
  | .tolerant a b => 0 ≤ a ∧ 0 < b
  | .composed f g => f.Admissible ∧ g.Admissible
  | .scaled f a => f.Admissible ∧ 0 ≤ a
  | .scaledNull a => 0 ≤ a

/-- `s` is a point where the loss is twice differentiable and no reported first derivative has hit
the floor `DBL_MIN`. -/
def Loss.Regular : Loss → ℝ → Prop
  | .trivial, _ | .tukey _, _ | .scaledNull _, _ => True
  | .huber a, s => s ≠ a * a ∧ dblMin < (Robust.huber a s).r1
  | .softLOne a, s => dblMin < (Robust.softLOne a s).r1
  | .cauchy a, s => dblMin < (Robust.cauchy a s).r1
  | .arctan a, s => dblMin < (Robust.arctan a s).r1
  | .tolerant a b, s => (s - a) / b ≠ 36.7 ∧ dblMin < (Robust.tolerant a b s).r1
  | .composed f g, s => g.Regular s ∧ f.Regular (g.eval s).r0
  | .scaled f _, s => f.Regular s

/-- No `TolerantLoss` in it. -/
def Loss.NoTolerant : Loss → Prop
  | .tolerant _ _ => False
  | .composed f g => f.NoTolerant ∧ g.NoTolerant
  | .scaled f _ => f.NoTolerant
  | _ => True

/-- No scaling in it. -/
def Loss.NoScale : Loss → Prop
  | .composed f g => f.NoScale ∧ g.NoScale
  | .scaled _ _ | .scaledNull _ => False
  | _ => True

/-! ### Single losses -/

theorem huber_mono {a s t : ℝ} (ha : 0 < a) (h : s ≤ t) : (huber a s).r0 ≤ (huber a t).r0 := by
  rcases le_or_gt t (a * a) with ht | ht
  · rw [huber_of_le ht, huber_of_le (h.trans ht)]; exact h
  · rcases le_or_gt s (a * a) with hs | hs
    · rw [huber_of_gt ht, huber_of_le hs]
      have : a ≤ √t := Real.le_sqrt_of_sq_le (by nlinarith)
      simp only
      nlinarith
    · rw [huber_of_gt ht, huber_of_gt hs]
      have := Real.sqrt_le_sqrt h
      simp only
      nlinarith

theorem huber_le {a s : ℝ} (hs : 0 ≤ s) : (huber a s).r0 ≤ s := by
  rcases le_or_gt s (a * a) with h | h
  · rw [huber_of_le h]
  · rw [huber_of_gt h]
    have := Real.mul_self_sqrt hs
    simp only
    nlinarith [mul_self_nonneg (√s - a)]

theorem softLOne_mono {a s t : ℝ} (h : s ≤ t) : (softLOne a s).r0 ≤ (softLOne a t).r0 := by
  have hc : 0 ≤ 1 / (a * a) := div_nonneg zero_le_one (mul_self_nonneg a)
  have h1 : √(1 + s * (1 / (a * a))) ≤ √(1 + t * (1 / (a * a))) :=
    Real.sqrt_le_sqrt (by nlinarith)
  show 2 * (a * a) * (√(1 + s * (1 / (a * a))) - 1) ≤ 2 * (a * a) * (√(1 + t * (1 / (a * a))) - 1)
  have := mul_self_nonneg a
  nlinarith

theorem softLOne_le {a s : ℝ} (ha : 0 < a) (hs : 0 ≤ s) : (softLOne a s).r0 ≤ s := by
  show 2 * (a * a) * (√(1 + s * (1 / (a * a))) - 1) ≤ s
  have hb : 0 < a * a := mul_pos ha ha
  have h0 : 0 ≤ 1 + s * (1 / (a * a)) := by positivity
  have h1 := Real.mul_self_sqrt h0
  have h2 : 2 * (√(1 + s * (1 / (a * a))) - 1) ≤ s * (1 / (a * a)) := by
    nlinarith [mul_self_nonneg (√(1 + s * (1 / (a * a))) - 1)]
  have h3 : a * a * (s * (1 / (a * a))) = s := by field_simp
  nlinarith

theorem cauchy_mono {a s t : ℝ} (hs : 0 ≤ s) (h : s ≤ t) : (cauchy a s).r0 ≤ (cauchy a t).r0 := by
  have hc : 0 ≤ 1 / (a * a) := div_nonneg zero_le_one (mul_self_nonneg a)
  apply mul_le_mul_of_nonneg_left _ (mul_self_nonneg a)
  apply Real.log_le_log (by positivity)
  nlinarith

theorem cauchy_le {a s : ℝ} (ha : 0 < a) (hs : 0 ≤ s) : (cauchy a s).r0 ≤ s := by
  have hb : 0 < a * a := mul_pos ha ha
  have h1 := Real.log_le_sub_one_of_pos (show 0 < 1 + s * (1 / (a * a)) by positivity)
  have h3 : a * a * (s * (1 / (a * a))) = s := by field_simp
  show a * a * Real.log (1 + s * (1 / (a * a))) ≤ s
  nlinarith

theorem arctan_mono {a s t : ℝ} (ha : 0 < a) (h : s ≤ t) : (arctan a s).r0 ≤ (arctan a t).r0 := by
  show a * atan2 s a ≤ a * atan2 t a
  rw [atan2_eq ha, atan2_eq ha]
  apply mul_le_mul_of_nonneg_left _ ha.le
  exact Real.arctan_strictMono.monotone (div_le_div_of_nonneg_right h ha.le)

theorem arctan_le {a s : ℝ} (ha : 0 < a) (hs : 0 ≤ s) : (arctan a s).r0 ≤ s := by
  show a * atan2 s a ≤ s
  rw [atan2_eq ha]
  have h1 : Real.arctan (s / a) ≤ s / a := by
    by_contra hc
    push Not at hc
    have hx : 0 ≤ s / a := by positivity
    have hlt := Real.lt_tan (lt_of_le_of_lt hx hc) (Real.arctan_lt_pi_div_two _)
    rw [Real.tan_arctan] at hlt
    linarith
  calc a * Real.arctan (s / a) ≤ a * (s / a) := mul_le_mul_of_nonneg_left h1 ha.le
    _ = s := by field_simp

theorem tukey_mono {a s t : ℝ} (ha : 0 < a) (h : s ≤ t) : (tukey a s).r0 ≤ (tukey a t).r0 := by
  have hb : 0 < a * a := mul_pos ha ha
  rcases le_or_gt t (a * a) with ht | ht
  · rw [tukey_of_le ht, tukey_of_le (h.trans ht)]
    simp only
    have h1 : 1 - t / (a * a) ≤ 1 - s / (a * a) :=
      sub_le_sub_left (div_le_div_of_nonneg_right h hb.le) 1
    have h2 : 0 ≤ 1 - t / (a * a) := by rw [sub_nonneg, div_le_one hb]; exact ht
    apply mul_le_mul_of_nonneg_left _ (by positivity)
    have : (1 - t / (a * a)) * (1 - t / (a * a)) * (1 - t / (a * a)) ≤
        (1 - s / (a * a)) * (1 - s / (a * a)) * (1 - s / (a * a)) := by
      generalize 1 - t / (a * a) = x at *
      generalize 1 - s / (a * a) = y at *
      have h3 : 0 ≤ y := h2.trans h1
      exact mul_le_mul (mul_le_mul h1 h1 h2 h3) h1 h2 (mul_nonneg h3 h3)
    linarith
  · rw [tukey_of_gt ht]
    rcases le_or_gt s (a * a) with hs | hs
    · rw [tukey_of_le hs]
      have h2 : 0 ≤ 1 - s / (a * a) := by rw [sub_nonneg, div_le_one hb]; exact hs
      have : 0 ≤ (1 - s / (a * a)) * (1 - s / (a * a)) * (1 - s / (a * a)) := by positivity
      simp only
      nlinarith
    · rw [tukey_of_gt hs]

theorem tukey_le {a s : ℝ} (ha : 0 < a) (hs : 0 ≤ s) : (tukey a s).r0 ≤ s := by
  have hb : 0 < a * a := mul_pos ha ha
  rcases le_or_gt s (a * a) with h | h
  · rw [tukey_of_le h]
    simp only
    have e : s = a * a * (s / (a * a)) := by field_simp
    have h0 : 0 ≤ s / (a * a) := by positivity
    have h1 : s / (a * a) ≤ 1 := (div_le_one hb).mpr h
    generalize s / (a * a) = x at *
    rw [e]
    have : 1 - (1 - x) * (1 - x) * (1 - x) ≤ 3 * x := by nlinarith [mul_nonneg h0 h0]
    nlinarith
  · rw [tukey_of_gt h]
    simp only
    linarith

theorem tolerant_smooth_mono {a b s t : ℝ} (hb : 0 < b) (h : s ≤ t) :
    b * Real.log (1 + Real.exp ((s - a) / b)) ≤ b * Real.log (1 + Real.exp ((t - a) / b)) := by
  apply mul_le_mul_of_nonneg_left _ hb.le
  apply Real.log_le_log (by positivity)
  have : (s - a) / b ≤ (t - a) / b := div_le_div_of_nonneg_right (by linarith) hb.le
  have := Real.exp_le_exp.mpr this
  linarith

theorem softplus_gt (x : ℝ) : x < Real.log (1 + Real.exp x) := by
  conv_lhs => rw [← Real.log_exp x]
  exact Real.log_lt_log (Real.exp_pos x) (by linarith)

theorem softplus_le (x : ℝ) : Real.log (1 + Real.exp x) ≤ x + Real.exp (-x) := by
  have e : 1 + Real.exp x = Real.exp x * (1 + Real.exp (-x)) := by
    rw [Real.exp_neg]; field_simp; ring
  have hp : 0 < 1 + Real.exp (-x) := by positivity
  rw [e, Real.log_mul (Real.exp_pos x).ne' hp.ne', Real.log_exp]
  have := Real.log_le_sub_one_of_pos hp
  linarith

/-- `TolerantLoss` never decreases, but for a jump of at most `b e^-36.7` where it changes formula
(less than `2e-16 b`, at a point where the loss is over `30 b`). -/
theorem tolerant_mono_partial {a b s t : ℝ} (hb : 0 < b) (h : s ≤ t) :
    (tolerant a b s).r0 ≤ (tolerant a b t).r0 + b * Real.exp (-36.7) := by
  have hE : 0 ≤ b * Real.exp (-36.7) := by positivity
  rcases le_or_gt ((t - a) / b) 36.7 with ht | ht
  · have hs : (s - a) / b ≤ 36.7 := (div_le_div_of_nonneg_right (by linarith) hb.le).trans ht
    rw [tolerant_of_le ht, tolerant_of_le hs]
    have := tolerant_smooth_mono (a := a) hb h
    simp only
    linarith
  · rw [tolerant_of_gt ht]
    rcases le_or_gt ((s - a) / b) 36.7 with hs | hs
    · rw [tolerant_of_le hs]
      have h1 : Real.log (1 + Real.exp ((s - a) / b)) ≤ Real.log (1 + Real.exp 36.7) := by
        apply Real.log_le_log (by positivity)
        have := Real.exp_le_exp.mpr hs
        linarith
      have h2 := softplus_le 36.7
      have h3 : 36.7 * b < t - a := (lt_div_iff₀ hb).mp ht
      have h4 := mul_le_mul_of_nonneg_left (h1.trans h2) hb.le
      simp only
      linarith
    · rw [tolerant_of_gt hs]
      simp only
      linarith

/-- **Finding.** Over the reals `TolerantLoss` does decrease at the change of formula. -/
theorem tolerant_not_monotone {a b : ℝ} (hb : 0 < b) :
    ∃ s t, s ≤ t ∧ (tolerant a b t).r0 < (tolerant a b s).r0 := by
  have h1 := softplus_gt 36.7
  set δ := Real.log (1 + Real.exp 36.7) - 36.7 with hδ
  have hd : 0 < δ := by rw [hδ]; linarith
  refine ⟨a + 36.7 * b, a + (36.7 + δ / 2) * b, by nlinarith, ?_⟩
  have e1 : (a + 36.7 * b - a) / b = 36.7 := by field_simp; ring
  have e2 : (a + (36.7 + δ / 2) * b - a) / b = 36.7 + δ / 2 := by field_simp; ring
  rw [tolerant_of_le (s := a + 36.7 * b) (by rw [e1]),
    tolerant_of_gt (s := a + (36.7 + δ / 2) * b) (by rw [e2]; linarith), e1]
  simp only
  nlinarith

theorem tolerantC_pos {a b : ℝ} (hb : 0 < b) : 0 < tolerantC a b := by
  unfold tolerantC
  apply mul_pos hb
  apply Real.log_pos
  have := Real.exp_pos (-a / b)
  linarith

theorem tolerant_zero {a b : ℝ} (ha : 0 ≤ a) (hb : 0 < b) : (tolerant a b 0).r0 = 0 := by
  have h : (0 - a) / b ≤ 36.7 := by
    have : (0 - a) / b ≤ 0 := div_nonpos_of_nonpos_of_nonneg (by linarith) hb.le
    linarith
  rw [tolerant_of_le h]
  simp only [zero_sub, tolerantC, sub_self]

theorem tolerant_nonneg {a b s : ℝ} (ha : 0 ≤ a) (hb : 0 < b) (hs : 0 ≤ s) :
    0 ≤ (tolerant a b s).r0 := by
  rcases le_or_gt ((s - a) / b) 36.7 with h | h
  · rw [tolerant_of_le h]
    have := tolerant_smooth_mono (a := a) hb hs
    simp only [zero_sub] at this
    unfold tolerantC
    simp only
    linarith
  · rw [tolerant_of_gt h]
    have h3 : 36.7 * b < s - a := (lt_div_iff₀ hb).mp h
    have h4 : tolerantC a b ≤ b := by
      unfold tolerantC
      have h5 : Real.exp (-a / b) ≤ 1 := Real.exp_le_one_iff.mpr
        (div_nonpos_of_nonpos_of_nonneg (by linarith) hb.le)
      have h6 := Real.log_le_sub_one_of_pos (show 0 < 1 + Real.exp (-a / b) by positivity)
      nlinarith
    simp only
    linarith

theorem tolerant_le {a b s : ℝ} (hb : 0 < b) (hs : 0 ≤ s) (ha : 0 ≤ a) :
    (tolerant a b s).r0 ≤ s := by
  rcases le_or_gt ((s - a) / b) 36.7 with h | h
  · rw [tolerant_of_le h]
    -- log (1 + e^((s-a)/b)) ≤ s/b + log (1 + e^(-a/b))
    have e : Real.exp ((s - a) / b) = Real.exp (s / b) * Real.exp (-a / b) := by
      rw [← Real.exp_add]; congr 1; field_simp; ring
    have h1 : 1 ≤ Real.exp (s / b) := Real.one_le_exp (by positivity)
    have h2 : 1 + Real.exp ((s - a) / b) ≤ Real.exp (s / b) * (1 + Real.exp (-a / b)) := by
      rw [e]; linarith
    have h3 : Real.log (1 + Real.exp ((s - a) / b)) ≤ s / b + Real.log (1 + Real.exp (-a / b)) := by
      have := Real.log_le_log (by positivity) h2
      rwa [Real.log_mul (Real.exp_pos _).ne' (by positivity), Real.log_exp] at this
    have h4 := mul_le_mul_of_nonneg_left h3 hb.le
    have h5 : b * (s / b) = s := by field_simp
    simp only
    unfold tolerantC
    linarith
  · rw [tolerant_of_gt h]
    have := tolerantC_pos (a := a) hb
    simp only
    linarith

/-- **Finding.** Unlike the other losses, `TolerantLoss` does not behave like the plain squared
residual near zero: its first derivative there is at most one half. -/
theorem tolerant_slope_zero {a b : ℝ} (ha : 0 ≤ a) (hb : 0 < b) :
    (tolerant a b 0).r1 ≤ 1 / 2 := by
  have h : (0 - a) / b ≤ 0 := div_nonpos_of_nonpos_of_nonneg (by linarith) hb.le
  rw [tolerant_of_le (by linarith)]
  simp only
  apply max_le
  · unfold dblMin
    calc (2 : ℝ) ^ (-1022 : ℤ) ≤ 2 ^ (-1 : ℤ) := zpow_le_zpow_right₀ (by norm_num) (by norm_num)
      _ = 1 / 2 := by norm_num
  · have := Real.exp_pos ((0 - a) / b)
    have h1 := Real.exp_le_one_iff.mpr h
    rw [div_le_div_iff₀ (by linarith) (by norm_num)]
    linarith

/-! ### All losses -/

theorem floor_pos (d : ℝ) : 0 < max dblMin d := lt_max_of_lt_left dblMin_pos

theorem huber_r1_pos (a s : ℝ) : 0 < (huber a s).r1 := by
  unfold huber
  split
  · exact floor_pos _
  · exact one_pos

theorem tolerant_r1_pos (a b s : ℝ) : 0 < (tolerant a b s).r1 := by
  rcases le_or_gt ((s - a) / b) 36.7 with h | h
  · rw [tolerant_of_le h]; exact floor_pos _
  · rw [tolerant_of_gt h]; exact one_pos

theorem tukey_r (a s : ℝ) (ha : 0 < a) : 0 ≤ (tukey a s).r1 ∧ (tukey a s).r2 ≤ 0 := by
  have hb : 0 < a * a := mul_pos ha ha
  rcases le_or_gt s (a * a) with h | h
  · rw [tukey_of_le h]
    refine ⟨mul_self_nonneg _, ?_⟩
    have h2 : 0 ≤ 1 - s / (a * a) := by rw [sub_nonneg, div_le_one hb]; exact h
    have h3 : -2 / (a * a) ≤ 0 := div_nonpos_of_nonpos_of_nonneg (by norm_num) hb.le
    exact mul_nonpos_of_nonpos_of_nonneg h3 h2
  · rw [tukey_of_gt h]; exact ⟨le_rfl, le_rfl⟩

/-- The value of a loss is zero at zero. -/
theorem loss_zero (f : Loss) (hf : f.Admissible) : (f.eval 0).r0 = 0 := by
  induction f with
  | trivial => rfl
  | huber a => show (huber a 0).r0 = 0; rw [huber_of_le (mul_self_nonneg a)]
  | softLOne a => show 2 * (a * a) * (√(1 + 0 * (1 / (a * a))) - 1) = 0; simp
  | cauchy a => show a * a * Real.log (1 + 0 * (1 / (a * a))) = 0; simp
  | arctan a => show a * atan2 0 a = 0; rw [atan2_eq hf]; simp
  | tolerant a b => exact tolerant_zero hf.1 hf.2
  | tukey a => show (tukey a 0).r0 = 0; rw [tukey_of_le (mul_self_nonneg a)]; simp
  | composed f g ihf ihg =>
    show (f.eval (g.eval 0).r0).r0 = 0
    rw [ihg hf.2, ihf hf.1]
  | scaled f a ih => show (f.eval 0).r0 * a = 0; rw [ih hf.1, zero_mul]
  | scaledNull a => show a * 0 = 0; simp

/-- The value of a loss is never negative. -/
theorem loss_nonneg (f : Loss) (hf : f.Admissible) {s : ℝ} (hs : 0 ≤ s) : 0 ≤ (f.eval s).r0 := by
  have hz := loss_zero f hf
  induction f generalizing s with
  | trivial => exact hs
  | huber a => exact hz.ge.trans (huber_mono hf hs)
  | softLOne a => exact hz.ge.trans (softLOne_mono hs)
  | cauchy a => exact hz.ge.trans (cauchy_mono le_rfl hs)
  | arctan a => exact hz.ge.trans (arctan_mono hf hs)
  | tolerant a b => exact tolerant_nonneg hf.1 hf.2 hs
  | tukey a => exact hz.ge.trans (tukey_mono hf hs)
  | composed f g ihf ihg =>
    exact ihf hf.1 (ihg hf.2 hs (loss_zero g hf.2)) (loss_zero f hf.1)
  | scaled f a ih => exact mul_nonneg (ih hf.1 hs (loss_zero f hf.1)) hf.2
  | scaledNull a => exact mul_nonneg hf hs

/-- **C39.** The three outputs are the loss, its first and its second derivative: for every loss
built from the shipped classes, at every point where these derivatives exist. -/
theorem loss_derivatives (f : Loss) (hf : f.Admissible) {s : ℝ} (hs : 0 ≤ s)
    (hr : f.Regular s) : Derivs f.eval s := by
  induction f generalizing s with
  | trivial => exact trivial_derivs s
  | huber a => exact huber_derivs hf hr.1 hr.2
  | softLOne a => exact softLOne_derivs hf hs hr
  | cauchy a => exact cauchy_derivs hf hs hr
  | arctan a => exact arctan_derivs hf hr
  | tolerant a b => exact tolerant_derivs hf.2 hr.1 hr.2
  | tukey a => exact tukey_derivs hf s
  | composed f g ihf ihg =>
    exact composed_derivs (ihg hf.2 hs hr.1) (ihf hf.1 (loss_nonneg g hf.2 hs) hr.2)
  | scaled f a ih => exact scaled_derivs (ih hf.1 hs hr)
  | scaledNull a => exact scaled_none_derivs a s

/-- **C39.** Without `TolerantLoss`, a loss never decreases. -/
theorem loss_mono (f : Loss) (hf : f.Admissible) (hn : f.NoTolerant) {s t : ℝ} (hs : 0 ≤ s)
    (h : s ≤ t) : (f.eval s).r0 ≤ (f.eval t).r0 := by
  induction f generalizing s t with
  | trivial => exact h
  | huber a => exact huber_mono hf h
  | softLOne a => exact softLOne_mono h
  | cauchy a => exact cauchy_mono hs h
  | arctan a => exact arctan_mono hf h
  | tolerant a b => exact hn.elim
  | tukey a => exact tukey_mono hf h
  | composed f g ihf ihg =>
    exact ihf hf.1 hn.1 (loss_nonneg g hf.2 hs) (ihg hf.2 hn.2 hs h)
  | scaled f a ih => exact mul_le_mul_of_nonneg_right (ih hf.1 hn hs h) hf.2
  | scaledNull a => exact mul_le_mul_of_nonneg_left h hf

/-- **C39.** Without scaling, a loss is at most the squared residual. -/
theorem loss_le (f : Loss) (hf : f.Admissible) (hn : f.NoScale) {s : ℝ} (hs : 0 ≤ s) :
    (f.eval s).r0 ≤ s := by
  induction f generalizing s with
  | trivial => exact le_rfl
  | huber a => exact huber_le hs
  | softLOne a => exact softLOne_le hf hs
  | cauchy a => exact cauchy_le hf hs
  | arctan a => exact arctan_le hf hs
  | tolerant a b => exact tolerant_le hf.2 hs hf.1
  | tukey a => exact tukey_le hf hs
  | composed f g ihf ihg =>
    exact (ihf hf.1 hn.1 (loss_nonneg g hf.2 hs)).trans (ihg hf.2 hn.2 hs)
  | scaled f a ih => exact hn.elim
  | scaledNull a => exact hn.elim

/-- **C39.** Without `TolerantLoss` and without scaling, a loss has slope one at zero: small
residuals count as without a loss. -/
theorem loss_slope_zero (f : Loss) (hf : f.Admissible) (hn : f.NoTolerant) (hn' : f.NoScale) :
    (f.eval 0).r1 = 1 := by
  have hm : max dblMin 1 = 1 := max_eq_right dblMin_lt_one.le
  induction f with
  | trivial => rfl
  | huber a => show (huber a 0).r1 = 1; rw [huber_of_le (mul_self_nonneg a)]
  | softLOne a => show max dblMin (1 / √(1 + 0 * (1 / (a * a)))) = 1; simpa using hm
  | cauchy a => show max dblMin (1 / (1 + 0 * (1 / (a * a)))) = 1; simpa using hm
  | arctan a => show max dblMin (1 / (1 + 0 * 0 * (1 / (a * a)))) = 1; simpa using hm
  | tolerant a b => exact hn.elim
  | tukey a => show (tukey a 0).r1 = 1; rw [tukey_of_le (mul_self_nonneg a)]; simp
  | composed f g ihf ihg =>
    show (f.eval (g.eval 0).r0).r1 * (g.eval 0).r1 = 1
    rw [loss_zero g hf.2, ihf hf.1 hn.1 hn'.1, ihg hf.2 hn.2 hn'.2, one_mul]
  | scaled f a ih => exact hn'.elim
  | scaledNull a => exact hn'.elim

/-- The reported first derivative is not negative, and if it is zero, the reported second
derivative is not positive. -/
theorem loss_r1_r2 (f : Loss) (hf : f.Admissible) (s : ℝ) :
    0 ≤ (f.eval s).r1 ∧ ((f.eval s).r1 = 0 → (f.eval s).r2 ≤ 0) := by
  induction f generalizing s with
  | trivial => exact ⟨zero_le_one, fun _ => le_rfl⟩
  | huber a => exact ⟨(huber_r1_pos a s).le, fun h => absurd h (huber_r1_pos a s).ne'⟩
  | softLOne a => exact ⟨(floor_pos _).le, fun h => absurd h (floor_pos _).ne'⟩
  | cauchy a => exact ⟨(floor_pos _).le, fun h => absurd h (floor_pos _).ne'⟩
  | arctan a => exact ⟨(floor_pos _).le, fun h => absurd h (floor_pos _).ne'⟩
  | tolerant a b =>
    exact ⟨(tolerant_r1_pos a b s).le, fun h => absurd h (tolerant_r1_pos a b s).ne'⟩
  | tukey a => exact ⟨(tukey_r a s hf).1, fun _ => (tukey_r a s hf).2⟩
  | composed f g ihf ihg =>
    obtain ⟨g1, g2⟩ := ihg hf.2 s
    obtain ⟨f1, f2⟩ := ihf hf.1 (g.eval s).r0
    refine ⟨mul_nonneg f1 g1, fun h => ?_⟩
    show (f.eval (g.eval s).r0).r2 * (g.eval s).r1 * (g.eval s).r1 +
      (f.eval (g.eval s).r0).r1 * (g.eval s).r2 ≤ 0
    rcases mul_eq_zero.mp (show (f.eval (g.eval s).r0).r1 * (g.eval s).r1 = 0 from h) with h | h
    · rw [h, zero_mul, add_zero]
      exact mul_nonpos_of_nonpos_of_nonneg (mul_nonpos_of_nonpos_of_nonneg (f2 h) g1) g1
    · rw [h, mul_zero, zero_add]
      exact mul_nonpos_of_nonneg_of_nonpos f1 (g2 h)
  | scaled f a ih =>
    obtain ⟨f1, f2⟩ := ih hf.1 s
    refine ⟨mul_nonneg f1 hf.2, fun h => ?_⟩
    rcases mul_eq_zero.mp (show (f.eval s).r1 * a = 0 from h) with h | h
    · exact mul_nonpos_of_nonpos_of_nonneg (f2 h) hf.2
    · show (f.eval s).r2 * a ≤ 0
      rw [h, mul_zero]
  | scaledNull a => exact ⟨hf, fun _ => le_rfl⟩

/-- **C39.** With any admissible loss, the corrector is never handed values it aborts on. -/
theorem corrector_never_aborts (f : Loss) (hf : f.Admissible) {s : ℝ} (hs : 0 ≤ s) :
    (mkCorrector s (f.eval s)).isSome := by
  unfold mkCorrector
  rw [if_neg (not_not.mpr hs)]
  obtain ⟨h1, h2⟩ := loss_r1_r2 f hf s
  by_cases h : s = 0 ∨ (f.eval s).r2 ≤ 0
  · rw [if_pos h]; rfl
  · rw [if_neg h, if_neg]
    · rfl
    · push Not at h
      rcases eq_or_lt_of_le h1 with h3 | h3
      · exact absurd (h2 h3.symm) (not_le.mpr h.2)
      · exact not_not.mpr h3

/-! ### The hypotheses can be met -/

example : (Loss.composed (.huber 2) (.scaled (.cauchy 3) 5)).Admissible :=
  ⟨two_pos, by show (0 : ℝ) < 3; norm_num, by norm_num⟩

/-- A regular point of a nested loss with all parts in their non-trivial regime. -/
example : (Loss.composed (.cauchy 1) (.huber 1)).Regular 4 := by
  have h2 : √(4 : ℝ) = 2 := by
    rw [show (4 : ℝ) = 2 * 2 by norm_num]; exact Real.sqrt_mul_self (by norm_num)
  have hd : dblMin < 1 / 4 := by
    unfold dblMin
    calc (2 : ℝ) ^ (-1022 : ℤ) < 2 ^ (-2 : ℤ) := zpow_lt_zpow_right₀ (by norm_num) (by norm_num)
      _ = 1 / 4 := by norm_num
  have e : huber 1 4 = ⟨2 * 1 * √4 - 1 * 1, max dblMin (1 / √4),
      -max dblMin (1 / √4) / (2 * 4)⟩ := huber_of_gt (by norm_num)
  refine ⟨⟨by norm_num, ?_⟩, ?_⟩
  · rw [e, h2]
    exact lt_max_of_lt_right (by linarith)
  · show dblMin < max dblMin (1 / (1 + (huber 1 4).r0 * (1 / (1 * 1))))
    rw [e, h2]
    exact lt_max_of_lt_right (by norm_num; linarith)

end Ceres.Robust
