import Verif.Robust.Model
import Mathlib.Analysis.Calculus.Deriv.MeanValue
import Mathlib.Analysis.SpecialFunctions.Log.Deriv
import Mathlib.Analysis.SpecialFunctions.Trigonometric.ArctanDeriv
import Mathlib.Analysis.SpecialFunctions.ExpDeriv
import Mathlib.Tactic.FieldSimp
import Mathlib.Tactic.Linarith
import Mathlib.Tactic.Positivity

/-!
# The loss functions report a function and its derivatives (C39)
-/
noncomputable section
namespace Ceres.Robust

/-- The second and third output are the first and second derivative of the first output, at `s`. -/
def Derivs (f : ℝ → Rho) (s : ℝ) : Prop :=
  HasDerivAt (fun s => (f s).r0) (f s).r1 s ∧ HasDerivAt (fun s => (f s).r1) (f s).r2 s

theorem dblMin_pos : 0 < dblMin := by unfold dblMin; positivity

theorem dblMin_lt_one : dblMin < 1 := by
  unfold dblMin
  rw [zpow_neg]
  apply inv_lt_one_of_one_lt₀
  exact one_lt_zpow₀ (by norm_num) (by norm_num)

theorem lt_of_lt_max {d : ℝ} (h : dblMin < max dblMin d) : dblMin < d := by
  rcases lt_max_iff.mp h with h | h
  · exact absurd h (lt_irrefl _)
  · exact h

/-- Flooring does not matter where the derivative is above the floor. -/
theorem hasDerivAt_floor {g : ℝ → ℝ} {g' s : ℝ} (h : HasDerivAt g g' s) (hs : dblMin < g s) :
    HasDerivAt (fun s => max dblMin (g s)) g' s := by
  apply h.congr_of_eventuallyEq
  filter_upwards [h.continuousAt.eventually (lt_mem_nhds hs)] with y hy
  exact max_eq_right hy.le

theorem trivial_derivs (s : ℝ) : Derivs trivial s :=
  ⟨hasDerivAt_id s, hasDerivAt_const s 1⟩

/-! ### Huber -/

theorem huber_of_gt {a s : ℝ} (h : a * a < s) :
    huber a s = ⟨2 * a * √s - a * a, max dblMin (a / √s), -max dblMin (a / √s) / (2 * s)⟩ := by
  unfold huber; rw [if_pos h]

theorem huber_of_le {a s : ℝ} (h : s ≤ a * a) : huber a s = ⟨s, 1, 0⟩ := by
  unfold huber; rw [if_neg (not_lt.mpr h)]

theorem huber_derivs {a s : ℝ} (ha : 0 < a) (hb : s ≠ a * a) (hf : dblMin < (huber a s).r1) :
    Derivs (huber a) s := by
  rcases lt_or_gt_of_ne hb with h | h
  · have e : huber a s = ⟨s, 1, 0⟩ := huber_of_le h.le
    have ev : ∀ᶠ y in nhds s, huber a y = ⟨y, 1, 0⟩ := by
      filter_upwards [gt_mem_nhds h] with y hy
      exact huber_of_le hy.le
    refine ⟨?_, ?_⟩ <;> rw [e]
    · exact (hasDerivAt_id s).congr_of_eventuallyEq (ev.mono fun y hy => by simp [hy])
    · exact (hasDerivAt_const s (1 : ℝ)).congr_of_eventuallyEq (ev.mono fun y hy => by simp [hy])
  · have hs : 0 < s := lt_trans (mul_pos ha ha) h
    have hq : 0 < √s := Real.sqrt_pos.mpr hs
    have e := huber_of_gt h
    have ev : ∀ᶠ y in nhds s, huber a y = ⟨2 * a * √y - a * a, max dblMin (a / √y),
        -max dblMin (a / √y) / (2 * y)⟩ := by
      filter_upwards [lt_mem_nhds h] with y hy
      exact huber_of_gt hy
    rw [e] at hf
    simp only at hf
    have hf' := lt_of_lt_max hf
    have d := Real.hasDerivAt_sqrt hs.ne'
    refine ⟨?_, ?_⟩ <;> rw [e]
    · have h1 := (d.const_mul (2 * a)).sub_const (a * a)
      simp only [max_eq_right hf'.le]
      have e1 : 2 * a * (1 / (2 * √s)) = a / √s := by field_simp
      rw [e1] at h1
      exact h1.congr_of_eventuallyEq (ev.mono fun y hy => by simp [hy])
    · have h1 := (d.inv hq.ne').const_mul a
      have h2 : HasDerivAt (fun y => a / √y) (a * (-(1 / (2 * √s)) / √s ^ 2)) s := by
        exact h1
      have h3 := hasDerivAt_floor h2 hf'
      simp only [max_eq_right hf'.le]
      have e1 : a * (-(1 / (2 * √s)) / √s ^ 2) = -(a / √s) / (2 * s) := by
        rw [Real.sq_sqrt hs.le]; field_simp
      rw [e1] at h3
      exact h3.congr_of_eventuallyEq (ev.mono fun y hy => by simp [hy])

/-- Where the two pieces of the Huber loss meet the first derivative is right as well (there is no
second derivative there). -/
theorem huber_deriv_corner {a : ℝ} (ha : 0 < a) :
    HasDerivAt (fun s => (huber a s).r0) (huber a (a * a)).r1 (a * a) := by
  have hs : 0 < a * a := mul_pos ha ha
  rw [huber_of_le le_rfl]
  have hL : HasDerivWithinAt (fun s => (huber a s).r0) 1 (Set.Iic (a * a)) (a * a) :=
    (hasDerivWithinAt_id (a * a) _).congr (fun y hy => by rw [huber_of_le hy]; rfl)
      (by rw [huber_of_le le_rfl]; rfl)
  have hR : HasDerivWithinAt (fun s => (huber a s).r0) 1 (Set.Ici (a * a)) (a * a) := by
    have h1 := (((Real.hasDerivAt_sqrt hs.ne').const_mul (2 * a)).sub_const (a * a)).hasDerivWithinAt
      (s := Set.Ici (a * a))
    have e1 : 2 * a * (1 / (2 * √(a * a))) = 1 := by
      rw [Real.sqrt_mul_self ha.le]; field_simp
    rw [e1] at h1
    refine h1.congr (fun y hy => ?_) ?_
    · rcases eq_or_lt_of_le (show a * a ≤ y from hy) with h | h
      · rw [← h, huber_of_le le_rfl, Real.sqrt_mul_self ha.le]; ring
      · rw [huber_of_gt h]
    · rw [huber_of_le le_rfl, Real.sqrt_mul_self ha.le]; ring
  have := hL.union hR
  rw [Set.Iic_union_Ici] at this
  exact this.hasDerivAt Filter.univ_mem

/-! ### Soft L1 -/

theorem hasDerivAt_one_div {g : ℝ → ℝ} {g' s : ℝ} (h : HasDerivAt g g' s) (hs : g s ≠ 0) :
    HasDerivAt (fun y => 1 / g y) (-g' / g s ^ 2) s := by
  have h1 := h.inv hs
  refine h1.congr_of_eventuallyEq (Filter.Eventually.of_forall fun y => ?_)
  simp

theorem sum_deriv (c s : ℝ) : HasDerivAt (fun s => 1 + s * c) c s := by
  simpa using ((hasDerivAt_id s).mul_const c).const_add 1

theorem softLOne_derivs {a s : ℝ} (ha : 0 < a) (hs : 0 ≤ s) (hf : dblMin < (softLOne a s).r1) :
    Derivs (softLOne a) s := by
  have hb : 0 < a * a := mul_pos ha ha
  have hsum : 0 < 1 + s * (1 / (a * a)) := by positivity
  have hq : 0 < √(1 + s * (1 / (a * a))) := Real.sqrt_pos.mpr hsum
  have d := (sum_deriv (1 / (a * a)) s).sqrt hsum.ne'
  have hf' := lt_of_lt_max (show dblMin < max dblMin (1 / √(1 + s * (1 / (a * a)))) from hf)
  constructor
  · have h1 := (d.sub_const 1).const_mul (2 * (a * a))
    have e : (softLOne a s).r1 = 2 * (a * a) * (1 / (a * a) / (2 * √(1 + s * (1 / (a * a))))) := by
      show max dblMin (1 / √(1 + s * (1 / (a * a)))) = _
      rw [max_eq_right hf'.le]
      field_simp
    rw [e]
    exact h1
  · have h1 := hasDerivAt_floor (hasDerivAt_one_div d hq.ne') hf'
    have e : (softLOne a s).r2 = -(1 / (a * a) / (2 * √(1 + s * (1 / (a * a))))) /
        √(1 + s * (1 / (a * a))) ^ 2 := by
      show -(1 / (a * a) * max dblMin (1 / √(1 + s * (1 / (a * a))))) /
        (2 * (1 + s * (1 / (a * a)))) = _
      rw [max_eq_right hf'.le, Real.sq_sqrt hsum.le]
      field_simp
    rw [e]
    exact h1

/-! ### Cauchy -/

theorem cauchy_derivs {a s : ℝ} (ha : 0 < a) (hs : 0 ≤ s) (hf : dblMin < (cauchy a s).r1) :
    Derivs (cauchy a) s := by
  have hb : 0 < a * a := mul_pos ha ha
  have hsum : 0 < 1 + s * (1 / (a * a)) := by positivity
  have d := sum_deriv (1 / (a * a)) s
  have hf' := lt_of_lt_max (show dblMin < max dblMin (1 / (1 + s * (1 / (a * a)))) from hf)
  constructor
  · have h1 := (d.log hsum.ne').const_mul (a * a)
    have e : (cauchy a s).r1 = a * a * (1 / (a * a) / (1 + s * (1 / (a * a)))) := by
      show max dblMin (1 / (1 + s * (1 / (a * a)))) = _
      rw [max_eq_right hf'.le]
      field_simp
    rw [e]
    exact h1
  · have h1 := hasDerivAt_floor (hasDerivAt_one_div d hsum.ne') hf'
    have e : (cauchy a s).r2 = -(1 / (a * a)) / (1 + s * (1 / (a * a))) ^ 2 := by
      show -(1 / (a * a)) * (1 / (1 + s * (1 / (a * a))) * (1 / (1 + s * (1 / (a * a))))) = _
      field_simp
    rw [e]
    exact h1

/-! ### Arctan -/

theorem atan2_eq {a : ℝ} (ha : 0 < a) (s : ℝ) : atan2 s a = Real.arctan (s / a) := by
  unfold atan2
  rw [Complex.arg_of_re_nonneg (by simpa using ha.le), Real.arctan_eq_arcsin]
  congr 1
  have hn : ‖(⟨a, s⟩ : ℂ)‖ = √(a * a + s * s) := by
    rw [Complex.norm_eq_sqrt_sq_add_sq]; congr 1; simp only; ring
  rw [hn]
  have e : 1 + (s / a) ^ 2 = (a * a + s * s) / (a * a) := by field_simp
  rw [e, Real.sqrt_div (by nlinarith [mul_self_nonneg s, mul_pos ha ha]), Real.sqrt_mul_self ha.le]
  field_simp

theorem arctan_derivs {a s : ℝ} (ha : 0 < a) (hf : dblMin < (arctan a s).r1) :
    Derivs (arctan a) s := by
  have hb : 0 < a * a := mul_pos ha ha
  have hsum : 0 < 1 + s * s * (1 / (a * a)) := by
    have : 0 ≤ s * s * (1 / (a * a)) := mul_nonneg (mul_self_nonneg s) (by positivity)
    linarith
  have hf' := lt_of_lt_max (show dblMin < max dblMin (1 / (1 + s * s * (1 / (a * a)))) from hf)
  constructor
  · have h1 := (((hasDerivAt_id s).div_const a).arctan).const_mul a
    have e : (arctan a s).r1 = a * (1 / (1 + (s / a) ^ 2) * (1 / a)) := by
      show max dblMin (1 / (1 + s * s * (1 / (a * a)))) = _
      rw [max_eq_right hf'.le]
      field_simp
    rw [e]
    refine h1.congr_of_eventuallyEq (Filter.Eventually.of_forall fun y => ?_)
    show a * atan2 y a = _
    rw [atan2_eq ha]
    rfl
  · have d : HasDerivAt (fun s => 1 + s * s * (1 / (a * a))) ((s + s) * (1 / (a * a))) s := by
      have := (((hasDerivAt_id s).mul (hasDerivAt_id s)).mul_const (1 / (a * a))).const_add 1
      simpa using this
    have h1 := hasDerivAt_floor (hasDerivAt_one_div d hsum.ne') hf'
    have e : (arctan a s).r2 = -((s + s) * (1 / (a * a))) / (1 + s * s * (1 / (a * a))) ^ 2 := by
      show -2 * s * (1 / (a * a)) *
        (1 / (1 + s * s * (1 / (a * a))) * (1 / (1 + s * s * (1 / (a * a))))) = _
      field_simp
      ring
    rw [e]
    exact h1

/-! ### Tukey -/

theorem tukey_of_le {a s : ℝ} (h : s ≤ a * a) : tukey a s =
    ⟨a * a / 3 * (1 - (1 - s / (a * a)) * (1 - s / (a * a)) * (1 - s / (a * a))),
      (1 - s / (a * a)) * (1 - s / (a * a)), -2 / (a * a) * (1 - s / (a * a))⟩ := by
  unfold tukey; simp only; rw [if_pos h]

theorem tukey_of_gt {a s : ℝ} (h : a * a < s) : tukey a s = ⟨a * a / 3, 0, 0⟩ := by
  unfold tukey; simp only; rw [if_neg (not_le.mpr h)]

theorem tukey_of_ge {a s : ℝ} (ha : 0 < a) (h : a * a ≤ s) : tukey a s = ⟨a * a / 3, 0, 0⟩ := by
  rcases eq_or_lt_of_le h with h | h
  · rw [tukey_of_le h.ge, ← h]
    have : a * a ≠ 0 := (mul_pos ha ha).ne'
    rw [div_self this]
    simp
  · exact tukey_of_gt h

theorem tukey_inlier_derivs {a s : ℝ} (ha : 0 < a) :
    HasDerivAt (fun s => a * a / 3 *
      (1 - (1 - s / (a * a)) * (1 - s / (a * a)) * (1 - s / (a * a))))
      ((1 - s / (a * a)) * (1 - s / (a * a))) s ∧
    HasDerivAt (fun s => (1 - s / (a * a)) * (1 - s / (a * a)))
      (-2 / (a * a) * (1 - s / (a * a))) s := by
  have hb : a * a ≠ 0 := (mul_pos ha ha).ne'
  have dv : HasDerivAt (fun s : ℝ => 1 - s / (a * a)) (-(1 / (a * a))) s :=
    ((hasDerivAt_id s).div_const (a * a)).const_sub 1
  have d2 := dv.mul dv
  have d3 := ((d2.mul dv).const_sub 1).const_mul (a * a / 3)
  constructor
  · have e : (1 - s / (a * a)) * (1 - s / (a * a)) = a * a / 3 *
        -((-(1 / (a * a)) * (1 - s / (a * a)) + (1 - s / (a * a)) * -(1 / (a * a))) *
          (1 - s / (a * a)) + (1 - s / (a * a)) * (1 - s / (a * a)) * -(1 / (a * a))) := by
      field_simp
      ring
    rw [e]
    exact d3
  · have e : -2 / (a * a) * (1 - s / (a * a)) =
        -(1 / (a * a)) * (1 - s / (a * a)) + (1 - s / (a * a)) * -(1 / (a * a)) := by
      field_simp
      ring
    rw [e]
    exact d2

theorem tukey_derivs {a : ℝ} (ha : 0 < a) (s : ℝ) : Derivs (tukey a) s := by
  obtain ⟨d0, d1⟩ := tukey_inlier_derivs (s := s) ha
  rcases lt_trichotomy s (a * a) with h | h | h
  · have ev : ∀ᶠ y in nhds s, y ≤ a * a := (gt_mem_nhds h).mono fun y hy => le_of_lt hy
    refine ⟨?_, ?_⟩ <;> rw [tukey_of_le h.le]
    · exact d0.congr_of_eventuallyEq (ev.mono fun y hy => by simp only [tukey_of_le hy])
    · exact d1.congr_of_eventuallyEq (ev.mono fun y hy => by simp only [tukey_of_le hy])
  · have glue : ∀ f : ℝ → ℝ, ∀ g : ℝ → ℝ, ∀ c d : ℝ, (∀ y ≤ s, f y = g y) → (∀ y ≥ s, f y = c) →
        HasDerivAt g d s → d = 0 → HasDerivAt f d s := by
      intro f g c d hl hr hg hd
      have h1 : HasDerivWithinAt f d (Set.Iic s) s := hg.hasDerivWithinAt.congr hl (hl s le_rfl)
      have h2 : HasDerivWithinAt f d (Set.Ici s) s := by
        rw [hd]
        exact (hasDerivWithinAt_const s _ c).congr hr (hr s le_rfl)
      have := h1.union h2
      rw [Set.Iic_union_Ici] at this
      exact this.hasDerivAt Filter.univ_mem
    have hz : 1 - s / (a * a) = 0 := by rw [h, div_self (mul_pos ha ha).ne', sub_self]
    refine ⟨?_, ?_⟩ <;> rw [tukey_of_le h.le]
    · exact glue _ _ (a * a / 3) _ (fun y hy => by simp only [tukey_of_le (hy.trans h.le)])
        (fun y hy => by simp only [tukey_of_ge ha (h.ge.trans hy)]) d0 (by rw [hz]; simp)
    · exact glue _ _ 0 _ (fun y hy => by simp only [tukey_of_le (hy.trans h.le)])
        (fun y hy => by simp only [tukey_of_ge ha (h.ge.trans hy)]) d1 (by rw [hz]; simp)
  · have ev : ∀ᶠ y in nhds s, a * a < y := lt_mem_nhds h
    refine ⟨?_, ?_⟩ <;> rw [tukey_of_gt h]
    · exact (hasDerivAt_const s (a * a / 3)).congr_of_eventuallyEq
        (ev.mono fun y hy => by simp only [tukey_of_gt hy])
    · exact (hasDerivAt_const s (0 : ℝ)).congr_of_eventuallyEq
        (ev.mono fun y hy => by simp only [tukey_of_gt hy])

/-! ### Tolerant -/

theorem tolerant_of_gt {a b s : ℝ} (h : 36.7 < (s - a) / b) :
    tolerant a b s = ⟨s - a - tolerantC a b, 1, 0⟩ := by
  unfold tolerant; simp only; rw [if_pos h]

theorem tolerant_of_le {a b s : ℝ} (h : (s - a) / b ≤ 36.7) :
    tolerant a b s = ⟨b * Real.log (1 + Real.exp ((s - a) / b)) - tolerantC a b,
      max dblMin (Real.exp ((s - a) / b) / (1 + Real.exp ((s - a) / b))),
      0.5 / (b * (1 + Real.cosh ((s - a) / b)))⟩ := by
  unfold tolerant; simp only; rw [if_neg (not_lt.mpr h)]

theorem tolerant_smooth {a b s : ℝ} (hb : 0 < b) :
    HasDerivAt (fun s => b * Real.log (1 + Real.exp ((s - a) / b)) - tolerantC a b)
      (Real.exp ((s - a) / b) / (1 + Real.exp ((s - a) / b))) s ∧
    HasDerivAt (fun s => Real.exp ((s - a) / b) / (1 + Real.exp ((s - a) / b)))
      (0.5 / (b * (1 + Real.cosh ((s - a) / b)))) s := by
  have hE := Real.exp_pos ((s - a) / b)
  have dx : HasDerivAt (fun s => (s - a) / b) (1 / b) s :=
    ((hasDerivAt_id s).sub_const a).div_const b
  have de := dx.exp
  have d1 := de.const_add 1
  have hp : 0 < 1 + Real.exp ((s - a) / b) := by positivity
  constructor
  · have := ((d1.log hp.ne').const_mul b).sub_const (tolerantC a b)
    have e : Real.exp ((s - a) / b) / (1 + Real.exp ((s - a) / b)) =
        b * (Real.exp ((s - a) / b) * (1 / b) / (1 + Real.exp ((s - a) / b))) := by
      field_simp
    rw [e]
    exact this
  · have := de.div d1 hp.ne'
    have e : 0.5 / (b * (1 + Real.cosh ((s - a) / b))) =
        (Real.exp ((s - a) / b) * (1 / b) * (1 + Real.exp ((s - a) / b)) -
          Real.exp ((s - a) / b) * (Real.exp ((s - a) / b) * (1 / b))) /
        (1 + Real.exp ((s - a) / b)) ^ 2 := by
      rw [Real.cosh_eq, Real.exp_neg]
      generalize Real.exp ((s - a) / b) = E at *
      have h1 : 1 + (E + E⁻¹) / 2 = (1 + E) ^ 2 / (2 * E) := by field_simp; ring
      rw [h1]
      field_simp
      ring
    rw [e]
    exact this

theorem tolerant_derivs {a b s : ℝ} (hb : 0 < b) (hx : (s - a) / b ≠ 36.7)
    (hf : dblMin < (tolerant a b s).r1) : Derivs (tolerant a b) s := by
  have hcont : Continuous fun s : ℝ => (s - a) / b := by fun_prop
  rcases lt_or_gt_of_ne hx with h | h
  · obtain ⟨d0, d1⟩ := tolerant_smooth (a := a) (s := s) hb
    have ev : ∀ᶠ y in nhds s, (y - a) / b ≤ 36.7 :=
      (hcont.continuousAt.eventually (gt_mem_nhds h)).mono fun y hy => le_of_lt hy
    rw [tolerant_of_le h.le] at hf
    have hf' := lt_of_lt_max hf
    refine ⟨?_, ?_⟩ <;> rw [tolerant_of_le h.le]
    · simp only [max_eq_right hf'.le]
      exact d0.congr_of_eventuallyEq (ev.mono fun y hy => by simp only [tolerant_of_le hy])
    · exact (hasDerivAt_floor d1 hf').congr_of_eventuallyEq
        (ev.mono fun y hy => by simp only [tolerant_of_le hy])
  · have ev : ∀ᶠ y in nhds s, 36.7 < (y - a) / b := hcont.continuousAt.eventually (lt_mem_nhds h)
    refine ⟨?_, ?_⟩ <;> rw [tolerant_of_gt h]
    · exact (((hasDerivAt_id s).sub_const a).sub_const (tolerantC a b)).congr_of_eventuallyEq
        (ev.mono fun y hy => by simp [tolerant_of_gt hy])
    · exact (hasDerivAt_const s (1 : ℝ)).congr_of_eventuallyEq
        (ev.mono fun y hy => by simp only [tolerant_of_gt hy])

/-! ### Composition and scaling -/

theorem composed_derivs {f g : ℝ → Rho} {s : ℝ} (hg : Derivs g s) (hf : Derivs f (g s).r0) :
    Derivs (composed f g) s := by
  obtain ⟨g0, g1⟩ := hg
  obtain ⟨f0, f1⟩ := hf
  constructor
  · exact f0.comp s g0
  · have h := (f1.comp s g0).mul g1
    have e : (composed f g s).r2 =
        (f (g s).r0).r2 * (g s).r1 * (g s).r1 +
          ((fun s => (f s).r1) ∘ fun s => (g s).r0) s * (g s).r2 := rfl
    rw [e]
    exact h

theorem scaled_derivs {f : ℝ → Rho} {a s : ℝ} (h : Derivs f s) : Derivs (scaled (some f) a) s :=
  ⟨h.1.mul_const a, h.2.mul_const a⟩

theorem scaled_none_derivs (a s : ℝ) : Derivs (scaled none a) s := by
  refine ⟨?_, hasDerivAt_const s a⟩
  have := (hasDerivAt_id s).const_mul a
  simpa [scaled] using this

end Ceres.Robust
