import Verif.Jet.Ops
import Mathlib.Analysis.Real.Pi.Bounds

/-! # Jet operations with kinks, and powers

`abs`, `floor`, `ceil`, `fmax`, `fmin`, `fdim` and `copysign` are right wherever the function they
compute is differentiable, including on the kink.  `pow` is right in each of the cases its comment in
jet.h lists as differentiable. -/

namespace Ceres.Jet

open Filter Topology Asymptotics

noncomputable section

variable {n : ℕ} {f g : Jet n} {F G : (Fin n → ℝ) → ℝ} {t : Fin n → ℝ}

/-- If a differentiable function is above another one which it touches, they are tangent. -/
theorem fderiv_eq_of_le {M : (Fin n → ℝ) → ℝ} {L K : (Fin n → ℝ) →L[ℝ] ℝ}
    (hM : HasFDerivAt M K t) (hF : HasFDerivAt F L t) (hle : ∀ s, F s ≤ M s) (he : F t = M t) :
    K = L := by
  have hmin : IsLocalMin (M - F) t := by
    refine Eventually.of_forall fun s => ?_
    have := hle s
    simp only [Pi.sub_apply]; linarith
  exact sub_eq_zero.1 (hmin.hasFDerivAt_eq_zero (hM.sub hF))

/-- If `|F|` is differentiable at a zero of `F` then `F` is stationary there. -/
theorem fderiv_eq_zero_of_abs {L : (Fin n → ℝ) →L[ℝ] ℝ} (hF : HasFDerivAt F L t) (h0 : F t = 0)
    (hd : DifferentiableAt ℝ (fun s => |F s|) t) : L = 0 := by
  obtain ⟨K, hK⟩ := hd
  have h1 := fderiv_eq_of_le hK hF (fun s => le_abs_self _) (by simp [h0])
  have h2 := fderiv_eq_of_le hK hF.neg (fun s => neg_le_abs _) (by simp [h0])
  have h3 : L = -L := h1.symm.trans h2
  ext s
  have := congrArg (fun A => A s) h3
  simp only [ContinuousLinearMap.neg_apply] at this
  simp only [ContinuousLinearMap.zero_apply]
  linarith

/-- `abs` is right wherever the absolute value is differentiable. -/
theorem abs_represents (hf : Represents f F t) (hd : DifferentiableAt ℝ (fun s => |F s|) t) :
    Represents f.abs (fun s => |F s|) t := by
  by_cases h0 : f.a = 0
  · have hF : F t = 0 := by rw [← hf.value, h0]
    have hL := fderiv_eq_zero_of_abs hf.deriv hF hd
    refine ⟨by simp [Jet.abs, hf.value], ?_⟩
    rw [Jet.abs, grad_smul, hL, smul_zero]
    obtain ⟨K, hK⟩ := hd
    have := fderiv_eq_of_le hK hf.deriv (fun s => le_abs_self _) (by simp [hF])
    rw [← hL, ← this]
    exact hK
  · have h := hasDerivAt_abs h0
    refine hf.comp₁ (h.congr_deriv ?_)
    rcases lt_or_gt_of_ne h0 with h | h
    · simp [copysign, h]
    · simp [copysign, h, not_lt.2 h.le]

/-- Away from zero it is. -/
theorem abs_differentiable (hf : Represents f F t) (h0 : f.a ≠ 0) :
    DifferentiableAt ℝ (fun s => |F s|) t := by
  rw [hf.value] at h0
  exact ((hasDerivAt_abs h0).comp_hasFDerivAt t hf.deriv).differentiableAt

theorem floor_eventually {k : (Fin n → ℝ) → ℤ}
    (hd : ContinuousAt (fun s => (k s : ℝ)) t) : ∀ᶠ s in 𝓝 t, k s = k t := by
  have := Metric.continuousAt_iff.1 hd 1 one_pos
  obtain ⟨δ, hδ, h⟩ := this
  filter_upwards [Metric.ball_mem_nhds t hδ] with s hs
  have h1 := h hs
  rw [Real.dist_eq, ← Int.cast_sub, ← Int.cast_abs] at h1
  have h2 : |k s - k t| < 1 := by exact_mod_cast h1
  have := Int.abs_lt_one_iff.1 h2
  omega

/-- `floor` is right wherever the composition is differentiable. -/
theorem floor_represents (hf : Represents f F t)
    (hd : DifferentiableAt ℝ (fun s => ((⌊F s⌋ : ℤ) : ℝ)) t) :
    Represents f.floor (fun s => ((⌊F s⌋ : ℤ) : ℝ)) t := by
  have h := floor_eventually hd.continuousAt
  have h2 : Represents (Jet.const ((⌊f.a⌋ : ℤ) : ℝ)) (fun _ => ((⌊f.a⌋ : ℤ) : ℝ)) t :=
    const_represents _
  refine h2.congr ?_
  filter_upwards [h] with s hs
  rw [hs, hf.value]

/-- `ceil` is right wherever the composition is differentiable. -/
theorem ceil_represents (hf : Represents f F t)
    (hd : DifferentiableAt ℝ (fun s => ((⌈F s⌉ : ℤ) : ℝ)) t) :
    Represents f.ceil (fun s => ((⌈F s⌉ : ℤ) : ℝ)) t := by
  have h := floor_eventually hd.continuousAt
  have h2 : Represents (Jet.const ((⌈f.a⌉ : ℤ) : ℝ)) (fun _ => ((⌈f.a⌉ : ℤ) : ℝ)) t :=
    const_represents _
  refine h2.congr ?_
  filter_upwards [h] with s hs
  rw [hs, hf.value]

/-- It is away from the integers. -/
theorem floor_differentiable (hf : Represents f F t) (h0 : (⌊f.a⌋ : ℝ) ≠ f.a) :
    DifferentiableAt ℝ (fun s => ((⌊F s⌋ : ℤ) : ℝ)) t := by
  rw [hf.value] at h0
  have h1 : ∀ᶠ s in 𝓝 t, F s ∈ Set.Ioo ((⌊F t⌋ : ℤ) : ℝ) (⌊F t⌋ + 1) :=
    hf.deriv.continuousAt (Ioo_mem_nhds (lt_of_le_of_ne (Int.floor_le _) h0)
      (Int.lt_floor_add_one _))
  have h2 : (fun s => ((⌊F s⌋ : ℤ) : ℝ)) =ᶠ[𝓝 t] fun _ => ((⌊F t⌋ : ℤ) : ℝ) := by
    filter_upwards [h1] with s hs
    congr 1
    exact Int.floor_eq_iff.2 ⟨hs.1.le, hs.2⟩
  exact ((hasFDerivAt_const _ _).congr_of_eventuallyEq h2).differentiableAt

/-- `fmax` is right wherever the maximum is differentiable. -/
theorem fmax_represents (hf : Represents f F t) (hg : Represents g G t)
    (hd : DifferentiableAt ℝ (fun s => max (F s) (G s)) t) :
    Represents (f.fmax g) (fun s => max (F s) (G s)) t := by
  have cF := hf.deriv.continuousAt
  have cG := hg.deriv.continuousAt
  unfold Jet.fmax
  rcases lt_trichotomy f.a g.a with h | h | h
  · rw [if_pos (Or.inl h), if_pos h]
    rw [hf.value, hg.value] at h
    refine hg.congr ?_
    filter_upwards [cF.eventually_lt cG h] with s hs
    exact max_eq_right hs.le
  · rw [if_neg (by rw [h]; simp)]
    obtain ⟨K, hK⟩ := hd
    have e : F t = G t := by rw [← hf.value, ← hg.value, h]
    have h1 := fderiv_eq_of_le hK hf.deriv (fun s => le_max_left _ _) (by simp [e])
    have h2 := fderiv_eq_of_le hK hg.deriv (fun s => le_max_right _ _) (by simp [e])
    have h3 : f = g := Jet.ext h (grad_inj (h1.symm.trans h2))
    subst h3
    have h4 : f.midpoint f = f := by
      refine Jet.ext ?_ (funext fun i => ?_) <;> simp [Jet.midpoint, midpoint]
    rw [h4]
    refine ⟨by simp [hf.value, e], ?_⟩
    rw [← h1]; exact hK
  · rw [if_pos (Or.inr h), if_neg (not_lt.2 h.le)]
    rw [hf.value, hg.value] at h
    refine hf.congr ?_
    filter_upwards [cG.eventually_lt cF h] with s hs
    exact max_eq_left hs.le

/-- `fmin` is right wherever the minimum is differentiable. -/
theorem fmin_represents (hf : Represents f F t) (hg : Represents g G t)
    (hd : DifferentiableAt ℝ (fun s => min (F s) (G s)) t) :
    Represents (f.fmin g) (fun s => min (F s) (G s)) t := by
  have cF := hf.deriv.continuousAt
  have cG := hg.deriv.continuousAt
  unfold Jet.fmin
  rcases lt_trichotomy f.a g.a with h | h | h
  · rw [if_pos (Or.inl h), if_neg (not_lt.2 h.le)]
    rw [hf.value, hg.value] at h
    refine hf.congr ?_
    filter_upwards [cF.eventually_lt cG h] with s hs
    exact min_eq_left hs.le
  · rw [if_neg (by rw [h]; simp)]
    obtain ⟨K, hK⟩ := hd
    have e : F t = G t := by rw [← hf.value, ← hg.value, h]
    have h1 := fderiv_eq_of_le hf.deriv hK (fun s => min_le_left _ _) (by simp [e])
    have h2 := fderiv_eq_of_le hg.deriv hK (fun s => min_le_right _ _) (by simp [e])
    have h3 : f = g := Jet.ext h (grad_inj (h1.trans h2.symm))
    subst h3
    have h4 : f.midpoint f = f := by
      refine Jet.ext ?_ (funext fun i => ?_) <;> simp [Jet.midpoint, midpoint]
    rw [h4]
    refine ⟨by simp [hf.value, e], ?_⟩
    rw [h1]; exact hK
  · rw [if_pos (Or.inr h), if_pos h]
    rw [hf.value, hg.value] at h
    refine hg.congr ?_
    filter_upwards [cG.eventually_lt cF h] with s hs
    exact min_eq_right hs.le

theorem fmax_differentiable (hf : Represents f F t) (hg : Represents g G t) (h : f.a ≠ g.a) :
    DifferentiableAt ℝ (fun s => max (F s) (G s)) t := by
  have cF := hf.deriv.continuousAt
  have cG := hg.deriv.continuousAt
  rw [hf.value, hg.value] at h
  rcases lt_or_gt_of_ne h with h | h
  · refine (hg.deriv.congr_of_eventuallyEq ?_).differentiableAt
    filter_upwards [cF.eventually_lt cG h] with s hs
    exact max_eq_right hs.le
  · refine (hf.deriv.congr_of_eventuallyEq ?_).differentiableAt
    filter_upwards [cG.eventually_lt cF h] with s hs
    exact max_eq_left hs.le

/-- `fdim` is right wherever the positive difference is differentiable. -/
theorem fdim_represents (hf : Represents f F t) (hg : Represents g G t)
    (hd : DifferentiableAt ℝ (fun s => max (F s - G s) 0) t) :
    Represents (f.fdim g) (fun s => max (F s - G s) 0) t := by
  have cF := hf.deriv.continuousAt
  have cG := hg.deriv.continuousAt
  unfold Jet.fdim
  by_cases h : f.a > g.a
  · rw [if_pos h]
    rw [hf.value, hg.value] at h
    refine (sub_represents hf hg).congr ?_
    filter_upwards [cG.eventually_lt cF h] with s hs
    exact max_eq_left (by linarith)
  · rw [if_neg h]
    have h' : F t ≤ G t := by rw [← hf.value, ← hg.value]; exact not_lt.1 h
    have e : max (F t - G t) 0 = 0 := max_eq_right (by linarith)
    obtain ⟨K, hK⟩ := hd
    have h1 := fderiv_eq_of_le hK (hasFDerivAt_const (0 : ℝ) t) (fun s => le_max_right _ _) e.symm
    refine ⟨e.symm, ?_⟩
    rw [Jet.const, grad_zero, ← h1]
    exact hK

/-- `copysign` is right wherever the sign argument is not zero and the result is differentiable. -/
theorem copysign_represents (inf : ℝ) (hf : Represents f F t) (hg : Represents g G t)
    (h0 : g.a ≠ 0) (hd : DifferentiableAt ℝ (fun s => copysign (F s) (G s)) t) :
    Represents (Jet.copysign inf f g) (fun s => copysign (F s) (G s)) t := by
  have cG := hg.deriv.continuousAt
  have hG0 : G t ≠ 0 := by rw [← hg.value]; exact h0
  rcases lt_or_gt_of_ne hG0 with h | h
  · have ev : (fun s => copysign (F s) (G s)) =ᶠ[𝓝 t] fun s => -|F s| := by
      filter_upwards [cG.eventually_lt continuousAt_const h] with s hs
      rw [copysign, if_pos hs]
    have hd' : DifferentiableAt ℝ (fun s => |F s|) t := by
      have := (hd.congr_of_eventuallyEq ev.symm).neg
      simpa using this
    have hr := (neg_represents (abs_represents hf hd')).congr ev
    have e : f.abs.neg = Jet.copysign inf f g := by
      have hga : g.a < 0 := by rw [hg.value]; exact h
      refine Jet.ext ?_ (funext fun i => ?_)
      · simp [Jet.neg, Jet.abs, Jet.copysign, copysign, hga]
      · simp [Jet.neg, Jet.abs, Jet.copysign, copysign, hga, h0]
    rwa [e] at hr
  · have ev : (fun s => copysign (F s) (G s)) =ᶠ[𝓝 t] fun s => |F s| := by
      filter_upwards [continuousAt_const.eventually_lt cG h] with s hs
      rw [copysign, if_neg (not_lt.2 hs.le)]
    have hd' : DifferentiableAt ℝ (fun s => |F s|) t := hd.congr_of_eventuallyEq ev.symm
    have hr := (abs_represents hf hd').congr ev
    have e : f.abs = Jet.copysign inf f g := by
      have hga : ¬ g.a < 0 := by rw [hg.value]; exact not_lt.2 h.le
      refine Jet.ext ?_ (funext fun i => ?_)
      · simp [Jet.abs, Jet.copysign, copysign, hga]
      · simp [Jet.abs, Jet.copysign, copysign, hga, h0]
    rwa [e] at hr

/-! ## Powers -/

/-- `pow(f, p)`: for a positive base, a negative base with an integer exponent, and at zero for
exponents at least one. -/
theorem powConst_represents (hf : Represents f F t) (p : ℝ)
    (h0 : 0 < f.a ∨ (f.a < 0 ∧ ∃ k : ℤ, p = k) ∨ (f.a = 0 ∧ 1 ≤ p)) :
    Represents (f.powConst p) (fun s => F s ^ p) t := by
  refine hf.comp₁ (Real.hasDerivAt_rpow_const ?_)
  rcases h0 with h | h | h
  · exact Or.inl h.ne'
  · exact Or.inl h.1.ne
  · exact Or.inr h.2

/-- `pow(c, g)`: for a positive base, for base zero and a positive exponent, and for a negative base
where the exponent is constant and an integer. -/
theorem constPow_represents (nan c : ℝ) (hg : Represents g G t)
    (h0 : 0 < c ∨ (c = 0 ∧ 0 < g.a) ∨ (c < 0 ∧ ∃ k : ℤ, ∀ᶠ s in 𝓝 t, G s = k)) :
    Represents (Jet.constPow nan c g) (fun s => c ^ G s) t := by
  unfold Jet.constPow
  rcases h0 with h | ⟨h, hg0⟩ | ⟨h, k, hk⟩
  · rw [if_neg (fun e => h.ne' e.1), if_neg (fun e => absurd e.1 (not_lt.2 h.le))]
    have := hg.comp₁ ((hasDerivAt_id g.a).const_rpow h)
    simpa [mul_comm] using this
  · rw [if_pos ⟨h, hg0⟩]
    refine (const_represents 0).congr ?_
    rw [hg.value] at hg0
    filter_upwards [continuousAt_const.eventually_lt hg.deriv.continuousAt hg0] with s hs
    rw [h, Real.zero_rpow hs.ne']
  · have hga : g.a = k := by rw [hg.value]; exact hk.self_of_nhds
    have hgv : g = Jet.const (k : ℝ) := hg.unique ((const_represents (k : ℝ)).congr hk)
    rw [if_neg (fun e => h.ne e.1), if_pos ⟨h, by rw [hga, Int.floor_intCast]⟩]
    have e : (⟨c ^ g.a, fun i => if g.v i ≠ 0 then nan else 0⟩ : Jet n)
        = Jet.const (c ^ (k : ℝ)) := by
      rw [hgv]; simp [Jet.const]
    rw [e]
    refine (const_represents _).congr ?_
    filter_upwards [hk] with s hs
    rw [hs]

theorem rpow_abs_le (x y : ℝ) : |x ^ y| ≤ |x| ^ y := Real.abs_rpow_le_abs_rpow x y

/-- Case 2 of the comment: base zero and exponent above one. -/
theorem hasFDerivAt_rpow_zero {y : ℝ} (hy : 1 < y) :
    HasFDerivAt (fun p : ℝ × ℝ => p.1 ^ p.2) (0 : ℝ × ℝ →L[ℝ] ℝ) (0, y) := by
  rw [hasFDerivAt_iff_isLittleO_nhds_zero, isLittleO_iff]
  intro c hc
  set δ := (y - 1) / 2 with hδ
  have hδ0 : 0 < δ := by rw [hδ]; linarith
  have ht : Tendsto (fun x : ℝ × ℝ => |x.1| ^ δ) (𝓝 0) (𝓝 0) := by
    have : ContinuousAt (fun x : ℝ × ℝ => |x.1| ^ δ) 0 :=
      (continuous_abs.comp continuous_fst).continuousAt.rpow_const (Or.inr hδ0.le)
    have h2 := this.tendsto
    simpa [Real.zero_rpow hδ0.ne'] using h2
  have h1 : ∀ᶠ x : ℝ × ℝ in 𝓝 0, |x.1| ^ δ < c := ht.eventually (gt_mem_nhds hc)
  have h2 : ∀ᶠ x : ℝ × ℝ in 𝓝 0, |x.1| < 1 :=
    (continuous_abs.comp continuous_fst).continuousAt.eventually_lt continuousAt_const (by simp)
  have h3 : ∀ᶠ x : ℝ × ℝ in 𝓝 0, -δ < x.2 :=
    continuousAt_const.eventually_lt continuous_snd.continuousAt (by simp [hδ0])
  filter_upwards [h1, h2, h3] with x hx1 hx2 hx3
  have e0 : (0 : ℝ) ^ y = 0 := Real.zero_rpow (by linarith)
  simp only [Prod.fst_add, Prod.snd_add, zero_add, e0, sub_zero, ContinuousLinearMap.zero_apply]
  rw [Real.norm_eq_abs]
  have hn : |x.1| ≤ ‖x‖ := norm_fst_le x
  rcases eq_or_ne x.1 0 with hz | hz
  · rw [hz, Real.zero_rpow (by rw [hδ] at hx3; linarith), abs_zero]
    positivity
  calc |x.1 ^ (y + x.2)| ≤ |x.1| ^ (y + x.2) := rpow_abs_le _ _
    _ ≤ |x.1| ^ (1 + δ) :=
        Real.rpow_le_rpow_of_exponent_ge (abs_pos.2 hz) hx2.le (by rw [hδ] at *; linarith)
    _ = |x.1| * |x.1| ^ δ := by rw [Real.rpow_add (abs_pos.2 hz), Real.rpow_one]
    _ ≤ ‖x‖ * c := mul_le_mul hn hx1.le (Real.rpow_nonneg (abs_nonneg _) _) (norm_nonneg _)
    _ = c * ‖x‖ := mul_comm _ _

theorem abs_exp_sub_one_le' (z : ℝ) : |Real.exp z - 1| ≤ |z| * Real.exp |z| := by
  have h1 := Real.add_one_le_exp z
  have h2 := Real.add_one_le_exp (-z)
  have h3 : Real.exp z * Real.exp (-z) = 1 := by rw [← Real.exp_add]; simp
  have h4 := Real.exp_pos z
  have h5 : 1 ≤ Real.exp |z| := Real.one_le_exp (abs_nonneg z)
  rcases le_total 0 z with h | h
  · rw [abs_of_nonneg h, abs_of_nonneg (by linarith)]
    nlinarith
  · rw [abs_of_nonpos h, abs_of_nonpos (by rw [sub_nonpos]; exact Real.exp_le_one_iff.2 h)]
    rw [abs_of_nonpos h] at h5
    nlinarith

theorem rpow_sub_one_le {x s : ℝ} (hx : x ≠ 0) (hx1 : |x| ≤ 1) (hs : |s| ≤ 1 / 2) :
    |x| * |x ^ s - 1| ≤ |s| * (9 * |x| ^ (1 / 4 : ℝ)) := by
  set u := |x| with hu
  have hu0 : 0 < u := abs_pos.2 hx
  set E := u ^ (-(1 / 2) : ℝ) with hE
  have hE0 : 0 < E := Real.rpow_pos_of_pos hu0 _
  have hLn : Real.log u ≤ 0 := Real.log_nonpos hu0.le hx1
  -- the exponential factor
  have hexp : Real.exp (|s * Real.log u|) ≤ E := by
    rw [hE, Real.rpow_def_of_pos hu0]
    apply Real.exp_le_exp.2
    rw [abs_mul, abs_of_nonpos hLn]
    nlinarith [abs_nonneg s]
  have hus : u ^ s = Real.exp (s * Real.log u) := by
    rw [Real.rpow_def_of_pos hu0, mul_comm]
  have h1 : |u ^ s - 1| ≤ |s| * |Real.log u| * E := by
    rw [hus, ← abs_mul]
    exact (abs_exp_sub_one_le' _).trans (mul_le_mul_of_nonneg_left hexp (abs_nonneg _))
  have husE : u ^ s ≤ E := by
    rw [hus]
    exact (Real.exp_le_exp.2 (le_abs_self _)).trans hexp
  have hus0 : 0 < u ^ s := Real.rpow_pos_of_pos hu0 _
  -- the sign factor
  have h2 : |x ^ s - u ^ s| ≤ |s| * 5 * E := by
    rcases lt_or_gt_of_ne hx with h | h
    · have e : x ^ s = u ^ s * Real.cos (s * Real.pi) := by
        rw [Real.rpow_def_of_neg h, hus, hu, Real.log_abs, mul_comm s, mul_comm s]
      have e2 : x ^ s - u ^ s = -(u ^ s * (1 - Real.cos (s * Real.pi))) := by rw [e]; ring
      have hc : 1 - Real.cos (s * Real.pi) ≤ |s| * 5 := by
        have hb := Real.one_sub_sq_div_two_le_cos (x := s * Real.pi)
        have hpi : Real.pi ^ 2 ≤ 10 := by
          nlinarith [Real.pi_lt_d2, Real.pi_pos]
        have h3 : (s * Real.pi) ^ 2 ≤ |s| * 10 := by
          have : s ^ 2 ≤ |s| := by
            rw [← sq_abs]; nlinarith [abs_nonneg s]
          rw [mul_pow]
          exact mul_le_mul this hpi (sq_nonneg _) (abs_nonneg _)
        linarith
      have hc0 : 0 ≤ 1 - Real.cos (s * Real.pi) := by linarith [Real.cos_le_one (s * Real.pi)]
      rw [e2, abs_neg, abs_of_nonneg (mul_nonneg hus0.le hc0), mul_comm (|s| * 5)]
      exact mul_le_mul husE hc hc0 hE0.le
    · have : u = x := abs_of_pos h
      rw [this, sub_self, abs_zero]
      positivity
  have h3 : |x ^ s - 1| ≤ |s| * (|Real.log u| + 5) * E := by
    have := abs_add_le (x ^ s - u ^ s) (u ^ s - 1)
    rw [sub_add_sub_cancel] at this
    nlinarith
  have huE : u * E = u ^ (1 / 2 : ℝ) := by
    rw [hE]
    nth_rewrite 1 [← Real.rpow_one u]
    rw [← Real.rpow_add hu0]
    norm_num
  have hq : u ^ (1 / 2 : ℝ) = u ^ (1 / 4 : ℝ) * u ^ (1 / 4 : ℝ) := by
    rw [← Real.rpow_add hu0]; norm_num
  have hq0 : 0 < u ^ (1 / 4 : ℝ) := Real.rpow_pos_of_pos hu0 _
  have hq1 : u ^ (1 / 4 : ℝ) ≤ 1 := Real.rpow_le_one hu0.le hx1 (by norm_num)
  have hlog : |Real.log u| * u ^ (1 / 4 : ℝ) ≤ 4 := by
    have := Real.abs_log_mul_self_rpow_lt u (1 / 4) hu0 hx1 (by norm_num)
    rw [abs_mul, abs_of_pos hq0] at this
    norm_num at this ⊢
    exact this.le
  calc u * |x ^ s - 1| ≤ u * (|s| * (|Real.log u| + 5) * E) := mul_le_mul_of_nonneg_left h3 hu0.le
    _ = |s| * ((|Real.log u| + 5) * u ^ (1 / 2 : ℝ)) := by rw [← huE]; ring
    _ ≤ |s| * (9 * u ^ (1 / 4 : ℝ)) := by
        apply mul_le_mul_of_nonneg_left _ (abs_nonneg s)
        rw [hq]
        nlinarith

/-- Case 3 of the comment: base zero and exponent one. -/
theorem hasFDerivAt_rpow_zero_one :
    HasFDerivAt (fun p : ℝ × ℝ => p.1 ^ p.2) (ContinuousLinearMap.fst ℝ ℝ ℝ) (0, 1) := by
  rw [hasFDerivAt_iff_isLittleO_nhds_zero, isLittleO_iff]
  intro c hc
  have ht : Tendsto (fun x : ℝ × ℝ => |x.1| ^ (1 / 4 : ℝ)) (𝓝 0) (𝓝 0) := by
    have : ContinuousAt (fun x : ℝ × ℝ => |x.1| ^ (1 / 4 : ℝ)) 0 :=
      (continuous_abs.comp continuous_fst).continuousAt.rpow_const (Or.inr (by norm_num))
    have h2 := this.tendsto
    simpa [Real.zero_rpow] using h2
  have h1 : ∀ᶠ x : ℝ × ℝ in 𝓝 0, |x.1| ^ (1 / 4 : ℝ) < c / 9 :=
    ht.eventually (gt_mem_nhds (by positivity))
  have h2 : ∀ᶠ x : ℝ × ℝ in 𝓝 0, |x.1| < 1 :=
    (continuous_abs.comp continuous_fst).continuousAt.eventually_lt continuousAt_const (by simp)
  have h3 : ∀ᶠ x : ℝ × ℝ in 𝓝 0, |x.2| < 1 / 2 :=
    (continuous_abs.comp continuous_snd).continuousAt.eventually_lt continuousAt_const (by simp)
  filter_upwards [h1, h2, h3] with x hx1 hx2 hx3
  have e0 : (0 : ℝ) ^ (1 : ℝ) = 0 := by simp
  simp only [Prod.fst_add, Prod.snd_add, zero_add, e0, sub_zero, ContinuousLinearMap.coe_fst']
  rw [Real.norm_eq_abs]
  have hn : |x.2| ≤ ‖x‖ := norm_snd_le x
  rcases eq_or_ne x.1 0 with hz | hz
  · have : 1 + x.2 ≠ 0 := by have := (abs_lt.1 hx3).1; linarith
    rw [hz, Real.zero_rpow this, sub_zero, abs_zero]
    positivity
  have e : x.1 ^ (1 + x.2) - x.1 = x.1 * (x.1 ^ x.2 - 1) := by
    rw [add_comm, Real.rpow_add_one hz]; ring
  rw [e, abs_mul]
  refine (rpow_sub_one_le hz hx2.le hx3.le).trans ?_
  rw [mul_comm c]
  exact mul_le_mul hn (by linarith) (by positivity) (norm_nonneg _)

/-- `pow(f, g)` is right for a positive base, at base zero for exponents at least one, and for a
negative base where the exponent is constant and an integer. -/
theorem pow_represents (nan : ℝ) (hf : Represents f F t) (hg : Represents g G t)
    (h0 : 0 < f.a ∨ (f.a = 0 ∧ 1 ≤ g.a) ∨ (f.a < 0 ∧ ∃ k : ℤ, ∀ᶠ s in 𝓝 t, G s = k)) :
    Represents (Jet.pow nan f g) (fun s => F s ^ G s) t := by
  unfold Jet.pow
  rcases h0 with h | ⟨h, h1⟩ | ⟨h, k, hk⟩
  · rw [if_neg (fun e => h.ne' e.1), if_neg (fun e => absurd e.1 (not_lt.2 h.le))]
    have hd := (Real.hasStrictFDerivAt_rpow_of_pos (f.a, g.a) h).hasFDerivAt
    exact hf.comp₂ hg hd (by simp) (by simp)
  · rw [if_pos ⟨h, h1⟩]
    rcases h1.lt_or_eq with h2 | h2
    · rw [if_pos h2]
      have hd := hasFDerivAt_rpow_zero h2
      rw [← h] at hd
      have hr := hf.comp₂ hg hd rfl rfl
      have e : (⟨f.a ^ g.a, (0 : ℝ × ℝ →L[ℝ] ℝ) (1, 0) • f.v + (0 : ℝ × ℝ →L[ℝ] ℝ) (0, 1) • g.v⟩
          : Jet n) = Jet.const 0 := by
        have : g.a ≠ 0 := by linarith
        refine Jet.ext ?_ (funext fun i => ?_)
        · simp [Jet.const, h, Real.zero_rpow this]
        · simp [Jet.const]
      rwa [e] at hr
    · rw [if_neg (by rw [← h2]; simp)]
      have hd := hasFDerivAt_rpow_zero_one
      rw [h2] at hd
      nth_rewrite 1 [← h] at hd
      have hr := hf.comp₂ hg hd rfl rfl
      have e : (⟨f.a ^ g.a, (ContinuousLinearMap.fst ℝ ℝ ℝ) (1, 0) • f.v
          + (ContinuousLinearMap.fst ℝ ℝ ℝ) (0, 1) • g.v⟩ : Jet n) = f := by
        refine Jet.ext ?_ (funext fun i => ?_)
        · simp [← h2]
        · simp
      rwa [e] at hr
  · have hga : g.a = k := by rw [hg.value]; exact hk.self_of_nhds
    have hgv : g = Jet.const (k : ℝ) := hg.unique ((const_represents (k : ℝ)).congr hk)
    rw [if_neg (fun e => h.ne e.1), if_pos ⟨h, by rw [hga, Int.floor_intCast]⟩]
    have hr := (powConst_represents hf (k : ℝ) (Or.inr (Or.inl ⟨h, k, rfl⟩)))
    have e : f.powConst (k : ℝ) = (⟨f.a ^ g.a, fun i => if g.v i ≠ 0 then nan
        else g.a * f.a ^ (g.a - 1) * f.v i⟩ : Jet n) := by
      rw [hgv]
      refine Jet.ext ?_ (funext fun i => ?_)
      · simp [Jet.const, Jet.powConst]
      · simp [Jet.const, Jet.powConst]
    rw [e] at hr
    refine hr.congr ?_
    filter_upwards [hk] with s hs
    rw [hs]

end

end Ceres.Jet
