import Verif.Strategy.Dogleg

/-!
# C62: the dogleg step decreases the linear model
-/
namespace Ceres.Strategy

open Ceres.TrustRegion

variable {m n : Nat}

/-- The linear model is convex. -/
theorem modelCost_convex (L : Linearization m n) (p q : Fin n → ℝ) (t : ℝ) (h0 : 0 ≤ t)
    (h1 : t ≤ 1) :
    modelCost L (fun i => (1 - t) * p i + t * q i) ≤
      (1 - t) * modelCost L p + t * modelCost L q := by
  unfold modelCost
  rw [← mul_div_assoc, ← mul_div_assoc, ← add_div, Finset.mul_sum, Finset.mul_sum,
    ← Finset.sum_add_distrib]
  refine div_le_div_of_nonneg_right (Finset.sum_le_sum fun k _ => ?_) (by norm_num)
  have e : ∑ i, L.J k i * ((1 - t) * p i + t * q i) =
      (1 - t) * ∑ i, L.J k i * p i + t * ∑ i, L.J k i * q i := by
    rw [Finset.mul_sum, Finset.mul_sum, ← Finset.sum_add_distrib]
    exact Finset.sum_congr rfl fun i _ => by ring
  rw [e]
  generalize ∑ i, L.J k i * p i = a
  generalize ∑ i, L.J k i * q i = b
  nlinarith [mul_nonneg (mul_nonneg h0 (sub_nonneg.2 h1)) (sq_nonneg (a - b))]

/-- The linear model along a ray. -/
theorem modelCost_ray (L : Linearization m n) (u : Fin n → ℝ) (c : ℝ) :
    modelCost L (fun i => c * u i) = modelCost L 0 +
      c * ∑ i, u i * ∑ k, L.J k i * L.r k + c ^ 2 * (∑ k, (∑ i, L.J k i * u i) ^ 2) / 2 := by
  unfold modelCost
  have e1 : ∑ k, (∑ i, L.J k i * (c * u i) + L.r k) ^ 2 =
      ∑ k, L.r k ^ 2 + 2 * c * ∑ k, (∑ i, L.J k i * u i) * L.r k +
        c ^ 2 * ∑ k, (∑ i, L.J k i * u i) ^ 2 := by
    rw [Finset.mul_sum, Finset.mul_sum, ← Finset.sum_add_distrib, ← Finset.sum_add_distrib]
    refine Finset.sum_congr rfl fun k _ => ?_
    have : ∑ i, L.J k i * (c * u i) = c * ∑ i, L.J k i * u i := by
      rw [Finset.mul_sum]; exact Finset.sum_congr rfl fun i _ => by ring
    rw [this]; ring
  have e2 : ∑ k, (∑ i, L.J k i * u i) * L.r k = ∑ i, u i * ∑ k, L.J k i * L.r k := by
    simp only [Finset.sum_mul, Finset.mul_sum]
    rw [Finset.sum_comm]
    exact Finset.sum_congr rfl fun i _ => Finset.sum_congr rfl fun k _ => by ring
  rw [e1, e2]
  simp only [Pi.zero_apply, mul_zero, Finset.sum_const_zero, zero_add]
  ring

/-- Facts about the scaled gradient. -/
structure GradFacts (a b : ℝ) (L : Linearization m n) : Prop where
  d : ∀ i, 0 < doglegDiag a b L i
  dot : ∑ i, doglegGradient a b L i / doglegDiag a b L i * ∑ k, L.J k i * L.r k =
    ‖doglegGradient a b L‖ ^ 2
  pos : 0 < ‖doglegGradient a b L‖
  Jg : 0 < ∑ k, (∑ i, L.J k i * (doglegGradient a b L i / doglegDiag a b L i)) ^ 2
  alpha : 0 < doglegAlpha a b L

theorem gradFacts {a b : ℝ} (ha : 0 < a) (hab : a ≤ b) (L : Linearization m n)
    (hg : ∃ i, ∑ k, L.J k i * L.r k ≠ 0) : GradFacts a b L := by
  have hd : ∀ i, 0 < doglegDiag a b L i := fun i =>
    Real.sqrt_pos.2 (lt_min (lt_max_of_lt_right ha) (lt_of_lt_of_le ha hab))
  have hdot : ∑ i, doglegGradient a b L i / doglegDiag a b L i * ∑ k, L.J k i * L.r k =
      ‖doglegGradient a b L‖ ^ 2 := by
    rw [EuclideanSpace.norm_sq_eq]
    refine Finset.sum_congr rfl fun i _ => ?_
    have := ne_of_gt (hd i)
    rw [Real.norm_eq_abs, sq_abs]
    show (∑ k, L.J k i * L.r k) / doglegDiag a b L i / doglegDiag a b L i * _ =
      ((∑ k, L.J k i * L.r k) / doglegDiag a b L i) ^ 2
    field_simp
  have hpos : 0 < ‖doglegGradient a b L‖ := by
    rw [norm_pos_iff]
    intro h0
    obtain ⟨i, hi⟩ := hg
    have h1 : doglegGradient a b L i = 0 := by rw [h0]; rfl
    have h2 : (∑ k, L.J k i * L.r k) / doglegDiag a b L i = 0 := h1
    rw [div_eq_zero_iff] at h2
    rcases h2 with h2 | h2
    · exact hi h2
    · exact absurd h2 (ne_of_gt (hd i))
  have hJ : 0 < ∑ k, (∑ i, L.J k i * (doglegGradient a b L i / doglegDiag a b L i)) ^ 2 := by
    by_contra hc
    have h0 : ∑ k, (∑ i, L.J k i * (doglegGradient a b L i / doglegDiag a b L i)) ^ 2 = 0 :=
      le_antisymm (not_lt.1 hc) (Finset.sum_nonneg fun _ _ => sq_nonneg _)
    rw [Finset.sum_eq_zero_iff_of_nonneg (fun _ _ => sq_nonneg _)] at h0
    have hz : ∑ i, doglegGradient a b L i / doglegDiag a b L i * ∑ k, L.J k i * L.r k = 0 := by
      have e2 : ∑ k, (∑ i, L.J k i * (doglegGradient a b L i / doglegDiag a b L i)) * L.r k =
          ∑ i, doglegGradient a b L i / doglegDiag a b L i * ∑ k, L.J k i * L.r k := by
        simp only [Finset.sum_mul, Finset.mul_sum]
        rw [Finset.sum_comm]
        exact Finset.sum_congr rfl fun i _ => Finset.sum_congr rfl fun k _ => by ring
      rw [← e2]
      refine Finset.sum_eq_zero fun k hk => ?_
      rw [pow_eq_zero_iff (by norm_num) |>.1 (h0 k hk), zero_mul]
    rw [hdot] at hz
    exact absurd hz (ne_of_gt (by positivity))
  exact ⟨hd, hdot, hpos, hJ, div_pos (by positivity) hJ⟩

/-- The model decrease along the steepest descent direction, up to the Cauchy point. -/
theorem modelCost_cauchy {a b : ℝ} {L : Linearization m n} (f : GradFacts a b L) (c : ℝ) :
    modelCost L (fun i => -c * (doglegGradient a b L i / doglegDiag a b L i)) =
      modelCost L 0 - c * ‖doglegGradient a b L‖ ^ 2 * (1 - c / (2 * doglegAlpha a b L)) := by
  rw [modelCost_ray, f.dot]
  have hJ := ne_of_gt f.Jg
  have hp := ne_of_gt f.pos
  have hal : doglegAlpha a b L = ‖doglegGradient a b L‖ ^ 2 /
      ∑ k, (∑ i, L.J k i * (doglegGradient a b L i / doglegDiag a b L i)) ^ 2 := rfl
  rw [hal]
  generalize ∑ k, (∑ i, L.J k i * (doglegGradient a b L i / doglegDiag a b L i)) ^ 2 = S at *
  field_simp
  ring

set_option maxHeartbeats 800000 in
/-- **C62 (descent).**  In every run, whenever the linear solver is exact and the gradient
`J^T r` at the current point is not zero, the traditional dogleg step strictly decreases the
linear model: the predicted decrease the minimizer computes is positive, so no step is invalid
for that reason. -/
theorem dogleg_step_descends {X : Type} (o : Opts ℝ) (env : Env X (E n) ℝ) (solve : Solver m n)
    (hsolve : SolvesExactly solve)
    (lin : X → Linearization m n) (d : DoglegOptions) (s0 : Dogleg n)
    (hs : Dogleg.new d.radius d.maxRadius d.minDiag d.maxDiag = some s0) (h0 : 0 < d.radius)
    (x0 : X) (s : St (Dogleg n) X (E n) ℝ) (h : Head o env (doglegStrategy solve lin) s0 x0 s)
    (st : E n) (hst : (s.strat.compute solve (lin s.x)).2 = .step st)
    (hg : ∃ i, ∑ k, (lin s.x).J k i * (lin s.x).r k ≠ 0) :
    0 < modelCostChange (lin s.x) st ∧
    -- the step is a (regularised) Gauss-Newton step, or its decrease is at least that of every
    -- steepest descent step inside the trust region
    ((∃ mu y, 0 < mu ∧ mu < 1 ∧ solve (lin s.x) (fun i =>
        doglegDiag d.minDiag d.maxDiag (lin s.x) i * Real.sqrt mu) = .step y ∧ st = -y) ∨
      ∀ c : ℝ, ‖c • doglegGradient d.minDiag d.maxDiag (lin s.x)‖ ≤ s.strat.radius →
        modelCost (lin s.x) st ≤ modelCost (lin s.x) (fun i =>
          -c * (doglegGradient d.minDiag d.maxDiag (lin s.x) i /
            doglegDiag d.minDiag d.maxDiag (lin s.x) i))) := by
  have hm : 0 < d.minDiag ∧ d.minDiag ≤ d.maxDiag := by
    unfold Dogleg.new at hs
    split at hs
    · rename_i hc; exact ⟨hc.1, hc.2.1⟩
    · cases hs
  have hok := dogleg_ok o env solve lin d s0 hs h0 x0 s h
  have f := gradFacts hm.1 hm.2 (lin s.x) hg
  obtain ⟨c1, c2, c3, c4, c5⟩ := Dogleg.compute_spec solve d s.strat (lin s.x) hok
  obtain ⟨hf, -, -, hst'⟩ := c5 st hst
  obtain ⟨f1, f2, f3, mu, y, m1, m2, f4, f5⟩ := hf
  rw [c3, c4] at f1 f2 f3
  rw [f1] at f4 f5
  rw [f1, f2, f3, f5] at hst'
  generalize hL : lin s.x = L at *
  generalize hD : doglegDiag d.minDiag d.maxDiag L = D at *
  have hGi : ∀ i, doglegGradient d.minDiag d.maxDiag L i = (∑ k, L.J k i * L.r k) / D i := by
    intro i; rw [← hD]; rfl
  have fd : ∀ i, 0 < D i := by rw [← hD]; exact f.d
  have hcau := modelCost_cauchy f
  rw [hD] at hcau
  have fal := f.alpha
  have fpos := f.pos
  generalize doglegAlpha d.minDiag d.maxDiag L = al at *
  generalize doglegGradient d.minDiag d.maxDiag L = g at *
  -- the Gauss-Newton step
  have hDmu : ∀ i, D i * Real.sqrt mu ≠ 0 := fun i =>
    ne_of_gt (mul_pos (fd i) (Real.sqrt_pos.2 m1))
  obtain ⟨y', hy', hn⟩ := hsolve L _ hDmu
  rw [f4] at hy'
  cases hy'
  have hw : ∀ i, 0 < D i ^ 2 * mu := fun i => mul_pos (pow_pos (fd i) 2) m1
  have hnorm : ∀ i, ∑ k, L.J k i * (∑ j, L.J k j * (-y) j + L.r k) + D i ^ 2 * mu * (-y) i = 0 := by
    intro i
    have := hn i
    rw [mul_pow, Real.sq_sqrt (le_of_lt m1)] at this
    simp only [PiLp.neg_apply, mul_neg, Finset.sum_neg_distrib, mul_add, Finset.sum_add_distrib]
    linarith
  have hyne : (-y : E n).ofLp ≠ 0 := by
    intro hz
    obtain ⟨i, hi⟩ := hg
    apply hi
    have h1 := hnorm i
    have h2 : ∀ j, (-y : E n) j = 0 := fun j => congrFun hz j
    simp only [h2] at h1
    simpa using h1
  have hgn : ∀ t : Fin n → ℝ, modelCost L t + weightedSq (fun i => D i ^ 2 * mu) t / 2 ≥
      modelCost L (-y).ofLp + weightedSq (fun i => D i ^ 2 * mu) (-y).ofLp / 2 := by
    intro t
    have e := damped_expand hnorm t
    have h1 := weightedSq_nonneg hw (fun i => t i - (-y) i)
    have h2 : 0 ≤ ∑ k, (∑ i, L.J k i * (t i - (-y) i)) ^ 2 :=
      Finset.sum_nonneg fun _ _ => sq_nonneg _
    linarith
  have hgnlt : modelCost L (-y).ofLp < modelCost L 0 := by
    have h1 := hgn 0
    have h2 := weightedSq_pos hw hyne
    have h3 : weightedSq (fun i => D i ^ 2 * mu) (0 : Fin n → ℝ) = 0 := by simp [weightedSq]
    linarith
  have hca : modelCost L (fun i => -al * (g i / D i)) < modelCost L 0 := by
    rw [hcau]
    have : al / (2 * al) = 1 / 2 := by field_simp
    rw [this]
    have : 0 < al * ‖g‖ ^ 2 := by positivity
    linarith
  have sp := dogleg_step_spec s.strat.radius al g (vec fun i => -(D i * y i) : E n) hok.pos
    (le_of_lt fal)
  generalize hss : (doglegStep s.strat.radius al g (vec fun i => -(D i * y i) : E n)).1 = ss at *
  have hsi : ∀ i, st i = ss i / D i := by intro i; rw [hst']
  have hnb : ‖(vec fun i => -(D i * y i) : E n)‖ ≠ 0 := by
    rw [norm_ne_zero_iff]
    intro hz
    apply hyne
    funext i
    have h1 : -(D i * y i) = 0 := congrFun (congrArg WithLp.ofLp hz) i
    have h2 := fd i
    show -(y i) = 0
    have h3 : D i * y i = 0 := by linarith
    rcases mul_eq_zero.1 h3 with h4 | h4
    · exact absurd h4 (ne_of_gt h2)
    · rw [h4, neg_zero]
  have hssn : ‖ss‖ ≠ 0 := by
    by_cases hb : ‖(vec fun i => -(D i * y i) : E n)‖ ≤ s.strat.radius
    · rw [sp.2.2.2.1 hb]; exact hnb
    · rw [sp.2.2.2.2 (not_le.1 hb)]; exact ne_of_gt hok.pos
  have hpos : modelCost L st.ofLp < modelCost L 0 := by
    rcases sp.1 with ⟨t, t0, t1, e⟩ | ⟨t, t0, t1, e⟩
    · have htp : 0 < t := by
        rcases t0.lt_or_eq with h | h
        · exact h
        · rw [← h, zero_smul] at e
          rw [e] at hssn
          simp at hssn
      have est : st.ofLp = fun i => -(t * al) * (g i / D i) := by
        funext i
        rw [hsi i, e]
        simp only [PiLp.smul_apply, PiLp.neg_apply, smul_eq_mul]
        ring
      rw [est, hcau]
      have h1 : t * al / (2 * al) = t / 2 := by field_simp
      rw [h1]
      have : 0 < t * al * ‖g‖ ^ 2 := by positivity
      nlinarith
    · have est : st.ofLp = fun i => (1 - t) * (-al * (g i / D i)) + t * (-y).ofLp i := by
        funext i
        rw [hsi i, e]
        have := ne_of_gt (fd i)
        simp only [PiLp.add_apply, PiLp.smul_apply, PiLp.neg_apply, smul_eq_mul]
        field_simp
      rw [est]
      refine lt_of_le_of_lt (modelCost_convex L _ _ t t0 t1) ?_
      have q1 : (1 - t) * modelCost L (fun i => -al * (g i / D i)) ≤ (1 - t) * modelCost L 0 :=
        mul_le_mul_of_nonneg_left (le_of_lt hca) (by linarith)
      rcases t0.lt_or_eq with ht | ht
      · have q2 : t * modelCost L (-y).ofLp < t * modelCost L 0 :=
          mul_lt_mul_of_pos_left hgnlt ht
        linarith
      · rw [← ht]
        simp only [sub_zero, one_mul, zero_mul, add_zero]
        exact hca
  have hfin : 0 < modelCostChange L st := by
    rw [modelCostChange_eq]
    linarith
  refine ⟨hfin, ?_⟩
  -- the best steepest descent step
  have hbest : ∀ c c₀ : ℝ, 0 ≤ c₀ → c₀ ≤ al → c ≤ c₀ ∨ c₀ = al →
      modelCost L (fun i => -c₀ * (g i / D i)) ≤ modelCost L (fun i => -c * (g i / D i)) := by
    intro c c₀ h1 h2 h3
    rw [hcau, hcau]
    have hg2 : 0 < ‖g‖ ^ 2 := by positivity
    have key : c * (1 - c / (2 * al)) ≤ c₀ * (1 - c₀ / (2 * al)) := by
      have hal : al ≠ 0 := ne_of_gt fal
      have e : c₀ * (1 - c₀ / (2 * al)) - c * (1 - c / (2 * al)) =
          (c₀ - c) * (2 * al - c₀ - c) / (2 * al) := by
        field_simp
        ring
      have : 0 ≤ (c₀ - c) * (2 * al - c₀ - c) / (2 * al) := by
        apply div_nonneg _ (by linarith)
        rcases h3 with h3 | h3
        · exact mul_nonneg (by linarith) (by linarith)
        · rw [h3]
          nlinarith [sq_nonneg (al - c)]
      linarith
    nlinarith
  by_cases hfit : ‖(vec fun i => -(D i * y i) : E n)‖ ≤ s.strat.radius
  · left
    refine ⟨mu, y, m1, m2, f4, ?_⟩
    have := sp.2.2.2.1 hfit
    ext i
    rw [hsi i, this]
    have := ne_of_gt (fd i)
    simp only [PiLp.neg_apply]
    field_simp
  right
  intro c hc
  by_cases h2 : s.strat.radius ≤ ‖g‖ * al
  · have e : doglegStep s.strat.radius al g (vec fun i => -(D i * y i) : E n) =
        ((-(s.strat.radius / ‖g‖)) • g, s.strat.radius) := by
      unfold doglegStep; rw [if_neg hfit, if_pos h2]
    have est : st.ofLp = fun i => -(s.strat.radius / ‖g‖) * (g i / D i) := by
      funext i
      rw [hsi i, ← hss, e]
      simp only [PiLp.smul_apply, smul_eq_mul]
      ring
    rw [est]
    have hrg : 0 < s.strat.radius / ‖g‖ := div_pos hok.pos fpos
    refine hbest c _ (le_of_lt hrg) ((div_le_iff₀ fpos).2 (by linarith [h2, mul_comm al ‖g‖])) (Or.inl ?_)
    rw [norm_smul, Real.norm_eq_abs] at hc
    rw [le_div_iff₀ fpos]
    exact le_trans (mul_le_mul_of_nonneg_right (le_abs_self c) (norm_nonneg g)) hc
  · push Not at h2 hfit
    refine le_trans ?_ (hbest c al (le_of_lt fal) (le_refl _) (Or.inr rfl))
    have hwn : ∀ u : Fin n → ℝ, weightedSq (fun i => D i ^ 2 * mu) u =
        mu * ‖(vec fun i => D i * u i : E n)‖ ^ 2 := by
      intro u
      rw [EuclideanSpace.norm_sq_eq, Finset.mul_sum]
      refine Finset.sum_congr rfl fun i _ => ?_
      simp only [Real.norm_eq_abs, sq_abs]
      ring
    have ha := hgn (fun i => -al * (g i / D i))
    rw [hwn, hwn] at ha
    have n1 : (vec fun i => D i * (-al * (g i / D i)) : E n) = -al • g := by
      ext i
      have := ne_of_gt (fd i)
      simp only [PiLp.smul_apply, smul_eq_mul]
      field_simp
    have n2 : (vec fun i => D i * (-y).ofLp i : E n) = vec fun i => -(D i * y i) := by
      ext i
      simp only [PiLp.neg_apply]
      ring
    rw [n1, n2, norm_smul, norm_neg, Real.norm_of_nonneg (le_of_lt fal)] at ha
    have hlt : (al * ‖g‖) ^ 2 < ‖(vec fun i => -(D i * y i) : E n)‖ ^ 2 := by
      have : al * ‖g‖ < ‖(vec fun i => -(D i * y i) : E n)‖ := by linarith [mul_comm al ‖g‖]
      have h0 : 0 ≤ al * ‖g‖ := by positivity
      nlinarith
    have hgn_le : modelCost L (-y).ofLp ≤ modelCost L (fun i => -al * (g i / D i)) := by
      have := mul_lt_mul_of_pos_left hlt m1
      linarith
    rcases sp.1 with ⟨t, t0, t1, e⟩ | ⟨t, t0, t1, e⟩
    · exfalso
      have hn1 := sp.2.2.2.2 hfit
      rw [e, norm_smul, norm_neg, norm_smul, Real.norm_of_nonneg t0,
        Real.norm_of_nonneg (le_of_lt fal)] at hn1
      have h0 : 0 ≤ al * ‖g‖ := by positivity
      nlinarith
    · have est : st.ofLp = fun i => (1 - t) * (-al * (g i / D i)) + t * (-y).ofLp i := by
        funext i
        rw [hsi i, e]
        have := ne_of_gt (fd i)
        simp only [PiLp.add_apply, PiLp.smul_apply, PiLp.neg_apply, smul_eq_mul]
        field_simp
      rw [est]
      refine le_trans (modelCost_convex L _ _ t t0 t1) ?_
      have := mul_le_mul_of_nonneg_left hgn_le t0
      linarith

end Ceres.Strategy
