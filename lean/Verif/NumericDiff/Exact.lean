import Verif.NumericDiff.Blocks
import Mathlib.Algebra.Polynomial.Taylor
import Mathlib.Analysis.Calculus.MeanValue
import Mathlib.Analysis.Calculus.Deriv.Polynomial
import Mathlib.Analysis.Calculus.Deriv.MeanValue
import Mathlib.Tactic.ComputeDegree
import Mathlib.Algebra.BigOperators.Field

/-! # How good the quotients are

`g` is a residual as a function of the differentiated parameter. -/

namespace Ceres.NumericDiff

noncomputable section

variable {m : ℕ}

/-- Along entry `j` of block `b` the functor is the total function `g`. -/
def Along (f : Functor m) (P : Params) (b j : ℕ) (g : Fin m → ℝ → ℝ) : Prop :=
  ∀ t, f (at' P b j t) = some fun i => g i t

variable {f : Functor m} {P : Params} {b j : ℕ} {g : Fin m → ℝ → ℝ} {h : ℝ} {d : Fin m → ℝ}

theorem IsCentral.eq (hg : Along f P b j g) (hd : IsCentral f P b j h d) (i : Fin m) :
    d i = (g i (P b j + h) - g i (P b j - h)) / (2 * h) := by
  obtain ⟨r, r', h1, h2, h3⟩ := hd
  rw [hg] at h1 h2
  rw [h3, ← Option.some.inj h1, ← Option.some.inj h2]

theorem IsForward.eq (hg : Along f P b j g) (hd : IsForward f P b j h d) (i : Fin m) :
    d i = (g i (P b j + h) - g i (P b j)) / h := by
  obtain ⟨r, r', h1, h2, h3⟩ := hd
  rw [← at_self P b j, hg] at h2
  rw [hg] at h1
  rw [h3, ← Option.some.inj h1, ← Option.some.inj h2]

/-- **Forward differences are exact on affine functions.** -/
theorem forward_exact (hg : Along f P b j g) (hh : h ≠ 0) (hd : IsForward f P b j h d) (i : Fin m)
    (c₀ c₁ : ℝ) (ha : ∀ t, g i t = c₀ + c₁ * t) : HasDerivAt (g i) (d i) (P b j) := by
  have : d i = c₁ := by
    rw [hd.eq hg, ha, ha]
    field_simp
    ring
  rw [this, show g i = fun t => c₀ + c₁ * t from funext ha]
  simpa using ((hasDerivAt_id (P b j)).const_mul c₁).const_add c₀

/-- **Central differences are exact on quadratics.** -/
theorem central_exact (hg : Along f P b j g) (hh : h ≠ 0) (hd : IsCentral f P b j h d) (i : Fin m)
    (c₀ c₁ c₂ : ℝ) (ha : ∀ t, g i t = c₀ + c₁ * t + c₂ * t ^ 2) : HasDerivAt (g i) (d i) (P b j) := by
  have : d i = c₁ + c₂ * (2 * P b j) := by
    rw [hd.eq hg, ha, ha]
    field_simp
    ring
  rw [this, show g i = fun t => c₀ + c₁ * t + c₂ * t ^ 2 from funext ha]
  have h1 := ((hasDerivAt_id (P b j)).const_mul c₁).const_add c₀
  have h2 := (hasDerivAt_pow 2 (P b j)).const_mul c₂
  refine (h1.add h2).congr_deriv ?_
  push_cast
  ring

/-- A forward difference is the derivative at a point within the step. -/
theorem forward_mean_value (hg : Along f P b j g) (hh : 0 < h) (hd : IsForward f P b j h d) (i : Fin m)
    (hdiff : Differentiable ℝ (g i)) :
    ∃ t ∈ Set.Ioo (P b j) (P b j + h), d i = deriv (g i) t := by
  obtain ⟨t, ht, e⟩ := exists_deriv_eq_slope (g i) (show P b j < P b j + h by linarith)
    hdiff.continuous.continuousOn hdiff.differentiableOn
  refine ⟨t, ht, ?_⟩
  rw [e, hd.eq hg]
  ring

/-- A central difference is the derivative at a point within the step. -/
theorem central_mean_value (hg : Along f P b j g) (hh : 0 < h) (hd : IsCentral f P b j h d) (i : Fin m)
    (hdiff : Differentiable ℝ (g i)) :
    ∃ t ∈ Set.Ioo (P b j - h) (P b j + h), d i = deriv (g i) t := by
  obtain ⟨t, ht, e⟩ := exists_deriv_eq_slope (g i) (show P b j - h < P b j + h by linarith)
    hdiff.continuous.continuousOn hdiff.differentiableOn
  refine ⟨t, ht, ?_⟩
  rw [e, hd.eq hg]
  congr 1
  ring

/-- If the derivative of `F` is bounded by that of `B`, so is `F`. -/
theorem bound_of_deriv {F F' B B' : ℝ → ℝ} {a : ℝ} (ha : 0 ≤ a) (hF : ∀ t, HasDerivAt F (F' t) t)
    (hB : ∀ t, HasDerivAt B (B' t) t) (hF0 : F 0 = 0) (hB0 : B 0 = 0)
    (hle : ∀ t, 0 ≤ t → t ≤ a → |F' t| ≤ B' t) : |F a| ≤ B a := by
  have := image_norm_le_of_norm_deriv_right_le_deriv_boundary (f := F) (f' := F') (a := 0) (b := a)
    (B := B) (B' := B') (fun t _ => (hF t).continuousAt.continuousWithinAt)
    (fun t _ => (hF t).hasDerivWithinAt) (by simp [hF0, hB0]) (fun t => hB t)
    (fun t ht => hle t ht.1 ht.2.le) (Set.right_mem_Icc.2 ha)
  exact this

/-- **The forward error is linear in the step**: at most `M h / 2` where the second derivative is bounded
by `M`. -/
theorem forward_error (hg : Along f P b j g) (hh : 0 < h) (hd : IsForward f P b j h d) (i : Fin m)
    (g' g'' : ℝ → ℝ) (h1 : ∀ t, HasDerivAt (g i) (g' t) t) (h2 : ∀ t, HasDerivAt g' (g'' t) t) (M : ℝ)
    (hM : ∀ t, P b j ≤ t → t ≤ P b j + h → |g'' t| ≤ M) : |d i - g' (P b j)| ≤ M / 2 * h := by
  set x := P b j
  have hshift : ∀ t, HasDerivAt (fun t : ℝ => x + t) 1 t := fun t => by
    simpa using (hasDerivAt_id t).const_add x
  have hK : ∀ a, 0 ≤ a → a ≤ h → |g' (x + a) - g' x| ≤ M * a := by
    intro a ha hah
    refine bound_of_deriv (F := fun t => g' (x + t) - g' x) (F' := fun t => g'' (x + t))
      (B := fun t => M * t) (B' := fun _ => M) ha (fun t => ?_) (fun t => ?_) (by simp) (by simp)
      (fun t h0 hta => hM _ (by linarith) (by linarith))
    · have := (h2 (x + t)).comp t (hshift t)
      simpa using this.sub_const (g' x)
    · simpa using (hasDerivAt_id t).const_mul M
  have hG : |g i (x + h) - g i x - h * g' x| ≤ M / 2 * h ^ 2 := by
    refine bound_of_deriv (F := fun t => g i (x + t) - g i x - t * g' x)
      (F' := fun t => g' (x + t) - g' x) (B := fun t => M / 2 * t ^ 2) (B' := fun t => M * t) hh.le
      (fun t => ?_) (fun t => ?_) (by simp) (by simp) (fun t h0 hth => hK t h0 hth)
    · have := ((h1 (x + t)).comp t (hshift t)).sub_const (g i x)
      refine (this.sub ((hasDerivAt_id t).mul_const (g' x))).congr_deriv ?_
      ring
    · have := (hasDerivAt_pow 2 t).const_mul (M / 2)
      refine this.congr_deriv ?_
      push_cast
      ring
  have e : d i - g' x = (g i (x + h) - g i x - h * g' x) / h := by
    rw [hd.eq hg]
    change (g i (x + h) - g i x) / h - g' x = _
    field_simp
  rw [e, abs_div, abs_of_pos hh, div_le_iff₀ hh]
  calc _ ≤ _ := hG
    _ = _ := by ring

/-- **The central error is quadratic in the step**: at most `M h² / 6` where the third derivative is
bounded by `M`. -/
theorem central_error (hg : Along f P b j g) (hh : 0 < h) (hd : IsCentral f P b j h d) (i : Fin m)
    (g' g'' g''' : ℝ → ℝ) (h1 : ∀ t, HasDerivAt (g i) (g' t) t) (h2 : ∀ t, HasDerivAt g' (g'' t) t)
    (h3 : ∀ t, HasDerivAt g'' (g''' t) t) (M : ℝ)
    (hM : ∀ t, P b j - h ≤ t → t ≤ P b j + h → |g''' t| ≤ M) :
    |d i - g' (P b j)| ≤ M / 6 * h ^ 2 := by
  set x := P b j
  have hup : ∀ t, HasDerivAt (fun t : ℝ => x + t) 1 t := fun t => by
    simpa using (hasDerivAt_id t).const_add x
  have hdn : ∀ t, HasDerivAt (fun t : ℝ => x - t) (-1) t := fun t => by
    simpa using (hasDerivAt_id t).const_sub x
  have hL : ∀ a, 0 ≤ a → a ≤ h → |g'' (x + a) - g'' (x - a)| ≤ 2 * M * a := by
    intro a ha hah
    refine bound_of_deriv (F := fun t => g'' (x + t) - g'' (x - t))
      (F' := fun t => g''' (x + t) + g''' (x - t)) (B := fun t => 2 * M * t) (B' := fun _ => 2 * M) ha
      (fun t => ?_) (fun t => ?_) (by simp) (by simp) (fun t h0 hta => ?_)
    · have := ((h3 (x + t)).comp t (hup t)).sub ((h3 (x - t)).comp t (hdn t))
      refine this.congr_deriv ?_
      ring
    · simpa using (hasDerivAt_id t).const_mul (2 * M)
    · refine (abs_add_le _ _).trans ?_
      have := hM (x + t) (by linarith) (by linarith)
      have := hM (x - t) (by linarith) (by linarith)
      linarith
  have hK : ∀ a, 0 ≤ a → a ≤ h → |g' (x + a) + g' (x - a) - 2 * g' x| ≤ M * a ^ 2 := by
    intro a ha hah
    refine bound_of_deriv (F := fun t => g' (x + t) + g' (x - t) - 2 * g' x)
      (F' := fun t => g'' (x + t) - g'' (x - t)) (B := fun t => M * t ^ 2) (B' := fun t => 2 * M * t) ha
      (fun t => ?_) (fun t => ?_) (by simp; ring) (by simp)
      (fun t h0 hta => hL t h0 (by linarith))
    · have := (((h2 (x + t)).comp t (hup t)).add ((h2 (x - t)).comp t (hdn t))).sub_const (2 * g' x)
      refine this.congr_deriv ?_
      ring
    · have := (hasDerivAt_pow 2 t).const_mul M
      refine this.congr_deriv ?_
      push_cast
      ring
  have hG : |g i (x + h) - g i (x - h) - 2 * h * g' x| ≤ M / 3 * h ^ 3 := by
    refine bound_of_deriv (F := fun t => g i (x + t) - g i (x - t) - 2 * t * g' x)
      (F' := fun t => g' (x + t) + g' (x - t) - 2 * g' x) (B := fun t => M / 3 * t ^ 3)
      (B' := fun t => M * t ^ 2) hh.le
      (fun t => ?_) (fun t => ?_) (by simp) (by simp) (fun t h0 hth => hK t h0 hth)
    · have := (((h1 (x + t)).comp t (hup t)).sub ((h1 (x - t)).comp t (hdn t))).sub
        (((hasDerivAt_id t).const_mul 2).mul_const (g' x))
      refine this.congr_deriv ?_
      ring
    · have := (hasDerivAt_pow 3 t).const_mul (M / 3)
      refine this.congr_deriv ?_
      push_cast
      ring
  have e : d i - g' x = (g i (x + h) - g i (x - h) - 2 * h * g' x) / (2 * h) := by
    rw [hd.eq hg]
    change (g i (x + h) - g i (x - h)) / (2 * h) - g' x = _
    field_simp
  rw [e, abs_div, abs_of_pos (by linarith : (0 : ℝ) < 2 * h), div_le_iff₀ (by linarith)]
  calc _ ≤ _ := hG
    _ = _ := by ring

/-! ## Ridders' method -/

/-- The weight of the term `h^(2p)` after `k` extrapolations. -/
def weight (s : ℝ) (p : ℕ) : ℕ → ℝ
  | 0 => 1
  | k + 1 => weight s p k * ((s ^ (2 * (k + 1)) - s ^ (2 * p)) / (s ^ (2 * (k + 1)) - 1))

theorem weight_zero (s : ℝ) (hs : ∀ q, 1 ≤ q → s ^ (2 * q) ≠ 1) (k : ℕ) : weight s 0 k = 1 := by
  induction k with
  | zero => rfl
  | succ k ih =>
    rw [weight, ih, mul_zero, pow_zero, div_self (sub_ne_zero.2 (hs (k + 1) (by omega))), mul_one]

theorem weight_kill (s : ℝ) {p : ℕ} (hp : 1 ≤ p) (k : ℕ) (hk : p ≤ k) : weight s p k = 0 := by
  induction k with
  | zero => omega
  | succ k ih =>
    rw [weight]
    by_cases h : p ≤ k
    · rw [ih h, zero_mul]
    · have : p = k + 1 := by omega
      subst this
      simp

theorem romberg_even (s h₀ : ℝ) (hs0 : s ≠ 0) (hs : ∀ q, 1 ≤ q → s ^ (2 * q) ≠ 1)
    (first : ℕ → Fin m → ℝ) (i : Fin m) (N : ℕ) (c : ℕ → ℝ) (n : ℕ)
    (hfirst : ∀ r ≤ n, first r i = ∑ p ∈ Finset.range N, c p * (h₀ / s ^ r) ^ (2 * p)) (k : ℕ) :
    ∀ r, k ≤ r → r ≤ n → romberg s first r k i
      = ∑ p ∈ Finset.range N, c p * weight s p k * (h₀ / s ^ r) ^ (2 * p) := by
  induction k with
  | zero =>
    intro r _ hr
    simp only [romberg, hfirst r hr, weight, mul_one]
  | succ k ih =>
    intro r hkr hr
    have hne : s ^ (2 * (k + 1)) - 1 ≠ 0 := sub_ne_zero.2 (hs (k + 1) (by omega))
    simp only [romberg]
    rw [ih r (by omega) hr, ih (r - 1) (by omega) (by omega), Finset.mul_sum,
      ← Finset.sum_sub_distrib, Finset.sum_div]
    refine Finset.sum_congr rfl fun p _ => ?_
    have hstep : h₀ / s ^ (r - 1) = s * (h₀ / s ^ r) := by
      obtain ⟨r', rfl⟩ : ∃ r', r = r' + 1 := ⟨r - 1, by omega⟩
      rw [Nat.add_sub_cancel, pow_succ]
      field_simp
    rw [hstep, mul_pow, weight]
    field_simp

open Polynomial in
/-- The symmetric difference quotient of a polynomial is an even polynomial in the step whose constant
term is the derivative. -/
theorem central_even (q : ℝ[X]) (K : ℕ) (hq : q.natDegree ≤ 2 * K + 2) (x h : ℝ) (hh : h ≠ 0) :
    (q.eval (x + h) - q.eval (x - h)) / (2 * h)
      = ∑ p ∈ Finset.range (K + 1), (taylor x q).coeff (2 * p + 1) * h ^ (2 * p) := by
  have e : ∀ t, q.eval (x + t) = ∑ n ∈ Finset.range (2 * (K + 1) + 1), (taylor x q).coeff n * t ^ n := by
    intro t
    rw [← Polynomial.eval_eq_sum_range' (p := taylor x q) (n := 2 * (K + 1) + 1)
      (by rw [natDegree_taylor]; omega), taylor_eval, add_comm]
  have key : ∀ M : ℕ, (∑ n ∈ Finset.range (2 * M + 1), (taylor x q).coeff n * h ^ n)
      - (∑ n ∈ Finset.range (2 * M + 1), (taylor x q).coeff n * (-h) ^ n)
      = (∑ p ∈ Finset.range M, (taylor x q).coeff (2 * p + 1) * h ^ (2 * p)) * (2 * h) := by
    intro M
    induction M with
    | zero => simp
    | succ M ih =>
      rw [show 2 * (M + 1) + 1 = 2 * M + 1 + 1 + 1 by ring, Finset.sum_range_succ, Finset.sum_range_succ,
        Finset.sum_range_succ (fun n => (taylor x q).coeff n * (-h) ^ n) (2 * M + 1 + 1),
        Finset.sum_range_succ (fun n => (taylor x q).coeff n * (-h) ^ n) (2 * M + 1),
        Finset.sum_range_succ _ M, add_mul, ← ih]
      have o1 : (-h) ^ (2 * M + 1) = -(h ^ (2 * M + 1)) := Odd.neg_pow ⟨M, rfl⟩ h
      have o2 : (-h) ^ (2 * M + 1 + 1) = h ^ (2 * M + 1 + 1) := Even.neg_pow ⟨M + 1, by ring⟩ h
      rw [o1, o2]
      ring
  rw [sub_eq_add_neg x h, e, e, key, mul_div_assoc, div_self (by simpa using hh), mul_one]

/-- **An entry of the Romberg tableau after `k` extrapolations is exact on polynomials of degree at most
`2 k + 2`.** -/
theorem romberg_exact (hg : Along f P b j g) (i : Fin m) (q : Polynomial ℝ)
    (hq : ∀ t, g i t = q.eval t) (s h₀ : ℝ) (hs0 : s ≠ 0) (hs : ∀ q, 1 ≤ q → s ^ (2 * q) ≠ 1)
    (hh : h₀ ≠ 0) (first : ℕ → Fin m → ℝ) (r k : ℕ) (hkr : k ≤ r) (hdeg : q.natDegree ≤ 2 * k + 2)
    (hfirst : ∀ r' ≤ r, IsCentral f P b j (h₀ / s ^ r') (first r')) :
    HasDerivAt (g i) (romberg s first r k i) (P b j) := by
  have hd : HasDerivAt (g i) (q.derivative.eval (P b j)) (P b j) := by
    rw [show g i = fun t => q.eval t from funext hq]
    exact q.hasDerivAt _
  refine hd.congr_deriv ?_
  rw [romberg_even s h₀ hs0 hs first i (k + 1) (fun p => (Polynomial.taylor (P b j) q).coeff (2 * p + 1)) r
    (fun r' hr' => ?_) k r hkr le_rfl, Finset.sum_range_succ']
  · rw [Finset.sum_eq_zero, zero_add, weight_zero s hs]
    · simp [Polynomial.taylor_coeff_one]
    · intro p hp
      rw [weight_kill s (by omega) k (by have := Finset.mem_range.1 hp; omega)]
      ring
  · rw [(hfirst r' hr').eq hg, hq, hq]
    exact central_even q k hdeg _ _ (div_ne_zero hh (pow_ne_zero _ hs0))

/-- **Ridders' method is exact on quadratics**, whichever entry of the tableau it settles on. -/
theorem ridders_exact (hg : Along f P b j g) (i : Fin m) (c₀ c₁ c₂ : ℝ)
    (ha : ∀ t, g i t = c₀ + c₁ * t + c₂ * t ^ 2) {s h₀ : ℝ} {n : ℕ} (hs : 1 < s) (hh : h₀ ≠ 0)
    (hd : IsRidders f P b j s h₀ n d) : HasDerivAt (g i) (d i) (P b j) := by
  obtain ⟨first, r, k, hkr, _, hfirst, rfl⟩ := hd
  refine romberg_exact hg i (Polynomial.C c₀ + Polynomial.C c₁ * Polynomial.X
    + Polynomial.C c₂ * Polynomial.X ^ 2) (fun t => by simp [ha]) s h₀ (by linarith)
    (fun q hq => ne_of_gt (one_lt_pow₀ hs (by omega))) hh first r k hkr ?_ hfirst
  refine (Polynomial.natDegree_le_of_degree_le ?_).trans (by omega : 2 ≤ 2 * k + 2)
  compute_degree
  exact le_refl _

/-- **Every method is exact on affine functions**, and central differences and Ridders' method on
quadratics: any step, relative or minimal. -/
theorem quotient_exact (o : Options) (method : Method) (hg : Along f P b j g) (i : Fin m)
    (c₀ c₁ c₂ : ℝ) (ha : ∀ t, g i t = c₀ + c₁ * t + c₂ * t ^ 2) (hc : method = .forward → c₂ = 0)
    (heps : 0 < o.machineEpsilon) (hs : 1 < o.riddersStepShrinkFactor)
    (hd : IsQuotient o method f P b j d) : HasDerivAt (g i) (d i) (P b j) := by
  have hpos := stepSize_pos o method (P b j) heps
  cases method with
  | forward => exact forward_exact hg hpos.ne' hd i c₀ c₁ (fun t => by rw [ha, hc rfl]; ring)
  | central => exact central_exact hg hpos.ne' hd i c₀ c₁ c₂ ha
  | ridders =>
    exact ridders_exact hg i c₀ c₁ c₂ ha hs
      (mul_pos hpos (pow_pos (by linarith) _)).ne' hd

/-- The hypotheses are met: a functor of two blocks, quadratic in the second entry of the first. -/
example : Along (m := 1) (fun P => some fun _ => P 0 1 ^ 2 * P 1 0 + P 0 0) (fun _ _ => 3) 0 1
    (fun _ t => 3 + 0 * t + 3 * t ^ 2) := by
  intro t
  simp [at']
  ring

end

end Ceres.NumericDiff
