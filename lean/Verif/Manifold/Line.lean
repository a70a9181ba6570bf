import Verif.Manifold.Sphere

/-! # The line manifold

A line is a pair of an origin and a direction. -/

namespace Ceres.Manifold

open Ceres.Rotation Matrix Filter Topology

noncomputable section

theorem snoc_zero_zero {n : ℕ} : snoc (0 : Vec n) 0 = 0 := by
  apply ext_head_last
  · rw [head_snoc]; rfl
  · rw [last_snoc]; rfl

theorem H_zero {n : ℕ} (x : Vec (n + 1)) : H x 0 = 0 := by
  have := H_smul 0 x 0
  rwa [zero_smul, zero_smul] at this

/-- `Plus`: the origin moves by the transformed step, the direction moves on its sphere. -/
theorem linePlus_eq {n : ℕ} (x : Vec (n + 1) × Vec (n + 1)) (delta : Vec n × Vec n) :
    linePlus x delta = (x.1 + H x.2 (snoc delta.1 0), spherePlus x.2 delta.2) := by
  obtain ⟨o, d⟩ := x
  obtain ⟨a, b⟩ := delta
  simp only [linePlus]
  by_cases h : norm2 b = 0
  · by_cases h2 : ∀ i, a i = 0
    · have : a = 0 := funext h2
      subst this
      rw [if_pos ⟨h, h2⟩, norm2_eq_zero.1 h, spherePlus_zero, snoc_zero_zero, H_zero, add_zero]
    · rw [if_neg (fun hh => h2 hh.2)]
      simp only [h, ne_eq, not_true_eq_false, if_false]
      rw [norm2_eq_zero.1 h, spherePlus_zero]
      rfl
  · rw [if_neg (fun hh => h hh.1)]
    simp only [spherePlus, ne_eq, h, not_false_eq_true, if_true, if_false]
    rfl

theorem lineMinus_eq {n : ℕ} (y x : Vec (n + 1) × Vec (n + 1)) :
    lineMinus y x = (head (H x.2 (y.1 - x.1)), sphereMinus y.2 x.2) := rfl

/-- **C43.** `Plus(x, 0) = x`, for every line. -/
theorem linePlus_zero {n : ℕ} (x : Vec (n + 1) × Vec (n + 1)) : linePlus x 0 = x := by
  rw [linePlus_eq]
  simp [snoc_zero_zero, H_zero, spherePlus_zero]

/-- **C43.** `Plus` keeps the length of the direction and moves the origin at a right angle to the
direction. -/
theorem linePlus_spec {n : ℕ} {x : Vec (n + 1) × Vec (n + 1)} (hx : Regular x.2)
    (delta : Vec n × Vec n) :
    norm2 (linePlus x delta).2 = norm2 x.2
      ∧ inner x.2 ((linePlus x delta).1 - x.1) = 0
      ∧ norm2 ((linePlus x delta).1 - x.1) = norm2 delta.1 := by
  rw [linePlus_eq]
  refine ⟨norm2_spherePlus hx _, ?_, ?_⟩
  · simp only [add_sub_cancel_left]
    have := inner_H hx x.2 (H x.2 (snoc delta.1 0))
    rw [← this, H_H hx, householder_self hx, inner_split, head_snoc, last_snoc, last_snoc]
    simp [inner]
  · simp only [add_sub_cancel_left]
    rw [norm2_H hx, norm2, squaredNorm_eq_inner, inner_split, head_snoc, last_snoc, mul_zero, add_zero,
      ← squaredNorm_eq_inner, norm2]

/-- **C43.** `Minus(Plus(x, delta), x) = delta` if the direction moves by less than `π`. -/
theorem lineMinus_plus {n : ℕ} {x : Vec (n + 1) × Vec (n + 1)} (hx : Regular x.2) (h0 : x.2 ≠ 0)
    {delta : Vec n × Vec n} (hd : norm2 delta.2 < Real.pi) : lineMinus (linePlus x delta) x = delta := by
  rw [lineMinus_eq, linePlus_eq]
  refine Prod.ext ?_ (sphereMinus_plus hx h0 hd)
  simp only [add_sub_cancel_left, H_H hx, head_snoc]

/-- **C43.** `Plus(x, Minus(y, x)) = y` for lines `y` with a direction of the same length, given by
an origin that differs from that of `x` at a right angle to the direction of `x`. -/
theorem linePlus_minus {n : ℕ} (hn : 1 ≤ n) {x y : Vec (n + 1) × Vec (n + 1)} (hx : Regular x.2)
    (h0 : x.2 ≠ 0) (hy : norm2 y.2 = norm2 x.2) (ho : inner x.2 (y.1 - x.1) = 0) :
    linePlus x (lineMinus y x) = y := by
  rw [linePlus_eq, lineMinus_eq]
  refine Prod.ext ?_ (spherePlus_minus hn hx h0 hy).1
  have hl : last (H x.2 (y.1 - x.1)) = 0 := by
    have := inner_H hx x.2 (y.1 - x.1)
    rw [ho, householder_self hx, inner_split, head_snoc, last_snoc] at this
    simp only [inner, Pi.zero_apply, zero_mul, Finset.sum_const_zero, zero_add] at this
    exact (mul_eq_zero.1 this).resolve_left fun h => h0 (norm2_eq_zero.1 h)
  have : snoc (head (H x.2 (y.1 - x.1))) 0 = H x.2 (y.1 - x.1) := by
    rw [← hl, snoc_head_last]
  simp only [this, H_H hx]
  abel

/-- **Finding.** Without the condition on the origins, `Plus(x, Minus(y, x))` need not even be the
same line as `y`: the origin of `y` is not on it. -/
theorem linePlus_minus_other_line :
    ∃ x y : Vec 2 × Vec 2, norm2 x.2 = 1 ∧ norm2 y.2 = 1 ∧ Regular x.2
      ∧ ∀ t : ℝ, y.1 ≠ (linePlus x (lineMinus y x)).1 + t • (linePlus x (lineMinus y x)).2 := by
  have hr : Regular (snoc (0 : Vec 1) 1) := by left; rw [head_snoc]; exact squaredNorm_eq_zero.2 rfl
  have n1 : norm2 (snoc (0 : Vec 1) 1) = 1 := by
    rw [norm2, squaredNorm_eq_inner, inner_split, head_snoc, last_snoc]; simp [inner]
  have n2 : norm2 (snoc ![(1 : ℝ)] 0) = 1 := by
    rw [norm2, squaredNorm_eq_inner, inner_split, head_snoc, last_snoc]; simp [inner]
  have h0 : snoc (0 : Vec 1) 1 ≠ 0 := by
    intro h; rw [h, norm2_zero] at n1; exact one_ne_zero n1.symm
  refine ⟨(0, snoc 0 1), (snoc 0 1, snoc ![1] 0), n1, n2, hr, fun t => ?_⟩
  rw [linePlus_eq, lineMinus_eq]
  have h1 : H (snoc (0 : Vec 1) 1) (snoc 0 1 - 0) = snoc 0 1 := by
    rw [sub_zero, householder_self hr, n1]
  have h2 : spherePlus (snoc (0 : Vec 1) 1) (sphereMinus (snoc ![1] 0) (snoc 0 1)) = snoc ![1] 0 :=
    (spherePlus_minus le_rfl hr h0 (by rw [n1, n2])).1
  simp only [h1, h2, head_snoc, snoc_zero_zero, H_zero]
  intro h
  have := congrArg last h
  rw [last_snoc] at this
  have h3 : (snoc ![(1 : ℝ)] 0 : Vec 2) 1 = 0 := rfl
  simp [last] at this
  simp [snoc] at this

/-! ## Jacobians -/

/-- The two halves as one vector, as in the buffer. -/
def flat {m : ℕ} (p : Vec m × Vec m) : Fin m ⊕ Fin m → ℝ := Sum.elim p.1 p.2

/-- The halves of a vector. -/
def unflat {m : ℕ} (v : Fin m ⊕ Fin m → ℝ) : Vec m × Vec m := (fun i => v (Sum.inl i), fun i => v (Sum.inr i))

/-- The derivative of `Plus(x, ·)` at zero: the block of the origin is not scaled by the length of
the direction. -/
theorem linePlus_hasFDerivAt_general {n : ℕ} {x : Vec (n + 1) × Vec (n + 1)} (hx : Regular x.2)
    (h0 : x.2 ≠ 0) :
    HasFDerivAt (fun d => flat (linePlus x (unflat d)))
      (asMap (Matrix.fromBlocks ((norm2 x.2)⁻¹ • spherePlusJacobian x.2) 0 0 (spherePlusJacobian x.2))) 0 := by
  have hn : norm2 x.2 ≠ 0 := fun h => h0 (norm2_eq_zero.1 h)
  rw [hasFDerivAt_pi']
  rintro (i | i)
  · have e : (fun d : Fin n ⊕ Fin n → ℝ => flat (linePlus x (unflat d)) (Sum.inl i))
        = fun d => ((ContinuousLinearMap.proj (Sum.inl i)).comp
          (asMap (Matrix.fromBlocks ((norm2 x.2)⁻¹ • spherePlusJacobian x.2) 0 0
            (spherePlusJacobian x.2)))) d + x.1 i := by
      funext d
      rw [linePlus_eq]
      simp only [flat, Sum.elim_inl, Pi.add_apply, ContinuousLinearMap.comp_apply,
        ContinuousLinearMap.proj_apply, asMap_apply, unflat]
      have h1 : (Matrix.fromBlocks ((norm2 x.2)⁻¹ • spherePlusJacobian x.2) 0 0
          (spherePlusJacobian x.2) *ᵥ d) (Sum.inl i)
          = (((norm2 x.2)⁻¹ • spherePlusJacobian x.2) *ᵥ fun j => d (Sum.inl j)) i := by
        simp [Matrix.mulVec, _root_.dotProduct]
      rw [h1, Matrix.smul_mulVec, spherePlusJacobian, plusJacobian_mulVec, smul_smul,
        inv_mul_cancel₀ hn, one_smul, add_comm]
    rw [e]
    exact (ContinuousLinearMap.hasFDerivAt _).add_const _
  · have e : (fun d : Fin n ⊕ Fin n → ℝ => flat (linePlus x (unflat d)) (Sum.inr i))
        = fun d => spherePlus x.2 (unflat d).2 i := by
      funext d; rw [linePlus_eq]; rfl
    rw [e]
    let L : (Fin n ⊕ Fin n → ℝ) →L[ℝ] Vec n :=
      ContinuousLinearMap.pi fun j => ContinuousLinearMap.proj (Sum.inr j)
    have h1 := ((ContinuousLinearMap.proj (R := ℝ) (φ := fun _ => ℝ) i).hasFDerivAt.comp
      (0 : Vec n) (spherePlus_hasFDerivAt hx))
    have h2 := HasFDerivAt.comp (g := (ContinuousLinearMap.proj (R := ℝ) (φ := fun _ => ℝ) i)
      ∘ spherePlus x.2) (f := L) (0 : Fin n ⊕ Fin n → ℝ) (by rw [map_zero]; exact h1) L.hasFDerivAt
    refine HasFDerivAt.congr_fderiv (f := (fun d => spherePlus x.2 (unflat d).2 i)) h2 ?_
    ext1 d
    simp [L, Matrix.mulVec, _root_.dotProduct]

/-- **C44.** For a line whose direction has length one, `PlusJacobian(x)` is the derivative of
`Plus(x, ·)` at zero. -/
theorem linePlus_hasFDerivAt_partial {n : ℕ} {x : Vec (n + 1) × Vec (n + 1)} (hx : Regular x.2)
    (h1 : norm2 x.2 = 1) :
    HasFDerivAt (fun d => flat (linePlus x (unflat d))) (asMap (linePlusJacobian x)) 0 := by
  have h0 : x.2 ≠ 0 := fun h => by rw [h, norm2_zero] at h1; exact one_ne_zero h1.symm
  have := linePlus_hasFDerivAt_general hx h0
  rwa [h1, inv_one, one_smul] at this

/-- **C44 (finding).** For every other direction, `PlusJacobian(x)` is *not* the derivative of
`Plus(x, ·)` at zero. -/
theorem linePlusJacobian_wrong {n : ℕ} (hn : 1 ≤ n) {x : Vec (n + 1) × Vec (n + 1)} (hx : Regular x.2)
    (h0 : x.2 ≠ 0) (h1 : norm2 x.2 ≠ 1) :
    ¬HasFDerivAt (fun d => flat (linePlus x (unflat d))) (asMap (linePlusJacobian x)) 0 := by
  have hn0 : norm2 x.2 ≠ 0 := fun h => h0 (norm2_eq_zero.1 h)
  intro h
  have h2 := h.unique (linePlus_hasFDerivAt_general hx h0)
  let e : Vec n := Pi.single ⟨0, hn⟩ 1
  have h3 := congrArg (fun L : (Fin n ⊕ Fin n → ℝ) →L[ℝ] (Fin (n + 1) ⊕ Fin (n + 1) → ℝ) => fun i => L (Sum.elim e 0) (Sum.inl i)) h2
  have h4 : spherePlusJacobian x.2 *ᵥ e = ((norm2 x.2)⁻¹ • spherePlusJacobian x.2) *ᵥ e := by
    funext i
    have := congrFun h3 i
    simpa [linePlusJacobian, Matrix.fromBlocks_mulVec, ← spherePlusJacobian.eq_def] using this
  rw [Matrix.smul_mulVec, spherePlusJacobian, plusJacobian_mulVec, smul_smul,
    inv_mul_cancel₀ hn0, one_smul] at h4
  have h5 := congrArg norm2 h4
  have he : norm2 (snoc e 0) = 1 := by
    rw [norm2, squaredNorm_eq_inner, inner_split, head_snoc, last_snoc]
    simp [inner, e, Pi.single_apply]
  rw [norm2_smul, norm2_H hx, he, abs_of_nonneg (norm2_nonneg _), mul_one] at h5
  exact h1 h5

theorem head_sub {n : ℕ} (x y : Vec (n + 1)) : head (x - y) = head x - head y := rfl

theorem H_sub {n : ℕ} (x y z : Vec (n + 1)) : H x (y - z) = H x y - H x z := by
  have := (Hmap x).map_sub y z
  exact this

/-- The derivative of `Minus(·, x)` at `x`. -/
theorem lineMinus_hasFDerivAt_general {n : ℕ} {x : Vec (n + 1) × Vec (n + 1)} (hx : Regular x.2)
    (h0 : x.2 ≠ 0) :
    HasFDerivAt (fun y => flat (lineMinus (unflat y) x))
      (asMap (Matrix.fromBlocks (norm2 x.2 • sphereMinusJacobian x.2) 0 0 (sphereMinusJacobian x.2)))
      (flat x) := by
  have hn : norm2 x.2 ≠ 0 := fun h => h0 (norm2_eq_zero.1 h)
  rw [hasFDerivAt_pi']
  rintro (i | i)
  · have e : (fun y : Fin (n + 1) ⊕ Fin (n + 1) → ℝ => flat (lineMinus (unflat y) x) (Sum.inl i))
        = fun y => ((ContinuousLinearMap.proj (Sum.inl i)).comp
          (asMap (Matrix.fromBlocks (norm2 x.2 • sphereMinusJacobian x.2) 0 0
            (sphereMinusJacobian x.2)))) y - head (H x.2 x.1) i := by
      funext y
      rw [lineMinus_eq]
      simp only [flat, Sum.elim_inl, ContinuousLinearMap.comp_apply,
        ContinuousLinearMap.proj_apply, asMap_apply, unflat]
      have h1 : (Matrix.fromBlocks (norm2 x.2 • sphereMinusJacobian x.2) 0 0
          (sphereMinusJacobian x.2) *ᵥ y) (Sum.inl i)
          = ((norm2 x.2 • sphereMinusJacobian x.2) *ᵥ fun j => y (Sum.inl j)) i := by
        simp [Matrix.mulVec, _root_.dotProduct]
      have h2 : ∀ (c : ℝ) (v : Vec (n + 1)), head (c • v) = c • head v := fun _ _ => rfl
      rw [h1, Matrix.smul_mulVec, sphereMinusJacobian, minusJacobian_mulVec, h2, smul_smul,
        mul_inv_cancel₀ hn, one_smul, H_sub, head_sub]
      rfl
    rw [e]
    exact (ContinuousLinearMap.hasFDerivAt _).sub_const _
  · have e : (fun y : Fin (n + 1) ⊕ Fin (n + 1) → ℝ => flat (lineMinus (unflat y) x) (Sum.inr i))
        = fun y => sphereMinus (unflat y).2 x.2 i := by
      funext y; rw [lineMinus_eq]; rfl
    rw [e]
    let L : (Fin (n + 1) ⊕ Fin (n + 1) → ℝ) →L[ℝ] Vec (n + 1) :=
      ContinuousLinearMap.pi fun j => ContinuousLinearMap.proj (Sum.inr j)
    have hL : L (flat x) = x.2 := by funext j; simp [L, flat]
    have h1 := ((ContinuousLinearMap.proj (R := ℝ) (φ := fun _ => ℝ) i).hasFDerivAt.comp
      x.2 (sphereMinus_hasFDerivAt hx h0))
    have h2 := HasFDerivAt.comp (g := (ContinuousLinearMap.proj (R := ℝ) (φ := fun _ => ℝ) i)
      ∘ fun y => sphereMinus y x.2) (f := L) (flat x) (by rw [hL]; exact h1) L.hasFDerivAt
    refine HasFDerivAt.congr_fderiv (f := fun y => sphereMinus (unflat y).2 x.2 i) h2 ?_
    ext1 d
    simp [L, Matrix.mulVec, _root_.dotProduct]

/-- **C44.** For a line whose direction has length one, `MinusJacobian(x)` is the derivative of
`Minus(·, x)` at `x`. -/
theorem lineMinus_hasFDerivAt_partial {n : ℕ} {x : Vec (n + 1) × Vec (n + 1)} (hx : Regular x.2)
    (h1 : norm2 x.2 = 1) :
    HasFDerivAt (fun y => flat (lineMinus (unflat y) x)) (asMap (lineMinusJacobian x)) (flat x) := by
  have h0 : x.2 ≠ 0 := fun h => by rw [h, norm2_zero] at h1; exact one_ne_zero h1.symm
  have := lineMinus_hasFDerivAt_general hx h0
  rwa [h1, one_smul] at this

/-- **C44.** `MinusJacobian(x) * PlusJacobian(x) = I`. -/
theorem lineMinusJacobian_mul {n : ℕ} {x : Vec (n + 1) × Vec (n + 1)} (hx : Regular x.2) (h0 : x.2 ≠ 0) :
    lineMinusJacobian x * linePlusJacobian x = 1 := by
  have := sphereMinusJacobian_mul hx h0
  simp only [sphereMinusJacobian, spherePlusJacobian] at this
  simp only [lineMinusJacobian, linePlusJacobian, Matrix.fromBlocks_multiply, this]
  simp

/-- The hypotheses are met by a line in space with a unit direction. -/
example : Regular (snoc (n := 2) ![3 / 5, 0] (4 / 5)) ∧ norm2 (snoc (n := 2) ![3 / 5, 0] (4 / 5)) = 1 := by
  constructor
  · right
    rw [head_snoc]
    norm_num [squaredNorm, eps, Fin.sum_univ_two]
  · rw [norm2, squaredNorm_eq_inner, inner_split, head_snoc, last_snoc]
    norm_num [inner, Fin.sum_univ_two]

end

end Ceres.Manifold
