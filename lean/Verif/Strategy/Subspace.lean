import Verif.Strategy.DoglegDescent
import Mathlib.Topology.Order.IntermediateValue
import Mathlib.Topology.Algebra.Polynomial

/-!
# C63: the subspace dogleg (dogleg_strategy.cc:266-515, 648-717)

Eigen's rank-revealing QR and the root finder are parameters: the first gives an orthonormal
basis of the plane of the gradient and the Gauss-Newton step, the second a list that contains
every real root of the polynomial it is given (and, as in the code, may contain the real parts
of complex roots).
-/
namespace Ceres.Strategy

open Ceres.TrustRegion

/-! ### Model -/

/-- `subspace_B_` and `subspace_g_`. -/
structure Sub where
  b00 : ℝ
  b01 : ℝ
  b10 : ℝ
  b11 : ℝ
  g0 : ℝ
  g1 : ℝ

/-- `subspace_B_.determinant()`. -/
def Sub.det (S : Sub) : ℝ := S.b00 * S.b11 - S.b01 * S.b10

/-- `subspace_B_.trace()`. -/
def Sub.tr (S : Sub) : ℝ := S.b00 + S.b11

/-- `MakePolynomialForBoundaryConstrainedProblem` (dogleg_strategy.cc:419-438): coefficients from
the highest power down. -/
def Sub.polynomial (S : Sub) (radius : ℝ) : List ℝ :=
  let r2 := radius * radius
  let a0 := S.b11 * S.g0 - S.b01 * S.g1
  let a1 := -S.b10 * S.g0 + S.b00 * S.g1
  [r2,
   2 * r2 * S.tr,
   r2 * (S.tr * S.tr + 2 * S.det) - (S.g0 ^ 2 + S.g1 ^ 2),
   -2 * (S.g0 * a0 + S.g1 * a1 - r2 * S.det * S.tr),
   r2 * S.det * S.det - (a0 ^ 2 + a1 ^ 2)]

/-- Value of a polynomial given by its coefficients from the highest power down. -/
def horner (p : List ℝ) (y : ℝ) : ℝ := p.foldl (fun acc c => acc * y + c) 0

/-- `ComputeSubspaceStepFromRoot` (dogleg_strategy.cc:448-452).  `none` when the matrix is
singular: the division then gives infinite or undefined entries, which the caller never selects
(line 504 is false for NaN, line 507 is false for infinite entries). -/
noncomputable def Sub.stepFromRoot (S : Sub) (y : ℝ) : Option (ℝ × ℝ) :=
  let d := (S.b00 + y) * (S.b11 + y) - S.b01 * S.b10
  if d = 0 then none
  else some (-((S.b11 + y) * S.g0 - S.b01 * S.g1) / d, -(-S.b10 * S.g0 + (S.b00 + y) * S.g1) / d)

/-- `EvaluateSubspaceModel` (dogleg_strategy.cc:456-458). -/
noncomputable def Sub.evaluate (S : Sub) (x : ℝ × ℝ) : ℝ :=
  1 / 2 * (x.1 * (S.b00 * x.1 + S.b01 * x.2) + x.2 * (S.b10 * x.1 + S.b11 * x.2)) +
    (S.g0 * x.1 + S.g1 * x.2)

/-- Euclidean norm in the plane. -/
noncomputable def norm2 (x : ℝ × ℝ) : ℝ := Real.sqrt (x.1 ^ 2 + x.2 ^ 2)

/-- One turn of the loop of `FindMinimumOnTrustRegionBoundary` (dogleg_strategy.cc:497-512).  The
state is `none` before the first valid root, where `minimum_value` is the largest double, taken
to be above every value. -/
noncomputable def Sub.consider (S : Sub) (radius : ℝ) (best : Option (ℝ × (ℝ × ℝ))) (y : ℝ) :
    Option (ℝ × (ℝ × ℝ)) :=
  match S.stepFromRoot y with
  | none => best
  | some x =>
    if 0 < norm2 x then
      let f := S.evaluate ((radius / norm2 x) * x.1, (radius / norm2 x) * x.2)
      match best with
      | none => some (f, x)
      | some (v, z) => if f < v then some (f, x) else some (v, z)
    else best

/-- `FindMinimumOnTrustRegionBoundary` (dogleg_strategy.cc:473-515): `none` is the return value
false. -/
noncomputable def Sub.findMinimum (S : Sub) (findRoots : List ℝ → Option (List ℝ)) (radius : ℝ) :
    Option (ℝ × ℝ) :=
  match findRoots (S.polynomial radius) with
  | none => none
  | some roots => (roots.foldl (S.consider radius) none).map (·.2)

variable {V W : Type} [NormedAddCommGroup V] [InnerProductSpace ℝ V] [NormedAddCommGroup W]
  [InnerProductSpace ℝ W]

/-- `ComputeSubspaceModel`, rank two (dogleg_strategy.cc:699-714), for the scaled Jacobian `A` and
basis `u0`, `u1`. -/
noncomputable def subspaceModel (A : V →ₗ[ℝ] W) (g u0 u1 : V) : Sub where
  b00 := inner ℝ (A u0) (A u0)
  b01 := inner ℝ (A u0) (A u1)
  b10 := inner ℝ (A u1) (A u0)
  b11 := inner ℝ (A u1) (A u1)
  g0 := inner ℝ u0 g
  g1 := inner ℝ u1 g

/-- `ComputeSubspaceDoglegStep` (dogleg_strategy.cc:266-366): scaled step and recorded norm. -/
noncomputable def subspaceStep (A : V →ₗ[ℝ] W) (findRoots : List ℝ → Option (List ℝ))
    (radius alpha : ℝ) (g b : V) (oneDim : Bool) (u0 u1 : V) : V × ℝ :=
  if ‖b‖ ≤ radius then (b, ‖b‖)
  else if oneDim then ((-(radius / ‖g‖)) • g, radius)
  else
    let S := subspaceModel A g u0 u1
    match S.findMinimum findRoots radius with
    | none => doglegStep radius alpha g b
    | some x =>
      let gm : ℝ × ℝ := (S.b00 * x.1 + S.b01 * x.2 + S.g0, S.b10 * x.1 + S.b11 * x.2 + S.g1)
      if -(x.1 * gm.1 + x.2 * gm.2) / (norm2 x * norm2 gm) < 99 / 100 then
        doglegStep radius alpha g b
      else (x.1 • u0 + x.2 • u1, radius)

/-! ### The plane -/

/-- Symmetric positive semidefinite. -/
structure Sub.Psd (S : Sub) : Prop where
  sym : S.b01 = S.b10
  b00 : 0 ≤ S.b00
  b11 : 0 ≤ S.b11
  det : 0 ≤ S.det

theorem Sub.horner_eq (S : Sub) (hs : S.b01 = S.b10) (r y : ℝ) :
    horner (S.polynomial r) y =
      r ^ 2 * ((S.b00 + y) * (S.b11 + y) - S.b01 * S.b10) ^ 2 -
      (((S.b11 + y) * S.g0 - S.b01 * S.g1) ^ 2 + (-S.b10 * S.g0 + (S.b00 + y) * S.g1) ^ 2) := by
  simp only [Sub.polynomial, horner, List.foldl, Sub.det, Sub.tr]
  rw [hs]
  ring

theorem Sub.step_solves {S : Sub} {y : ℝ} {x : ℝ × ℝ} (h : S.stepFromRoot y = some x) :
    (S.b00 + y) * x.1 + S.b01 * x.2 = -S.g0 ∧ S.b10 * x.1 + (S.b11 + y) * x.2 = -S.g1 := by
  unfold Sub.stepFromRoot at h
  simp only at h
  split at h
  · cases h
  · rename_i hd
    simp only [Option.some.injEq] at h
    subst h
    generalize hD : (S.b00 + y) * (S.b11 + y) - S.b01 * S.b10 = d at hd
    constructor
    · field_simp
      linear_combination (-S.g0) * hD
    · field_simp
      linear_combination (-S.g1) * hD

theorem Sub.psd_pos {S : Sub} (h : S.Psd) {y : ℝ} (hy : 0 < y) :
    0 < (S.b00 + y) * (S.b11 + y) - S.b01 * S.b10 := by
  have := h.det
  unfold Sub.det at this
  nlinarith [h.b00, h.b11, mul_nonneg h.b00 (le_of_lt hy), mul_nonneg h.b11 (le_of_lt hy), mul_pos hy hy]

/-- Positive semidefiniteness as a quadratic form. -/
theorem Sub.psd_quad {S : Sub} (h : S.Psd) (u v : ℝ) :
    0 ≤ u * (S.b00 * u + S.b01 * v) + v * (S.b10 * u + S.b11 * v) := by
  have hd := h.det
  unfold Sub.det at hd
  rw [h.sym] at hd ⊢
  rcases h.b00.lt_or_eq with hp | hz
  · have : 0 ≤ S.b00 * (u * (S.b00 * u + S.b10 * v) + v * (S.b10 * u + S.b11 * v)) := by
      have e : S.b00 * (u * (S.b00 * u + S.b10 * v) + v * (S.b10 * u + S.b11 * v)) =
          (S.b00 * u + S.b10 * v) ^ 2 + (S.b00 * S.b11 - S.b10 * S.b10) * v ^ 2 := by ring
      rw [e]
      exact add_nonneg (sq_nonneg _) (mul_nonneg hd (sq_nonneg _))
    exact nonneg_of_mul_nonneg_right this hp
  · rw [← hz] at hd ⊢
    have h10 : S.b10 = 0 := by
      have : S.b10 * S.b10 ≤ 0 := by linarith
      nlinarith [mul_self_nonneg S.b10, mul_self_eq_zero.1 (le_antisymm this (mul_self_nonneg _))]
    rw [h10]
    nlinarith [mul_nonneg h.b11 (mul_self_nonneg v)]

/-- A stationary point with nonnegative multiplier on the boundary minimises the model over the
disk, uniquely if the multiplier is positive. -/
theorem Sub.stationary_min {S : Sub} (h : S.Psd) {y r : ℝ} (hy : 0 < y) {x : ℝ × ℝ}
    (e0 : (S.b00 + y) * x.1 + S.b01 * x.2 = -S.g0)
    (e1 : S.b10 * x.1 + (S.b11 + y) * x.2 = -S.g1) (hx : x.1 ^ 2 + x.2 ^ 2 = r ^ 2) (z : ℝ × ℝ)
    (hz : z.1 ^ 2 + z.2 ^ 2 ≤ r ^ 2) :
    S.evaluate x ≤ S.evaluate z ∧ (S.evaluate z ≤ S.evaluate x → z = x) := by
  have hq := Sub.psd_quad h (z.1 - x.1) (z.2 - x.2)
  have hsym := h.sym
  have key : S.evaluate z - S.evaluate x =
      1 / 2 * ((z.1 - x.1) * (S.b00 * (z.1 - x.1) + S.b01 * (z.2 - x.2)) +
        (z.2 - x.2) * (S.b10 * (z.1 - x.1) + S.b11 * (z.2 - x.2))) +
      1 / 2 * y * ((z.1 - x.1) ^ 2 + (z.2 - x.2) ^ 2) +
      1 / 2 * y * (x.1 ^ 2 + x.2 ^ 2 - (z.1 ^ 2 + z.2 ^ 2)) := by
    have g0 : S.g0 = -((S.b00 + y) * x.1 + S.b01 * x.2) := by linarith
    have g1 : S.g1 = -(S.b10 * x.1 + (S.b11 + y) * x.2) := by linarith
    unfold Sub.evaluate
    rw [g0, g1, hsym]
    ring
  have h1 : 0 ≤ 1 / 2 * y * (x.1 ^ 2 + x.2 ^ 2 - (z.1 ^ 2 + z.2 ^ 2)) :=
    mul_nonneg (by linarith) (by linarith)
  have h2 : 0 ≤ 1 / 2 * y * ((z.1 - x.1) ^ 2 + (z.2 - x.2) ^ 2) :=
    mul_nonneg (by linarith) (add_nonneg (sq_nonneg _) (sq_nonneg _))
  refine ⟨by linarith, fun hle => ?_⟩
  have h3 : 1 / 2 * y * ((z.1 - x.1) ^ 2 + (z.2 - x.2) ^ 2) = 0 := by linarith
  have h4 : (z.1 - x.1) ^ 2 + (z.2 - x.2) ^ 2 = 0 := by
    rcases mul_eq_zero.1 h3 with h | h
    · linarith
    · exact h
  have h5 : (z.1 - x.1) ^ 2 = 0 := by nlinarith [sq_nonneg (z.1 - x.1), sq_nonneg (z.2 - x.2)]
  have h6 : (z.2 - x.2) ^ 2 = 0 := by nlinarith [sq_nonneg (z.1 - x.1), sq_nonneg (z.2 - x.2)]
  have h7 := pow_eq_zero_iff (by norm_num) |>.1 h5
  have h8 := pow_eq_zero_iff (by norm_num) |>.1 h6
  exact Prod.ext (by linarith) (by linarith)

/-- A root with nonsingular matrix gives a point on the boundary. -/
theorem Sub.root_on_boundary {S : Sub} (hs : S.b01 = S.b10) {r y : ℝ}
    (hy : horner (S.polynomial r) y = 0) {x : ℝ × ℝ} (h : S.stepFromRoot y = some x) :
    x.1 ^ 2 + x.2 ^ 2 = r ^ 2 := by
  rw [Sub.horner_eq S hs] at hy
  unfold Sub.stepFromRoot at h
  simp only at h
  split at h
  · cases h
  · rename_i hd
    simp only [Option.some.injEq] at h
    subst h
    simp only
    rw [div_pow, div_pow, ← add_div, div_eq_iff (pow_ne_zero 2 hd)]
    nlinarith

/-- The polynomial is positive somewhere above every number. -/
theorem Sub.exists_pos {S : Sub} (h : S.Psd) {mu r : ℝ} (hmu : 0 < mu) (hr : 0 < r) :
    ∃ M, mu < M ∧ 0 < horner (S.polynomial r) M := by
  obtain ⟨M, hMdef⟩ : ∃ M, M = mu + 1 + S.b00 + S.b11 + |S.b01| + (|S.g0| + |S.g1| + 1) * 4 / r :=
    ⟨_, rfl⟩
  have hb := abs_nonneg S.b01
  have hG : 0 < |S.g0| + |S.g1| + 1 := by positivity
  have hGr : 0 < (|S.g0| + |S.g1| + 1) * 4 / r := by positivity
  have hM0 : mu < M := by rw [hMdef]; linarith [h.b00, h.b11]
  have hMp : 0 < M := lt_trans hmu hM0
  refine ⟨M, hM0, ?_⟩
  rw [Sub.horner_eq S h.sym]
  have hdet : M ^ 2 ≤ (S.b00 + M) * (S.b11 + M) - S.b01 * S.b10 := by
    have := h.det
    unfold Sub.det at this
    nlinarith [mul_nonneg h.b00 (le_of_lt hMp), mul_nonneg h.b11 (le_of_lt hMp)]
  have hM1 : S.b11 ≤ M := by rw [hMdef]; linarith [h.b00, h.b11]
  have hM2 : S.b00 ≤ M := by rw [hMdef]; linarith [h.b00, h.b11]
  have hM3 : |S.b01| ≤ M := by rw [hMdef]; linarith [h.b00, h.b11]
  have hM4 : (|S.g0| + |S.g1| + 1) * 4 / r < M := by rw [hMdef]; linarith [h.b00, h.b11]
  rw [div_lt_iff₀ hr] at hM4
  have a0 : |(S.b11 + M) * S.g0 - S.b01 * S.g1| ≤ 2 * M * (|S.g0| + |S.g1|) := by
    refine le_trans (abs_sub _ _) ?_
    rw [abs_mul, abs_mul, abs_of_nonneg (by linarith [h.b11] : 0 ≤ S.b11 + M)]
    nlinarith [abs_nonneg S.g0, abs_nonneg S.g1, mul_le_mul_of_nonneg_right hM1 (abs_nonneg S.g0),
      mul_le_mul_of_nonneg_right hM3 (abs_nonneg S.g1), mul_nonneg (le_of_lt hMp) (abs_nonneg S.g1)]
  have a1 : |-S.b10 * S.g0 + (S.b00 + M) * S.g1| ≤ 2 * M * (|S.g0| + |S.g1|) := by
    refine le_trans (abs_add_le _ _) ?_
    rw [abs_mul, abs_mul, abs_neg, abs_of_nonneg (by linarith [h.b00] : 0 ≤ S.b00 + M), ← h.sym]
    nlinarith [abs_nonneg S.g0, abs_nonneg S.g1, mul_le_mul_of_nonneg_right hM2 (abs_nonneg S.g1),
      mul_le_mul_of_nonneg_right hM3 (abs_nonneg S.g0), mul_nonneg (le_of_lt hMp) (abs_nonneg S.g0)]
  have s0 : ((S.b11 + M) * S.g0 - S.b01 * S.g1) ^ 2 ≤ (2 * M * (|S.g0| + |S.g1|)) ^ 2 := by
    rw [← sq_abs]
    exact pow_le_pow_left₀ (abs_nonneg _) a0 2
  have s1 : (-S.b10 * S.g0 + (S.b00 + M) * S.g1) ^ 2 ≤ (2 * M * (|S.g0| + |S.g1|)) ^ 2 := by
    rw [← sq_abs]
    exact pow_le_pow_left₀ (abs_nonneg _) a1 2
  have hd2 : (M ^ 2) ^ 2 ≤ ((S.b00 + M) * (S.b11 + M) - S.b01 * S.b10) ^ 2 :=
    pow_le_pow_left₀ (sq_nonneg _) hdet 2
  have hG0 : 0 ≤ |S.g0| + |S.g1| := by positivity
  have hlt : (4 * (|S.g0| + |S.g1|)) ^ 2 < (M * r) ^ 2 :=
    pow_lt_pow_left₀ (by linarith) (by positivity) (by norm_num)
  have hfin : 2 * (2 * M * (|S.g0| + |S.g1|)) ^ 2 < r ^ 2 * (M ^ 2) ^ 2 := by
    have e1 : 2 * (2 * M * (|S.g0| + |S.g1|)) ^ 2 = 1 / 2 * M ^ 2 * (4 * (|S.g0| + |S.g1|)) ^ 2 := by
      ring
    have e2 : r ^ 2 * (M ^ 2) ^ 2 = M ^ 2 * (M * r) ^ 2 := by ring
    rw [e1, e2]
    have hM2' : 0 < M ^ 2 := by positivity
    have q1 := mul_lt_mul_of_pos_left hlt hM2'
    have q2 := mul_nonneg (le_of_lt hM2') (sq_nonneg (4 * (|S.g0| + |S.g1|)))
    rw [mul_assoc]
    linarith
  have hr2 : 0 ≤ r ^ 2 := sq_nonneg _
  have := mul_le_mul_of_nonneg_left hd2 hr2
  linarith

/-- If the regularised Gauss-Newton step is longer than the radius, the polynomial has a root
above the regularisation. -/
theorem Sub.exists_root {S : Sub} (h : S.Psd) {mu r : ℝ} (hmu : 0 < mu) (hr : 0 < r)
    {x : ℝ × ℝ} (e0 : (S.b00 + mu) * x.1 + S.b01 * x.2 = -S.g0)
    (e1 : S.b10 * x.1 + (S.b11 + mu) * x.2 = -S.g1) (hx : r ^ 2 < x.1 ^ 2 + x.2 ^ 2) :
    ∃ y, mu < y ∧ horner (S.polynomial r) y = 0 := by
  have hneg : horner (S.polynomial r) mu < 0 := by
    rw [Sub.horner_eq S h.sym]
    have hd := Sub.psd_pos h hmu
    have g0 : S.g0 = -((S.b00 + mu) * x.1 + S.b01 * x.2) := by linarith
    have g1 : S.g1 = -(S.b10 * x.1 + (S.b11 + mu) * x.2) := by linarith
    have e : ((S.b11 + mu) * S.g0 - S.b01 * S.g1) ^ 2 +
        (-S.b10 * S.g0 + (S.b00 + mu) * S.g1) ^ 2 =
        ((S.b00 + mu) * (S.b11 + mu) - S.b01 * S.b10) ^ 2 * (x.1 ^ 2 + x.2 ^ 2) := by
      rw [g0, g1]
      ring
    rw [e]
    have hd2 : 0 < ((S.b00 + mu) * (S.b11 + mu) - S.b01 * S.b10) ^ 2 := by positivity
    nlinarith
  have hcont : Continuous (fun y => horner (S.polynomial r) y) := by
    simp only [Sub.polynomial, horner, List.foldl]
    fun_prop
  -- a point where the polynomial is positive
  have hpos := Sub.exists_pos h hmu hr
  obtain ⟨M, hM, hMpos⟩ := hpos
  have := intermediate_value_Ioo (le_of_lt hM) hcont.continuousOn
  obtain ⟨y, ⟨hy1, _⟩, hy2⟩ := this ⟨hneg, hMpos⟩
  exact ⟨y, hy1, hy2⟩

theorem norm2_sq (x : ℝ × ℝ) : norm2 x ^ 2 = x.1 ^ 2 + x.2 ^ 2 :=
  Real.sq_sqrt (add_nonneg (sq_nonneg _) (sq_nonneg _))

/-- What the loop selects. -/
theorem Sub.fold_spec (S : Sub) (r : ℝ) (roots : List ℝ) :
    (∀ v x, roots.foldl (S.consider r) none = some (v, x) →
      (∃ y ∈ roots, S.stepFromRoot y = some x) ∧ 0 < norm2 x ∧
      v = S.evaluate (r / norm2 x * x.1, r / norm2 x * x.2)) ∧
    (∀ y ∈ roots, ∀ x, S.stepFromRoot y = some x → 0 < norm2 x →
      ∃ v z, roots.foldl (S.consider r) none = some (v, z) ∧
        v ≤ S.evaluate (r / norm2 x * x.1, r / norm2 x * x.2)) := by
  induction roots using List.reverseRecOn with
  | nil => exact ⟨(fun v x h => by cases h), (fun y hy => by cases hy)⟩
  | append_singleton l y ih =>
    rw [List.foldl_append]
    simp only [List.foldl_cons, List.foldl_nil]
    generalize l.foldl (S.consider r) none = best at ih
    obtain ⟨i1, i2⟩ := ih
    unfold Sub.consider
    cases hs : S.stepFromRoot y with
    | none =>
      simp only
      refine ⟨fun v x h => ?_, fun y' hy' x hx hp => ?_⟩
      · obtain ⟨⟨y', hy', hy''⟩, h2⟩ := i1 v x h
        exact ⟨⟨y', List.mem_append_left _ hy', hy''⟩, h2⟩
      · rcases List.mem_append.1 hy' with hm | hm
        · exact i2 y' hm x hx hp
        · rw [List.mem_singleton.1 hm, hs] at hx; cases hx
    | some x0 =>
      simp only
      by_cases hp0 : 0 < norm2 x0
      · rw [if_pos hp0]
        cases best with
        | none =>
          simp only
          refine ⟨fun v x h => ?_, fun y' hy' x hx hp => ?_⟩
          · simp only [Option.some.injEq, Prod.mk.injEq] at h
            obtain ⟨h1, h2⟩ := h
            subst h2
            exact ⟨⟨y, by simp, hs⟩, hp0, h1.symm⟩
          · rcases List.mem_append.1 hy' with hm | hm
            · obtain ⟨v, z, h1, _⟩ := i2 y' hm x hx hp
              cases h1
            · rw [List.mem_singleton.1 hm, hs] at hx
              cases hx
              exact ⟨_, _, rfl, le_refl _⟩
        | some b =>
          obtain ⟨v0, z0⟩ := b
          simp only
          split
          · rename_i hlt
            refine ⟨fun v x h => ?_, fun y' hy' x hx hp => ?_⟩
            · simp only [Option.some.injEq, Prod.mk.injEq] at h
              obtain ⟨h1, h2⟩ := h
              subst h2
              exact ⟨⟨y, by simp, hs⟩, hp0, h1.symm⟩
            · refine ⟨_, _, rfl, ?_⟩
              rcases List.mem_append.1 hy' with hm | hm
              · obtain ⟨v, z, h1, h2⟩ := i2 y' hm x hx hp
                cases h1
                exact le_trans (le_of_lt hlt) h2
              · rw [List.mem_singleton.1 hm, hs] at hx
                cases hx
                exact le_refl _
          · rename_i hlt
            refine ⟨fun v x h => ?_, fun y' hy' x hx hp => ?_⟩
            · obtain ⟨⟨y', hy', hy''⟩, h2⟩ := i1 v x h
              exact ⟨⟨y', List.mem_append_left _ hy', hy''⟩, h2⟩
            · refine ⟨_, _, rfl, ?_⟩
              rcases List.mem_append.1 hy' with hm | hm
              · obtain ⟨v, z, h1, h2⟩ := i2 y' hm x hx hp
                cases h1
                exact h2
              · rw [List.mem_singleton.1 hm, hs] at hx
                cases hx
                exact not_lt.1 hlt
      · rw [if_neg hp0]
        refine ⟨fun v x h => ?_, fun y' hy' x hx hp => ?_⟩
        · obtain ⟨⟨y', hy', hy''⟩, h2⟩ := i1 v x h
          exact ⟨⟨y', List.mem_append_left _ hy', hy''⟩, h2⟩
        · rcases List.mem_append.1 hy' with hm | hm
          · exact i2 y' hm x hx hp
          · rw [List.mem_singleton.1 hm, hs] at hx
            cases hx
            exact absurd hp hp0

/-- **C63 (plane).**  If the regularised Gauss-Newton step is longer than the radius and is not
parallel to the gradient, and the root finder returns a list containing all real roots, the
point selected is on the boundary and is the unique minimiser of the model over the disk; the
first-order condition holds there with a positive multiplier. -/
theorem subspace_minimum (S : Sub) (h : S.Psd) (findRoots : List ℝ → Option (List ℝ))
    (mu r : ℝ) (hmu : 0 < mu) (hr : 0 < r) (b : ℝ × ℝ)
    (e0 : (S.b00 + mu) * b.1 + S.b01 * b.2 = -S.g0)
    (e1 : S.b10 * b.1 + (S.b11 + mu) * b.2 = -S.g1) (hb : r ^ 2 < b.1 ^ 2 + b.2 ^ 2)
    (hind : S.g0 * b.2 - S.g1 * b.1 ≠ 0) (roots : List ℝ)
    (hroots : findRoots (S.polynomial r) = some roots)
    (hall : ∀ y, horner (S.polynomial r) y = 0 → y ∈ roots) :
    ∃ x y, S.findMinimum findRoots r = some x ∧ 0 < y ∧
      (S.b00 + y) * x.1 + S.b01 * x.2 = -S.g0 ∧ S.b10 * x.1 + (S.b11 + y) * x.2 = -S.g1 ∧
      x.1 ^ 2 + x.2 ^ 2 = r ^ 2 ∧
      ∀ z : ℝ × ℝ, z.1 ^ 2 + z.2 ^ 2 ≤ r ^ 2 →
        S.evaluate x ≤ S.evaluate z ∧ (S.evaluate z ≤ S.evaluate x → z = x) := by
  obtain ⟨y, hy, hroot⟩ := Sub.exists_root h hmu hr e0 e1 hb
  have hy0 : 0 < y := lt_trans hmu hy
  have hd := Sub.psd_pos h hy0
  obtain ⟨x, hx⟩ : ∃ x, S.stepFromRoot y = some x := by
    unfold Sub.stepFromRoot
    simp only
    rw [if_neg (ne_of_gt hd)]
    exact ⟨_, rfl⟩
  obtain ⟨x0, x1⟩ := Sub.step_solves hx
  have hxr := Sub.root_on_boundary h.sym hroot hx
  have hmin := Sub.stationary_min h hy0 x0 x1 hxr
  have hxn : norm2 x = r := by
    unfold norm2
    rw [hxr, Real.sqrt_sq (le_of_lt hr)]
  obtain ⟨f1, f2⟩ := Sub.fold_spec S r roots
  obtain ⟨v, z, hz, hv⟩ := f2 y (hall y hroot) x hx (by rw [hxn]; exact hr)
  obtain ⟨⟨y', hy', hs'⟩, hzn, hvz⟩ := f1 v z hz
  have hproj : (r / norm2 x * x.1, r / norm2 x * x.2) = x := by
    rw [hxn, div_self (ne_of_gt hr), one_mul, one_mul]
  rw [hproj, hvz] at hv
  have hc : 0 < r / norm2 z := div_pos hr hzn
  have hzb : (r / norm2 z * z.1) ^ 2 + (r / norm2 z * z.2) ^ 2 = r ^ 2 := by
    have h1 := norm2_sq z
    have h2 : norm2 z ≠ 0 := ne_of_gt hzn
    rw [mul_pow, mul_pow, ← mul_add, ← h1, div_pow]
    field_simp
  have heq := (hmin (r / norm2 z * z.1, r / norm2 z * z.2) (le_of_eq hzb)).2 hv
  generalize r / norm2 z = c at hc heq
  have hz1 : c * z.1 = x.1 := congrArg Prod.fst heq
  have hz2 : c * z.2 = x.2 := congrArg Prod.snd heq
  obtain ⟨s0, s1⟩ := Sub.step_solves hs'
  -- the selected point is not scaled
  have hcross : x.1 * (S.b10 * x.1 + S.b11 * x.2) - x.2 * (S.b00 * x.1 + S.b01 * x.2) ≠ 0 := by
    intro hcr
    apply hind
    have hdmu := Sub.psd_pos h hmu
    have gb : S.g0 * b.2 - S.g1 * b.1 =
        b.1 * (S.b10 * b.1 + S.b11 * b.2) - b.2 * (S.b00 * b.1 + S.b01 * b.2) := by
      have g0 : S.g0 = -((S.b00 + mu) * b.1 + S.b01 * b.2) := by linarith
      have g1 : S.g1 = -(S.b10 * b.1 + (S.b11 + mu) * b.2) := by linarith
      rw [g0, g1]
      ring
    have gg : S.g0 * (S.b10 * S.g0 + S.b11 * S.g1) - S.g1 * (S.b00 * S.g0 + S.b01 * S.g1) = 0 := by
      have g0 : S.g0 = -((S.b00 + y) * x.1 + S.b01 * x.2) := by linarith
      have g1 : S.g1 = -(S.b10 * x.1 + (S.b11 + y) * x.2) := by linarith
      have e : S.g0 * (S.b10 * S.g0 + S.b11 * S.g1) - S.g1 * (S.b00 * S.g0 + S.b01 * S.g1) =
          ((S.b00 + y) * (S.b11 + y) - S.b01 * S.b10) *
          (x.1 * (S.b10 * x.1 + S.b11 * x.2) - x.2 * (S.b00 * x.1 + S.b01 * x.2)) := by
        rw [g0, g1]
        ring
      rw [e, hcr, mul_zero]
    have gg' : S.g0 * (S.b10 * S.g0 + S.b11 * S.g1) - S.g1 * (S.b00 * S.g0 + S.b01 * S.g1) =
        ((S.b00 + mu) * (S.b11 + mu) - S.b01 * S.b10) *
        (b.1 * (S.b10 * b.1 + S.b11 * b.2) - b.2 * (S.b00 * b.1 + S.b01 * b.2)) := by
      have g0 : S.g0 = -((S.b00 + mu) * b.1 + S.b01 * b.2) := by linarith
      have g1 : S.g1 = -(S.b10 * b.1 + (S.b11 + mu) * b.2) := by linarith
      rw [g0, g1]
      ring
    rw [gg'] at gg
    rcases mul_eq_zero.1 gg with h0 | h0
    · exact absurd h0 (ne_of_gt hdmu)
    · rw [gb]; exact h0
  have hc1 : c = 1 := by
    have k0 : (S.b00 + y') * x.1 + S.b01 * x.2 = -(c * S.g0) := by rw [← hz1, ← hz2]; linear_combination c * s0
    have k1 : S.b10 * x.1 + (S.b11 + y') * x.2 = -(c * S.g1) := by rw [← hz1, ← hz2]; linear_combination c * s1
    have : (c - 1) * (x.1 * (S.b10 * x.1 + S.b11 * x.2) - x.2 * (S.b00 * x.1 + S.b01 * x.2)) = 0 := by
      linear_combination (-x.2 * c) * x0 + (x.1 * c) * x1 + x.2 * k0 - x.1 * k1
    rcases mul_eq_zero.1 this with h0 | h0
    · linarith
    · exact absurd h0 hcross
  rw [hc1, one_mul] at hz1 hz2
  have hzx : z = x := Prod.ext hz1 hz2
  refine ⟨x, y, ?_, hy0, x0, x1, hxr, hmin⟩
  unfold Sub.findMinimum
  rw [hroots]
  simp only [hz, Option.map_some, hzx]

/-! ### The full space -/

/-- The quadratic model in scaled coordinates: `|A s|^2 / 2 + g . s`. -/
noncomputable def scaledModel (A : V →ₗ[ℝ] W) (g s : V) : ℝ :=
  ‖A s‖ ^ 2 / 2 + inner ℝ g s

/-- The basis computed by the QR decomposition: orthonormal, and the two vectors lie in its
span. -/
structure PlaneBasis (g b u0 u1 : V) : Prop where
  n0 : inner ℝ u0 u0 = (1 : ℝ)
  n1 : inner ℝ u1 u1 = (1 : ℝ)
  o01 : inner ℝ u0 u1 = (0 : ℝ)
  hg : g = (inner ℝ u0 g : ℝ) • u0 + (inner ℝ u1 g : ℝ) • u1
  hb : b = (inner ℝ u0 b : ℝ) • u0 + (inner ℝ u1 b : ℝ) • u1

theorem norm_comb {u0 u1 : V} (n0 : inner ℝ u0 u0 = (1 : ℝ)) (n1 : inner ℝ u1 u1 = (1 : ℝ))
    (o01 : inner ℝ u0 u1 = (0 : ℝ)) (a c : ℝ) : ‖a • u0 + c • u1‖ ^ 2 = a ^ 2 + c ^ 2 := by
  have o10 : inner ℝ u1 u0 = (0 : ℝ) := by rw [real_inner_comm]; exact o01
  rw [← real_inner_self_eq_norm_sq]
  simp only [inner_add_left, inner_add_right, inner_smul_left, inner_smul_right, n0, n1, o01, o10,
    conj_trivial]
  ring

/-- The plane model is the full model on the plane. -/
theorem subspaceModel_evaluate (A : V →ₗ[ℝ] W) {g b u0 u1 : V} (x : ℝ × ℝ) :
    (subspaceModel A g u0 u1).evaluate x = scaledModel A g (x.1 • u0 + x.2 • u1) := by
  unfold Sub.evaluate scaledModel subspaceModel
  rw [← real_inner_self_eq_norm_sq]
  simp only [map_add, map_smul, inner_add_left, inner_add_right, inner_smul_left, inner_smul_right,
    conj_trivial, real_inner_comm g]
  rw [real_inner_comm u0 g, real_inner_comm u1 g]
  ring

theorem subspaceModel_psd (A : V →ₗ[ℝ] W) (g u0 u1 : V) : (subspaceModel A g u0 u1).Psd where
  sym := real_inner_comm _ _
  b00 := real_inner_self_nonneg
  b11 := real_inner_self_nonneg
  det := by
    unfold Sub.det subspaceModel
    simp only
    have h := real_inner_mul_inner_self_le (A u0) (A u1)
    rw [real_inner_comm (A u0) (A u1)]
    linarith

/-- **C63.**  When the (regularised) Gauss-Newton step does not fit, the subspace dogleg step has
exactly the radius as its norm, and it minimises the quadratic model over all vectors of the
plane spanned by the gradient and the Gauss-Newton step that fit, uniquely.  This includes the
case where the two are parallel. -/
theorem subspace_step_optimal (A : V →ₗ[ℝ] W) (findRoots : List ℝ → Option (List ℝ))
    (radius alpha mu : ℝ) (g b : V) (oneDim : Bool) (u0 u1 : V)
    (hr : 0 < radius) (hmu : 0 < mu)
    (hgn : ∀ v, inner ℝ (A b) (A v) + mu * inner ℝ b v + inner ℝ g v = (0 : ℝ))
    (hfit : radius < ‖b‖)
    (h1 : oneDim = true → ∃ t : ℝ, b = t • g)
    (h2 : oneDim = false → PlaneBasis g b u0 u1 ∧ LinearIndependent ℝ ![g, b] ∧
      ∃ roots, findRoots ((subspaceModel A g u0 u1).polynomial radius) = some roots ∧
        ∀ y, horner ((subspaceModel A g u0 u1).polynomial radius) y = 0 → y ∈ roots) :
    let s := subspaceStep A findRoots radius alpha g b oneDim u0 u1
    s.2 = ‖s.1‖ ∧ ‖s.1‖ = radius ∧
    (∃ a c : ℝ, s.1 = a • g + c • b) ∧
    ∀ a c : ℝ, ‖a • g + c • b‖ ≤ radius →
      scaledModel A g s.1 ≤ scaledModel A g (a • g + c • b) ∧
      (scaledModel A g (a • g + c • b) ≤ scaledModel A g s.1 → a • g + c • b = s.1) := by
  intro s
  have hbne : b ≠ 0 := by
    intro h0; rw [h0, norm_zero] at hfit; linarith
  have hgne : g ≠ 0 := by
    intro h0
    have := hgn b
    rw [h0, inner_zero_left, add_zero, real_inner_self_eq_norm_sq, real_inner_self_eq_norm_sq] at this
    have hb2 : 0 < ‖b‖ ^ 2 := by positivity
    nlinarith [sq_nonneg ‖A b‖, mul_pos hmu hb2]
  have hgn0 : 0 < ‖g‖ := norm_pos_iff.2 hgne
  cases hO : oneDim with
  | true =>
    obtain ⟨t, ht⟩ := h1 hO
    have es : s = ((-(radius / ‖g‖)) • g, radius) := by
      simp only [s, subspaceStep]
      rw [if_neg (not_le.2 hfit), hO, if_pos rfl]
    have hnorm : ‖(-(radius / ‖g‖)) • g‖ = radius := by
      rw [norm_smul, norm_neg, norm_div, norm_norm, Real.norm_of_nonneg (le_of_lt hr),
        div_mul_cancel₀ _ (ne_of_gt hgn0)]
    rw [es]
    refine ⟨hnorm.symm, hnorm, ⟨-(radius / ‖g‖), 0, by simp⟩, fun a c hac => ?_⟩
    -- the Gauss-Newton step is a negative multiple of the gradient
    have hn := hgn g
    rw [ht, map_smul, inner_smul_left, inner_smul_left, real_inner_self_eq_norm_sq,
      real_inner_self_eq_norm_sq] at hn
    simp only [conj_trivial] at hn
    rw [ht, norm_smul, Real.norm_eq_abs] at hfit
    have hab : a • g + c • b = (a + c * t) • g := by rw [ht, smul_smul, ← add_smul]
    rw [hab] at hac ⊢
    generalize a + c * t = e at hac ⊢
    rw [norm_smul, Real.norm_eq_abs] at hac
    have hq : ∀ e : ℝ, scaledModel A g (e • g) = e ^ 2 * ‖A g‖ ^ 2 / 2 + e * ‖g‖ ^ 2 := by
      intro e
      unfold scaledModel
      rw [map_smul, norm_smul, inner_smul_right, real_inner_self_eq_norm_sq, mul_pow,
        Real.norm_eq_abs, sq_abs]
    rw [hq, hq]
    have hρ : 0 < radius / ‖g‖ := div_pos hr hgn0
    have hρe : |e| ≤ radius / ‖g‖ := (le_div_iff₀ hgn0).2 hac
    have hρt : radius / ‖g‖ < |t| := (div_lt_iff₀ hgn0).2 hfit
    have hG : 0 < ‖g‖ ^ 2 := by positivity
    have hS : 0 ≤ ‖A g‖ ^ 2 := sq_nonneg _
    generalize radius / ‖g‖ = ρ at *
    generalize ‖A g‖ ^ 2 = P at *
    generalize ‖g‖ ^ 2 = G at *
    have htneg : t < 0 := by
      by_contra hc
      push Not at hc
      nlinarith [mul_nonneg hc hS, mul_nonneg hc (le_of_lt (mul_pos hmu hG))]
    rw [abs_of_neg htneg] at hρt
    have hlo := neg_le_of_abs_le hρe
    have hhi := le_of_abs_le hρe
    -- slope at -ρ is still positive
    have hslope : 0 < G - ρ * P := by
      have h3 : 0 < mu * G := mul_pos hmu hG
      have h4 : t * P + mu * (t * G) + G = 0 := hn
      have h5 : 0 ≤ (-t - ρ) * P := mul_nonneg (by linarith) hS
      have h6 : 0 < -t * (mu * G) := mul_pos (by linarith) h3
      nlinarith
    have ediff : (e ^ 2 * P / 2 + e * G) - ((-ρ) ^ 2 * P / 2 + (-ρ) * G) =
        (e + ρ) * (G - ρ * P) + (e + ρ) ^ 2 * P / 2 := by ring
    have hA : 0 ≤ (e + ρ) * (G - ρ * P) := mul_nonneg (by linarith) (le_of_lt hslope)
    have hB : 0 ≤ (e + ρ) ^ 2 * P / 2 := by positivity
    refine ⟨by linarith, fun hle => ?_⟩
    have h0 : (e + ρ) * (G - ρ * P) = 0 := by linarith
    rcases mul_eq_zero.1 h0 with h7 | h7
    · have : e = -ρ := by linarith
      rw [this]
    · exact absurd h7 (ne_of_gt hslope)
  | false =>
    obtain ⟨pb, hli, roots, hroots, hall⟩ := h2 hO
    have hpsd := subspaceModel_psd A g u0 u1
    -- the Gauss-Newton step in the plane
    have hbA : ∀ v, inner ℝ (A b) (A v) =
        (inner ℝ u0 b : ℝ) * inner ℝ (A u0) (A v) + (inner ℝ u1 b : ℝ) * inner ℝ (A u1) (A v) := by
      intro v
      conv_lhs => rw [pb.hb]
      rw [map_add, map_smul, map_smul, inner_add_left, inner_smul_left, inner_smul_left]
      simp only [conj_trivial]
    have e0 : ((subspaceModel A g u0 u1).b00 + mu) * (inner ℝ u0 b : ℝ) +
        (subspaceModel A g u0 u1).b01 * (inner ℝ u1 b : ℝ) = -(subspaceModel A g u0 u1).g0 := by
      have := hgn u0
      rw [hbA] at this
      show ((inner ℝ (A u0) (A u0) : ℝ) + mu) * _ + (inner ℝ (A u0) (A u1) : ℝ) * _ = -(inner ℝ u0 g : ℝ)
      rw [real_inner_comm (A u0) (A u1), real_inner_comm u0 g] at *
      rw [real_inner_comm b u0] at *
      linarith
    have e1 : (subspaceModel A g u0 u1).b10 * (inner ℝ u0 b : ℝ) +
        ((subspaceModel A g u0 u1).b11 + mu) * (inner ℝ u1 b : ℝ) = -(subspaceModel A g u0 u1).g1 := by
      have := hgn u1
      rw [hbA] at this
      show (inner ℝ (A u1) (A u0) : ℝ) * _ + ((inner ℝ (A u1) (A u1) : ℝ) + mu) * _ = -(inner ℝ u1 g : ℝ)
      rw [real_inner_comm (A u0) (A u1), real_inner_comm u1 g] at *
      rw [real_inner_comm b u1] at *
      linarith
    have hbn : ‖b‖ ^ 2 = (inner ℝ u0 b : ℝ) ^ 2 + (inner ℝ u1 b : ℝ) ^ 2 := by
      conv_lhs => rw [pb.hb]
      exact norm_comb pb.n0 pb.n1 pb.o01 _ _
    have hind : (subspaceModel A g u0 u1).g0 * (inner ℝ u1 b : ℝ) -
        (subspaceModel A g u0 u1).g1 * (inner ℝ u0 b : ℝ) ≠ 0 := by
      intro hz
      have hz' : (inner ℝ u0 g : ℝ) * inner ℝ u1 b - (inner ℝ u1 g : ℝ) * inner ℝ u0 b = 0 := hz
      rw [LinearIndependent.pair_iff] at hli
      -- b0 g - g0 b = 0 and b1 g - g1 b = 0
      have k0 : (inner ℝ u0 b : ℝ) • g + (-(inner ℝ u0 g : ℝ)) • b = 0 := by
        have hg' := pb.hg
        have hb' := pb.hb
        generalize (inner ℝ u0 g : ℝ) = p0 at *
        generalize (inner ℝ u1 g : ℝ) = p1 at *
        generalize (inner ℝ u0 b : ℝ) = q0 at *
        generalize (inner ℝ u1 b : ℝ) = q1 at *
        have e : q0 • g + (-p0) • b = (-(p0 * q1 - p1 * q0)) • u1 := by
          rw [hg', hb']; module
        rw [e, hz', neg_zero, zero_smul]
      have k1 : (inner ℝ u1 b : ℝ) • g + (-(inner ℝ u1 g : ℝ)) • b = 0 := by
        have hg' := pb.hg
        have hb' := pb.hb
        generalize (inner ℝ u0 g : ℝ) = p0 at *
        generalize (inner ℝ u1 g : ℝ) = p1 at *
        generalize (inner ℝ u0 b : ℝ) = q0 at *
        generalize (inner ℝ u1 b : ℝ) = q1 at *
        have e : q1 • g + (-p1) • b = (p0 * q1 - p1 * q0) • u0 := by
          rw [hg', hb']; module
        rw [e, hz', zero_smul]
      have a0 := (hli _ _ k0).1
      have a1 := (hli _ _ k1).1
      apply hbne
      rw [pb.hb, a0, a1]
      simp
    obtain ⟨x, y, hx, hy, x0, x1, hxr, hmin⟩ := subspace_minimum (subspaceModel A g u0 u1) hpsd
      findRoots mu radius hmu hr (inner ℝ u0 b, inner ℝ u1 b) e0 e1
      (by rw [← hbn]; exact pow_lt_pow_left₀ hfit (le_of_lt hr) (by norm_num)) hind roots hroots hall
    have hcos : ¬ (-(x.1 * ((subspaceModel A g u0 u1).b00 * x.1 + (subspaceModel A g u0 u1).b01 * x.2 +
          (subspaceModel A g u0 u1).g0) + x.2 * ((subspaceModel A g u0 u1).b10 * x.1 +
          (subspaceModel A g u0 u1).b11 * x.2 + (subspaceModel A g u0 u1).g1)) /
        (norm2 x * norm2 ((subspaceModel A g u0 u1).b00 * x.1 + (subspaceModel A g u0 u1).b01 * x.2 +
          (subspaceModel A g u0 u1).g0, (subspaceModel A g u0 u1).b10 * x.1 +
          (subspaceModel A g u0 u1).b11 * x.2 + (subspaceModel A g u0 u1).g1)) < 99 / 100) := by
      have g0 : (subspaceModel A g u0 u1).b00 * x.1 + (subspaceModel A g u0 u1).b01 * x.2 +
          (subspaceModel A g u0 u1).g0 = -y * x.1 := by linarith
      have g1 : (subspaceModel A g u0 u1).b10 * x.1 + (subspaceModel A g u0 u1).b11 * x.2 +
          (subspaceModel A g u0 u1).g1 = -y * x.2 := by linarith
      rw [g0, g1]
      have hn1 : norm2 x = radius := by
        unfold norm2; rw [hxr, Real.sqrt_sq (le_of_lt hr)]
      have hn2 : norm2 (-y * x.1, -y * x.2) = y * radius := by
        unfold norm2
        have : (-y * x.1) ^ 2 + (-y * x.2) ^ 2 = (y * radius) ^ 2 := by
          rw [mul_pow y, ← hxr]; ring
        simp only
        rw [this, Real.sqrt_sq (by positivity)]
      have hnum : -(x.1 * (-y * x.1) + x.2 * (-y * x.2)) = y * radius ^ 2 := by
        rw [← hxr]; ring
      rw [hn1, hn2, hnum]
      have : y * radius ^ 2 / (radius * (y * radius)) = 1 := by field_simp
      rw [this]
      norm_num
    have es : s = (x.1 • u0 + x.2 • u1, radius) := by
      simp only [s, subspaceStep]
      rw [if_neg (not_le.2 hfit), hO, if_neg (by simp), hx]
      simp only
      rw [if_neg hcos]
    have hnorm : ‖x.1 • u0 + x.2 • u1‖ = radius := by
      have := norm_comb pb.n0 pb.n1 pb.o01 x.1 x.2
      rw [hxr] at this
      nlinarith [norm_nonneg (x.1 • u0 + x.2 • u1)]
    rw [es]
    refine ⟨hnorm.symm, hnorm, ?_, fun a c hac => ?_⟩
    · -- the plane is spanned by g and b
      have hdet := hind
      have hd : (inner ℝ u0 g : ℝ) * inner ℝ u1 b - (inner ℝ u1 g : ℝ) * inner ℝ u0 b ≠ 0 := hdet
      refine ⟨(x.1 * inner ℝ u1 b - x.2 * inner ℝ u0 b) /
          ((inner ℝ u0 g : ℝ) * inner ℝ u1 b - (inner ℝ u1 g : ℝ) * inner ℝ u0 b),
        ((inner ℝ u0 g : ℝ) * x.2 - (inner ℝ u1 g : ℝ) * x.1) /
          ((inner ℝ u0 g : ℝ) * inner ℝ u1 b - (inner ℝ u1 g : ℝ) * inner ℝ u0 b), ?_⟩
      have hg' := pb.hg
      have hb' := pb.hb
      generalize (inner ℝ u0 g : ℝ) = p0 at *
      generalize (inner ℝ u1 g : ℝ) = p1 at *
      generalize (inner ℝ u0 b : ℝ) = q0 at *
      generalize (inner ℝ u1 b : ℝ) = q1 at *
      rw [hg', hb']
      simp only [smul_add, smul_smul]
      have c0 : (x.1 * q1 - x.2 * q0) / (p0 * q1 - p1 * q0) * p0 +
          (p0 * x.2 - p1 * x.1) / (p0 * q1 - p1 * q0) * q0 = x.1 := by
        rw [div_mul_eq_mul_div, div_mul_eq_mul_div, ← add_div, div_eq_iff hd]
        ring
      have c1 : (x.1 * q1 - x.2 * q0) / (p0 * q1 - p1 * q0) * p1 +
          (p0 * x.2 - p1 * x.1) / (p0 * q1 - p1 * q0) * q1 = x.2 := by
        rw [div_mul_eq_mul_div, div_mul_eq_mul_div, ← add_div, div_eq_iff hd]
        ring
      generalize (x.1 * q1 - x.2 * q0) / (p0 * q1 - p1 * q0) = t0 at *
      generalize (p0 * x.2 - p1 * x.1) / (p0 * q1 - p1 * q0) = t1 at *
      show x.1 • u0 + x.2 • u1 = _
      rw [← c0, ← c1]
      module
    · have hz : a • g + c • b = (a * inner ℝ u0 g + c * inner ℝ u0 b : ℝ) • u0 +
          (a * inner ℝ u1 g + c * inner ℝ u1 b : ℝ) • u1 := by
        conv_lhs => rw [pb.hg, pb.hb]
        simp only [smul_add, smul_smul, add_smul]
        abel
      rw [hz] at hac ⊢
      have hzn := norm_comb pb.n0 pb.n1 pb.o01 (a * inner ℝ u0 g + c * inner ℝ u0 b : ℝ)
        (a * inner ℝ u1 g + c * inner ℝ u1 b : ℝ)
      have hm := hmin (a * inner ℝ u0 g + c * inner ℝ u0 b, a * inner ℝ u1 g + c * inner ℝ u1 b)
        (by
          rw [← hzn]
          exact pow_le_pow_left₀ (norm_nonneg _) hac 2)
      rw [subspaceModel_evaluate (b := b), subspaceModel_evaluate (b := b)] at hm
      refine ⟨hm.1, fun hle => ?_⟩
      have := hm.2 hle
      rw [← this]

/-- **C63 (fits).**  When the Gauss-Newton step fits it is taken, with its norm recorded. -/
theorem subspace_step_fits (A : V →ₗ[ℝ] W) (findRoots : List ℝ → Option (List ℝ))
    (radius alpha : ℝ) (g b : V) (oneDim : Bool) (u0 u1 : V) (hfit : ‖b‖ ≤ radius) :
    subspaceStep A findRoots radius alpha g b oneDim u0 u1 = (b, ‖b‖) := by
  unfold subspaceStep
  rw [if_pos hfit]

/-! ### The scaled problem of a linearization -/

variable {m n : Nat}

/-- The scaled Jacobian `J D^-1` (dogleg_strategy.cc:709-712). -/
noncomputable def scaledJacobian (L : Linearization m n) (D : Fin n → ℝ) : E n →ₗ[ℝ] E m where
  toFun v := vec fun k => ∑ i, L.J k i * (v i / D i)
  map_add' u v := by
    ext k
    simp only [PiLp.add_apply, add_div, mul_add, Finset.sum_add_distrib]
  map_smul' c v := by
    ext k
    simp only [PiLp.smul_apply, smul_eq_mul, RingHom.id_apply, Finset.mul_sum]
    exact Finset.sum_congr rfl fun i _ => by ring

/-- The scaled model is the linear model of the unscaled step, up to a constant. -/
theorem modelCost_scaled (a b : ℝ) (L : Linearization m n) (v : E n) :
    modelCost L (fun i => v i / doglegDiag a b L i) =
      modelCost L 0 + scaledModel (scaledJacobian L (doglegDiag a b L)) (doglegGradient a b L) v := by
  have e := modelCost_ray L (fun i => v i / doglegDiag a b L i) 1
  simp only [one_mul, one_pow] at e
  rw [e]
  unfold scaledModel
  rw [EuclideanSpace.norm_sq_eq]
  have h1 : ∑ k, ‖scaledJacobian L (doglegDiag a b L) v k‖ ^ 2 =
      ∑ k, (∑ i, L.J k i * (v i / doglegDiag a b L i)) ^ 2 := by
    refine Finset.sum_congr rfl fun k _ => ?_
    rw [Real.norm_eq_abs, sq_abs]
    rfl
  have h2 : inner ℝ (doglegGradient a b L) v =
      ∑ i, v i / doglegDiag a b L i * ∑ k, L.J k i * L.r k := by
    rw [PiLp.inner_apply]
    refine Finset.sum_congr rfl fun i _ => ?_
    show v i * ((∑ k, L.J k i * L.r k) / doglegDiag a b L i) = _
    ring
  rw [h1, h2]
  ring

/-- The Gauss-Newton step of an exact solve satisfies the scaled normal equations. -/
theorem gn_scaled {a b mu : ℝ} (ha : 0 < a) (hab : a ≤ b) (hmu : 0 < mu) (L : Linearization m n)
    (solve : Solver m n) (hsolve : SolvesExactly solve) (y : E n)
    (hy : solve L (fun i => doglegDiag a b L i * Real.sqrt mu) = .step y) (v : E n) :
    inner ℝ (scaledJacobian L (doglegDiag a b L) (vec fun i => -(doglegDiag a b L i * y i)))
        (scaledJacobian L (doglegDiag a b L) v) +
      mu * inner ℝ (vec fun i => -(doglegDiag a b L i * y i) : E n) v +
      inner ℝ (doglegGradient a b L) v = (0 : ℝ) := by
  have hd : ∀ i, 0 < doglegDiag a b L i := fun i =>
    Real.sqrt_pos.2 (lt_min (lt_max_of_lt_right ha) (lt_of_lt_of_le ha hab))
  obtain ⟨y', hy', hn⟩ := hsolve L _ (fun i =>
    ne_of_gt (mul_pos (hd i) (Real.sqrt_pos.2 hmu)))
  rw [hy] at hy'
  cases hy'
  have hw : ∀ i, ∑ k, L.J k i * (∑ j, L.J k j * (-y) j + L.r k) +
      doglegDiag a b L i ^ 2 * mu * (-y) i = 0 := by
    intro i
    have := hn i
    rw [mul_pow, Real.sq_sqrt (le_of_lt hmu)] at this
    simp only [PiLp.neg_apply, mul_neg, Finset.sum_neg_distrib, mul_add, Finset.sum_add_distrib]
    linarith
  have key := normal_dir hw (fun i => v i / doglegDiag a b L i)
  rw [PiLp.inner_apply, PiLp.inner_apply, PiLp.inner_apply]
  have h1 : ∀ k, scaledJacobian L (doglegDiag a b L) (vec fun i => -(doglegDiag a b L i * y i)) k =
      ∑ j, L.J k j * (-y) j := by
    intro k
    show ∑ i, L.J k i * (-(doglegDiag a b L i * y i) / doglegDiag a b L i) = _
    refine Finset.sum_congr rfl fun i _ => ?_
    have := ne_of_gt (hd i)
    simp only [PiLp.neg_apply]
    field_simp
  have h2 : ∀ k, scaledJacobian L (doglegDiag a b L) v k =
      ∑ i, L.J k i * (v i / doglegDiag a b L i) := fun _ => rfl
  have e1 : ∑ k, (inner ℝ (scaledJacobian L (doglegDiag a b L)
        (vec fun i => -(doglegDiag a b L i * y i)) k) (scaledJacobian L (doglegDiag a b L) v k) : ℝ) +
      ∑ i, (inner ℝ (doglegGradient a b L i) (v i) : ℝ) =
      ∑ k, (∑ i, L.J k i * (v i / doglegDiag a b L i)) * (∑ j, L.J k j * (-y) j + L.r k) := by
    simp only [h1, h2, mul_add, Finset.sum_add_distrib]
    congr 1
    simp only [Finset.sum_mul]
    rw [Finset.sum_comm]
    refine Finset.sum_congr rfl fun i _ => ?_
    show v i * ((∑ k, L.J k i * L.r k) / doglegDiag a b L i) = _
    rw [Finset.sum_div, Finset.mul_sum]
    exact Finset.sum_congr rfl fun k _ => by ring
  have e2 : mu * ∑ i, (inner ℝ ((vec fun i => -(doglegDiag a b L i * y i) : E n) i) (v i) : ℝ) =
      ∑ i, doglegDiag a b L i ^ 2 * mu * (-y) i * (v i / doglegDiag a b L i) := by
    rw [Finset.mul_sum]
    refine Finset.sum_congr rfl fun i _ => ?_
    have := ne_of_gt (hd i)
    show mu * (v i * -(doglegDiag a b L i * y i)) = _
    simp only [PiLp.neg_apply]
    field_simp
  rw [← e1, ← e2] at key
  linarith

/-- **C63 (the step returned to the minimizer).**  For the scaled problem of a linearization with
an exact linear solve: if the Gauss-Newton step does not fit, the subspace dogleg step, unscaled,
has the least model cost among the unscaled vectors of the plane that fit. -/
theorem subspace_dogleg_best {a b mu radius alpha : ℝ} (ha : 0 < a) (hab : a ≤ b) (hmu : 0 < mu)
    (hr : 0 < radius) (L : Linearization m n) (solve : Solver m n) (hsolve : SolvesExactly solve)
    (y : E n) (hy : solve L (fun i => doglegDiag a b L i * Real.sqrt mu) = .step y)
    (gn : E n) (hgn : gn = vec fun i => -(doglegDiag a b L i * y i)) (hfit : radius < ‖gn‖)
    (findRoots : List ℝ → Option (List ℝ)) (oneDim : Bool) (u0 u1 : E n)
    (h1 : oneDim = true → ∃ t : ℝ, gn = t • doglegGradient a b L)
    (h2 : oneDim = false → PlaneBasis (doglegGradient a b L) gn u0 u1 ∧
      LinearIndependent ℝ ![doglegGradient a b L, gn] ∧
      ∃ roots, findRoots ((subspaceModel (scaledJacobian L (doglegDiag a b L))
          (doglegGradient a b L) u0 u1).polynomial radius) = some roots ∧
        ∀ z, horner ((subspaceModel (scaledJacobian L (doglegDiag a b L))
          (doglegGradient a b L) u0 u1).polynomial radius) z = 0 → z ∈ roots) :
    let s := (subspaceStep (scaledJacobian L (doglegDiag a b L)) findRoots radius alpha
      (doglegGradient a b L) gn oneDim u0 u1).1
    ‖s‖ = radius ∧ ∀ p q : ℝ, ‖p • doglegGradient a b L + q • gn‖ ≤ radius →
      modelCost L (fun i => s i / doglegDiag a b L i) ≤
        modelCost L (fun i => (p • doglegGradient a b L + q • gn) i / doglegDiag a b L i) := by
  intro s
  subst hgn
  have := subspace_step_optimal (scaledJacobian L (doglegDiag a b L)) findRoots radius alpha mu
    (doglegGradient a b L) _ oneDim u0 u1 hr hmu (gn_scaled ha hab hmu L solve hsolve y hy) hfit h1 h2
  refine ⟨this.2.1, fun p q hpq => ?_⟩
  rw [modelCost_scaled, modelCost_scaled]
  have h3 := (this.2.2.2 p q hpq).1
  linarith

/-! ### Non-vacuity -/

/-- A root finder as required exists whenever the radius is positive. -/
theorem exists_root_finder (S : Sub) {r : ℝ} (hr : 0 < r) :
    ∃ roots : List ℝ, ∀ y, horner (S.polynomial r) y = 0 → y ∈ roots := by
  let q : Polynomial ℝ := (S.polynomial r).foldl (fun acc c => acc * Polynomial.X + Polynomial.C c) 0
  have hq : ∀ y, q.eval y = horner (S.polynomial r) y := by
    intro y
    simp [q, Sub.polynomial, horner]
  have hne : q ≠ 0 := by
    intro h0
    have gen : ∀ a b c d e : ℝ, ([a, b, c, d, e].foldl
        (fun acc c => acc * Polynomial.X + Polynomial.C c) (0 : Polynomial ℝ)).coeff 4 = a := by
      intro a b c d e
      simp [Polynomial.coeff_mul_X, Polynomial.coeff_C]
    have : q.coeff 4 = r * r := gen _ _ _ _ _
    rw [h0, Polynomial.coeff_zero] at this
    nlinarith
  refine ⟨q.roots.toList, fun y hy => ?_⟩
  rw [Multiset.mem_toList, Polynomial.mem_roots hne]
  show q.eval y = 0
  rw [hq, hy]

/-- The hypotheses of `subspace_minimum` are met by a concrete plane. -/
example : ∃ (S : Sub) (b : ℝ × ℝ), S.Psd ∧ (S.b00 + 1) * b.1 + S.b01 * b.2 = -S.g0 ∧
    S.b10 * b.1 + (S.b11 + 1) * b.2 = -S.g1 ∧ (1 : ℝ) ^ 2 < b.1 ^ 2 + b.2 ^ 2 ∧
    S.g0 * b.2 - S.g1 * b.1 ≠ 0 :=
  ⟨⟨1, 0, 0, 2, 3, 4⟩, (-3 / 2, -4 / 3), ⟨rfl, by norm_num, by norm_num, by norm_num [Sub.det]⟩,
    by norm_num, by norm_num, by norm_num, by norm_num⟩

end Ceres.Strategy
