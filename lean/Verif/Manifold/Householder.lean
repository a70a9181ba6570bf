import Verif.Manifold.Model

/-! # The Householder transformation

Specification: the map `y ↦ ApplyHouseholderVector(y, v, beta)` for `(v, beta)` of
`ComputeHouseholderVector(x)` is linear, keeps inner products, is its own inverse, and maps `x` to
`(0, …, 0, ‖x‖)`.  The code achieves this unless `0 < x_0² + … + x_{n-2}² ≤ epsilon`. -/

namespace Ceres.Manifold

open Matrix

noncomputable section

/-- The inner product. -/
def inner {n : ℕ} (x y : Vec n) : ℝ := ∑ i, x i * y i

theorem squaredNorm_eq_inner {n : ℕ} (x : Vec n) : squaredNorm x = inner x x := rfl

theorem squaredNorm_nonneg {n : ℕ} (x : Vec n) : 0 ≤ squaredNorm x :=
  Finset.sum_nonneg fun i _ => mul_self_nonneg (x i)

theorem norm2_nonneg {n : ℕ} (x : Vec n) : 0 ≤ norm2 x := Real.sqrt_nonneg _

theorem norm2_mul_self {n : ℕ} (x : Vec n) : norm2 x * norm2 x = squaredNorm x :=
  Real.mul_self_sqrt (squaredNorm_nonneg x)

theorem squaredNorm_eq_zero {n : ℕ} {x : Vec n} : squaredNorm x = 0 ↔ x = 0 := by
  constructor
  · intro h
    rw [squaredNorm, Finset.sum_eq_zero_iff_of_nonneg (fun i _ => mul_self_nonneg (x i))] at h
    funext i
    exact mul_self_eq_zero.1 (h i (Finset.mem_univ i))
  · rintro rfl
    simp [squaredNorm]

theorem norm2_eq_zero {n : ℕ} {x : Vec n} : norm2 x = 0 ↔ x = 0 := by
  rw [norm2, Real.sqrt_eq_zero (squaredNorm_nonneg x), squaredNorm_eq_zero]

theorem inner_add {n : ℕ} (x y z : Vec n) : inner x (y + z) = inner x y + inner x z := by
  simp [inner, mul_add, Finset.sum_add_distrib]

theorem inner_smul {n : ℕ} (c : ℝ) (x y : Vec n) : inner x (c • y) = c * inner x y := by
  simp [inner, Finset.mul_sum]; exact Finset.sum_congr rfl fun i _ => by ring

theorem inner_comm {n : ℕ} (x y : Vec n) : inner x y = inner y x := by
  simp [inner, mul_comm]

theorem inner_split {n : ℕ} (x y : Vec (n + 1)) :
    inner x y = inner (head x) (head y) + last x * last y := by
  simp [inner, head, last, Fin.sum_univ_castSucc]

@[simp] theorem head_snoc {n : ℕ} (h : Vec n) (l : ℝ) : head (snoc h l) = h := by
  funext i; simp [head, snoc]

@[simp] theorem last_snoc {n : ℕ} (h : Vec n) (l : ℝ) : last (snoc h l) = l := by
  simp [last, snoc]

theorem ext_head_last {n : ℕ} {x y : Vec (n + 1)} (h1 : head x = head y) (h2 : last x = last y) :
    x = y := by
  funext i
  refine Fin.lastCases h2 (fun j => congrFun h1 j) i

theorem snoc_head_last {n : ℕ} (x : Vec (n + 1)) : snoc (head x) (last x) = x :=
  ext_head_last (by simp) (by simp)

/-- The Householder map of `x`. -/
def H {n : ℕ} (x y : Vec (n + 1)) : Vec (n + 1) :=
  applyHouseholderVector y (computeHouseholderVector x).1 (computeHouseholderVector x).2

theorem apply_eq {n : ℕ} (y v : Vec n) (beta : ℝ) :
    applyHouseholderVector y v beta = y - (beta * inner v y) • v := by
  funext i
  simp [applyHouseholderVector, inner, mul_comm]

/-- A reflection: `beta ‖v‖² = 2`, or nothing to do. -/
def IsReflection {n : ℕ} (v : Vec n) (beta : ℝ) : Prop := beta = 0 ∨ beta * inner v v = 2

theorem IsReflection.involutive {n : ℕ} {v : Vec n} {beta : ℝ} (h : IsReflection v beta) (y : Vec n) :
    applyHouseholderVector (applyHouseholderVector y v beta) v beta = y := by
  simp only [apply_eq]
  rcases h with rfl | h
  · simp
  · have e : inner v (y - (beta * inner v y) • v) = inner v y - beta * inner v y * inner v v := by
      rw [sub_eq_add_neg, inner_add, ← neg_smul, inner_smul]; ring
    rw [e]
    have : beta * (inner v y - beta * inner v y * inner v v) = -(beta * inner v y) := by
      linear_combination (-beta * inner v y) * h
    rw [this]
    module

theorem IsReflection.inner_eq {n : ℕ} {v : Vec n} {beta : ℝ} (h : IsReflection v beta) (y z : Vec n) :
    inner (applyHouseholderVector y v beta) (applyHouseholderVector z v beta) = inner y z := by
  simp only [apply_eq]
  rcases h with rfl | h
  · simp
  · rw [sub_eq_add_neg z, inner_add, ← neg_smul, inner_smul, inner_comm _ z, inner_comm _ v,
      sub_eq_add_neg y, inner_add, inner_add, ← neg_smul, inner_smul, inner_smul,
      inner_comm z y, inner_comm z v]
    linear_combination (beta * inner v y * inner v z) * h

/-- The points for which the code computes a reflection. -/
def Regular {n : ℕ} (x : Vec (n + 1)) : Prop :=
  squaredNorm (head x) = 0 ∨ eps < squaredNorm (head x)

theorem eps_pos : 0 < eps := by unfold eps; positivity

theorem pivot_eq {p s mu : ℝ} (hs : 0 < s) (hmu : mu * mu = p * p + s) (hmu0 : 0 ≤ mu) :
    (if p ≤ 0 then p - mu else -s / (p + mu)) = p - mu ∧ p - mu < 0 ∧ 0 < mu := by
  have h0 : 0 < mu := by
    rcases hmu0.lt_or_eq with h | h
    · exact h
    · exfalso; rw [← h] at hmu; nlinarith [mul_self_nonneg p]
  have h1 : p < mu := by
    by_contra h
    push Not at h
    nlinarith
  refine ⟨?_, by linarith, h0⟩
  split_ifs with h
  · rfl
  · push Not at h
    rw [div_eq_iff (by linarith)]
    linear_combination hmu

/-- **C43.** For regular `x` the vector and the factor describe a reflection. -/
theorem householder_isReflection {n : ℕ} {x : Vec (n + 1)} (hx : Regular x) :
    IsReflection (computeHouseholderVector x).1 (computeHouseholderVector x).2 := by
  simp only [computeHouseholderVector]
  rcases hx with h | h
  · rw [if_pos (by rw [h]; exact eps_pos.le)]
    by_cases hp : last x < 0
    · right
      simp only [if_pos hp]
      rw [inner_split]
      simp [← squaredNorm_eq_inner, h]
    · left
      simp [if_neg hp]
  · rw [if_neg (not_le.2 h)]
    right
    have hs : 0 < squaredNorm (head x) := eps_pos.trans h
    obtain ⟨h1, h2, h3⟩ := pivot_eq (p := last x) hs
      (Real.mul_self_sqrt (by nlinarith [mul_self_nonneg (last x)])) (Real.sqrt_nonneg _)
    simp only [h1]
    generalize last x - Real.sqrt (last x * last x + squaredNorm (head x)) = w at *
    have e : (fun i => head x i / w) = w⁻¹ • head x := by funext i; simp [div_eq_inv_mul]
    rw [inner_split, head_snoc, last_snoc, e, inner_smul, inner_comm, inner_smul,
      ← squaredNorm_eq_inner]
    have h4 : w ≠ 0 := h2.ne
    have h5 : squaredNorm (head x) + w * w ≠ 0 := by nlinarith [mul_self_nonneg w]
    field_simp

/-- **C43.** For regular `x` the map takes `x` to `‖x‖` times the last unit vector. -/
theorem householder_self {n : ℕ} {x : Vec (n + 1)} (hx : Regular x) :
    H x x = snoc 0 (norm2 x) := by
  have hn : norm2 x = Real.sqrt (last x * last x + squaredNorm (head x)) := by
    rw [norm2, squaredNorm_eq_inner, inner_split, squaredNorm_eq_inner, add_comm]
  simp only [H, computeHouseholderVector]
  rcases hx with h | h
  · have h0 : head x = 0 := squaredNorm_eq_zero.1 h
    have hn' : norm2 x = |last x| := by
      rw [hn, h, add_zero, ← sq, Real.sqrt_sq_eq_abs]
    rw [if_pos (by rw [h]; exact eps_pos.le), apply_eq]
    simp only
    rw [inner_split, head_snoc, last_snoc, h0]
    apply ext_head_last
    · funext i
      have := congrFun h0 i
      simp [head] at this
      by_cases hp : last x < 0 <;> simp [head, snoc, this, hp]
    · by_cases hp : last x < 0
      · rw [last_snoc, hn', abs_of_neg hp, if_pos hp]
        simp [last, snoc, inner]
        ring
      · rw [last_snoc, hn', abs_of_nonneg (not_lt.1 hp), if_neg hp]
        simp [last]
  · rw [if_neg (not_le.2 h)]
    have hs : 0 < squaredNorm (head x) := eps_pos.trans h
    have hmu := Real.mul_self_sqrt (show 0 ≤ last x * last x + squaredNorm (head x) by
      nlinarith [mul_self_nonneg (last x)])
    obtain ⟨h1, h2, h3⟩ := pivot_eq (p := last x) hs hmu (Real.sqrt_nonneg _)
    simp only [h1]
    rw [hn]
    generalize Real.sqrt (last x * last x + squaredNorm (head x)) = mu at *
    have hw : last x - mu ≠ 0 := h2.ne
    have h5 : squaredNorm (head x) + (last x - mu) * (last x - mu) ≠ 0 := by
      nlinarith [mul_self_nonneg (last x - mu)]
    have e : (fun i => head x i / (last x - mu)) = (last x - mu)⁻¹ • head x := by
      funext i; simp [div_eq_inv_mul]
    rw [e, apply_eq]
    have key : 2 * (last x - mu) * (last x - mu)
        / (squaredNorm (head x) + (last x - mu) * (last x - mu))
        * inner (snoc ((last x - mu)⁻¹ • head x) 1) x = last x - mu := by
      rw [inner_split, head_snoc, last_snoc, inner_comm, inner_smul, ← squaredNorm_eq_inner]
      field_simp
      linear_combination -hmu
    rw [key]
    apply ext_head_last
    · funext i
      simp [head, snoc]
      field_simp
      simp
    · simp [last, snoc]

theorem H_add {n : ℕ} (x y z : Vec (n + 1)) : H x (y + z) = H x y + H x z := by
  simp only [H, apply_eq, inner_add]
  module

theorem H_smul {n : ℕ} (c : ℝ) (x y : Vec (n + 1)) : H x (c • y) = c • H x y := by
  simp only [H, apply_eq, inner_smul]
  module

theorem H_H {n : ℕ} {x : Vec (n + 1)} (hx : Regular x) (y : Vec (n + 1)) : H x (H x y) = y :=
  (householder_isReflection hx).involutive y

theorem inner_H {n : ℕ} {x : Vec (n + 1)} (hx : Regular x) (y z : Vec (n + 1)) :
    inner (H x y) (H x z) = inner y z := (householder_isReflection hx).inner_eq y z

theorem norm2_H {n : ℕ} {x : Vec (n + 1)} (hx : Regular x) (y : Vec (n + 1)) :
    norm2 (H x y) = norm2 y := by
  rw [norm2, squaredNorm_eq_inner, inner_H hx, ← squaredNorm_eq_inner, norm2]

/-- The map takes the last unit vector to `x / ‖x‖`. -/
theorem H_last {n : ℕ} {x : Vec (n + 1)} (hx : Regular x) : norm2 x • H x (snoc 0 1) = x := by
  rw [← H_smul]
  have : norm2 x • snoc (0 : Vec n) 1 = snoc 0 (norm2 x) :=
    ext_head_last (by funext i; simp [head, snoc]) (by simp [last, snoc])
  rw [this, ← householder_self hx, H_H hx]

/-- `Regular` is met: every vector with a large head, and every multiple of the last unit vector. -/
example : Regular (snoc (n := 2) ![3, 4] 5) := by
  right
  rw [head_snoc]
  norm_num [squaredNorm, eps, Fin.sum_univ_two]

/-- **Finding.** If the head of `x` is tiny but not zero and the last entry is negative, the map is
not orthogonal: it does not keep the length of `(1, 0)`. -/
theorem householder_not_orthogonal :
    ∃ x y : Vec 2, norm2 x ≠ 0 ∧ norm2 (H x y) ≠ norm2 y := by
  refine ⟨snoc ![1 / 2 ^ 26] (-1), snoc ![1] 0, ?_, ?_⟩
  · rw [Ne, norm2_eq_zero]
    intro h
    have := congrArg last h
    norm_num [last] at this
    simp [snoc] at this
  · intro h
    have h2 : squaredNorm (H (snoc ![1 / 2 ^ 26] (-1)) (snoc ![(1 : ℝ)] 0)) = squaredNorm (snoc ![1] 0) := by
      rw [← norm2_mul_self, h, norm2_mul_self]
    have hv : computeHouseholderVector (snoc ![(1 : ℝ) / 2 ^ 26] (-1)) = (snoc ![1 / 2 ^ 26] 1, 2) := by
      simp only [computeHouseholderVector, head_snoc, last_snoc]
      rw [if_pos (by norm_num [squaredNorm, eps])]
      norm_num
    rw [H, hv, apply_eq] at h2
    simp only [squaredNorm_eq_inner, inner_split] at h2
    norm_num [head, last, snoc, inner] at h2
    rw [show Fin.last 1 = 1 from rfl] at h2
    norm_num at h2

end

end Ceres.Manifold
