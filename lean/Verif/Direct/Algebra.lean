import Verif.Direct.Spec
import Mathlib.Algebra.Order.BigOperators.Ring.Finset
import Mathlib.Tactic.Linarith

/-!
# The normal equations and the minimiser
-/
namespace Ceres.Direct

/-- The squares on the diagonal. -/
noncomputable def dsq (D : Option Vec) (j : ℕ) : ℝ :=
  match D with
  | none => 0
  | some d => d j ^ 2

/-- The matrix of the normal equations. -/
noncomputable def normalMat (m : ℕ) (E : Buf) (D : Option Vec) : Buf := fun i j =>
  ∑ k ∈ Finset.range m, E k i * E k j + if i = j then dsq D i else 0

theorem lsq_eq (m n : ℕ) (E : Buf) (b : Vec) (D : Option Vec) (x : Vec) :
    lsq m n E b D x = ∑ k ∈ Finset.range m, (∑ j ∈ Finset.range n, E k j * x j - b k) ^ 2 +
      ∑ j ∈ Finset.range n, dsq D j * x j ^ 2 := by
  unfold lsq dsq
  cases D with
  | none => simp
  | some d => simp [mul_pow]

theorem normalMat_mul (m n : ℕ) (E : Buf) (D : Option Vec) (x : Vec) {i : ℕ} (hi : i < n) :
    ∑ j ∈ Finset.range n, normalMat m E D i j * x j =
      ∑ k ∈ Finset.range m, E k i * (∑ j ∈ Finset.range n, E k j * x j) + dsq D i * x i := by
  unfold normalMat
  simp only [add_mul, Finset.sum_add_distrib]
  congr 1
  · simp only [Finset.sum_mul, Finset.mul_sum]
    rw [Finset.sum_comm]
    exact Finset.sum_congr rfl fun k _ => Finset.sum_congr rfl fun j _ => by ring
  · simp only [ite_mul, zero_mul]
    rw [Finset.sum_ite_eq, if_pos (Finset.mem_range.2 hi)]

/-- The quadratic form of the normal equations. -/
theorem normalMat_quad (m n : ℕ) (E : Buf) (D : Option Vec) (x : Vec) :
    ∑ i ∈ Finset.range n, ∑ j ∈ Finset.range n, x i * normalMat m E D i j * x j =
      ∑ k ∈ Finset.range m, (∑ j ∈ Finset.range n, E k j * x j) ^ 2 +
        ∑ j ∈ Finset.range n, dsq D j * x j ^ 2 := by
  have h1 : ∀ i ∈ Finset.range n, ∑ j ∈ Finset.range n, x i * normalMat m E D i j * x j =
      (∑ k ∈ Finset.range m, (x i * E k i) * (∑ j ∈ Finset.range n, E k j * x j)) + dsq D i * x i ^ 2 := by
    intro i hi
    have : ∑ j ∈ Finset.range n, x i * normalMat m E D i j * x j =
        x i * ∑ j ∈ Finset.range n, normalMat m E D i j * x j := by
      rw [Finset.mul_sum]; exact Finset.sum_congr rfl fun j _ => by ring
    rw [this, normalMat_mul m n E D x (Finset.mem_range.1 hi), mul_add, Finset.mul_sum]
    congr 1
    · exact Finset.sum_congr rfl fun k _ => by ring
    · ring
  rw [Finset.sum_congr rfl h1, Finset.sum_add_distrib, Finset.sum_comm]
  congr 1
  refine Finset.sum_congr rfl fun k _ => ?_
  rw [← Finset.sum_mul, sq]
  congr 1
  exact Finset.sum_congr rfl fun i _ => by ring

theorem dsq_nonneg (D : Option Vec) (j : ℕ) : 0 ≤ dsq D j := by
  unfold dsq
  cases D with
  | none => exact le_rfl
  | some d => exact sq_nonneg _

/-- **The normal equations** have the minimisers as solutions. -/
theorem minimises_of_normal {m n : ℕ} {E : Buf} {b : Vec} {D : Option Vec} {x : Vec}
    (h : Eqs n (normalMat m E D) x fun i => ∑ k ∈ Finset.range m, E k i * b k) : Minimises m n E b D x := by
  intro y
  rw [lsq_eq, lsq_eq]
  set ex : ℕ → ℝ := fun k => ∑ j ∈ Finset.range n, E k j * x j with hex
  set ey : ℕ → ℝ := fun k => ∑ j ∈ Finset.range n, E k j * y j with hey
  have hz : ∀ k, ey k - ex k = ∑ j ∈ Finset.range n, E k j * (y j - x j) := by
    intro k
    rw [hex, hey]
    simp only
    rw [← Finset.sum_sub_distrib]
    exact Finset.sum_congr rfl fun j _ => by ring
  -- the first order terms cancel
  have hlin : ∑ k ∈ Finset.range m, (ex k - b k) * (ey k - ex k) +
      ∑ j ∈ Finset.range n, dsq D j * x j * (y j - x j) = 0 := by
    have e1 : ∑ k ∈ Finset.range m, (ex k - b k) * (ey k - ex k) =
        ∑ j ∈ Finset.range n, (∑ k ∈ Finset.range m, E k j * (ex k - b k)) * (y j - x j) := by
      simp only [hz, Finset.mul_sum, Finset.sum_mul]
      rw [Finset.sum_comm]
      exact Finset.sum_congr rfl fun j _ => Finset.sum_congr rfl fun k _ => by ring
    rw [e1, ← Finset.sum_add_distrib]
    refine Finset.sum_eq_zero fun j hj => ?_
    have := h j (Finset.mem_range.1 hj)
    rw [normalMat_mul m n E D x (Finset.mem_range.1 hj)] at this
    have e2 : ∑ k ∈ Finset.range m, E k j * (ex k - b k) =
        ∑ k ∈ Finset.range m, E k j * ex k - ∑ k ∈ Finset.range m, E k j * b k := by
      rw [← Finset.sum_sub_distrib]; exact Finset.sum_congr rfl fun k _ => by ring
    have this' : ∑ k ∈ Finset.range m, E k j * ex k + dsq D j * x j = ∑ k ∈ Finset.range m, E k j * b k := this
    rw [e2, ← this']
    ring
  have hA : ∑ k ∈ Finset.range m, (ey k - b k) ^ 2 = ∑ k ∈ Finset.range m, (ex k - b k) ^ 2 +
      2 * ∑ k ∈ Finset.range m, (ex k - b k) * (ey k - ex k) + ∑ k ∈ Finset.range m, (ey k - ex k) ^ 2 := by
    rw [Finset.mul_sum, ← Finset.sum_add_distrib, ← Finset.sum_add_distrib]
    exact Finset.sum_congr rfl fun k _ => by ring
  have hB : ∑ j ∈ Finset.range n, dsq D j * y j ^ 2 = ∑ j ∈ Finset.range n, dsq D j * x j ^ 2 +
      2 * ∑ j ∈ Finset.range n, dsq D j * x j * (y j - x j) +
      ∑ j ∈ Finset.range n, dsq D j * (y j - x j) ^ 2 := by
    rw [Finset.mul_sum, ← Finset.sum_add_distrib, ← Finset.sum_add_distrib]
    exact Finset.sum_congr rfl fun k _ => by ring
  have h1 : 0 ≤ ∑ k ∈ Finset.range m, (ey k - ex k) ^ 2 := Finset.sum_nonneg fun _ _ => sq_nonneg _
  have h2 : 0 ≤ ∑ j ∈ Finset.range n, dsq D j * (y j - x j) ^ 2 :=
    Finset.sum_nonneg fun j _ => mul_nonneg (dsq_nonneg D j) (sq_nonneg _)
  have hA' : ∑ k ∈ Finset.range m, (∑ j ∈ Finset.range n, E k j * y j - b k) ^ 2 =
    ∑ k ∈ Finset.range m, (ey k - b k) ^ 2 := rfl
  rw [hA', hA, hB]
  linarith

/-- A regular problem has positive definite normal equations. -/
theorem posDef_normal {m n : ℕ} {E : Buf} {D : Option Vec} (h : Regular m n E D) :
    PosDef n (normalMat m E D) := by
  rintro x ⟨i, hi, hxi⟩
  rw [normalMat_quad]
  have h1 : 0 ≤ ∑ k ∈ Finset.range m, (∑ j ∈ Finset.range n, E k j * x j) ^ 2 :=
    Finset.sum_nonneg fun _ _ => sq_nonneg _
  have h2 : 0 ≤ ∑ j ∈ Finset.range n, dsq D j * x j ^ 2 :=
    Finset.sum_nonneg fun j _ => mul_nonneg (dsq_nonneg D j) (sq_nonneg _)
  by_contra hcon
  have e1 : ∑ k ∈ Finset.range m, (∑ j ∈ Finset.range n, E k j * x j) ^ 2 = 0 := by linarith
  have e2 : ∑ j ∈ Finset.range n, dsq D j * x j ^ 2 = 0 := by linarith
  refine hxi (h x ?_ ?_ i hi)
  · intro k hk
    have := (Finset.sum_eq_zero_iff_of_nonneg fun _ _ => sq_nonneg _).1 e1 k (Finset.mem_range.2 hk)
    exact pow_eq_zero_iff (two_ne_zero) |>.1 this
  · unfold Annihilates
    cases D with
    | none => trivial
    | some d =>
      intro j hj
      have := (Finset.sum_eq_zero_iff_of_nonneg
        fun j _ => mul_nonneg (dsq_nonneg (some d) j) (sq_nonneg _)).1 e2 j (Finset.mem_range.2 hj)
      unfold dsq at this
      simp only [← mul_pow] at this
      exact pow_eq_zero_iff (two_ne_zero) |>.1 this

/-- A positive definite system has one solution. -/
theorem PosDef.unique {n : ℕ} {H : Buf} (h : PosDef n H) {x y rhs : Vec} (hx : Eqs n H x rhs)
    (hy : Eqs n H y rhs) : ∀ i < n, x i = y i := by
  intro i hi
  by_contra hne
  have := h (fun i => x i - y i) ⟨i, hi, sub_ne_zero.2 hne⟩
  have e : ∑ i ∈ Finset.range n, ∑ j ∈ Finset.range n, (x i - y i) * H i j * (x j - y j) = 0 := by
    refine Finset.sum_eq_zero fun i hi => ?_
    have h1 : ∑ j ∈ Finset.range n, (x i - y i) * H i j * (x j - y j) =
        (x i - y i) * (∑ j ∈ Finset.range n, H i j * x j - ∑ j ∈ Finset.range n, H i j * y j) := by
      rw [← Finset.sum_sub_distrib, Finset.mul_sum]
      exact Finset.sum_congr rfl fun j _ => by ring
    rw [h1, hx i (Finset.mem_range.1 hi), hy i (Finset.mem_range.1 hi)]
    ring
  simp only [e] at this
  exact lt_irrefl _ this

/-- The entries of the diagonal matrix. -/
def diagAt (D : Option Vec) (k j : ℕ) : ℝ :=
  match D with
  | none => 0
  | some d => if k = j then d j else 0

/-- The rows of `E` followed by the diagonal matrix have the normal equations as Gram matrix. -/
theorem gram_append {m n : ℕ} {E R : Buf} {D : Option Vec} {M : ℕ}
    (hM : M = m + if D.isSome then n else 0)
    (hR : ∀ k < M, ∀ j < n, R k j = if k < m then E k j else diagAt D (k - m) j) {i j : ℕ} (hi : i < n) (hj : j < n) :
    ∑ k ∈ Finset.range M, R k i * R k j = normalMat m E D i j := by
  unfold normalMat
  have h1 : ∑ k ∈ Finset.range m, R k i * R k j = ∑ k ∈ Finset.range m, E k i * E k j := by
    refine Finset.sum_congr rfl fun k hk => ?_
    have hk := Finset.mem_range.1 hk
    rw [hR k (by omega) i hi, hR k (by omega) j hj, if_pos hk, if_pos hk]
  rw [hM, Finset.sum_range_add, h1]
  congr 1
  cases D with
  | none => simp [dsq]
  | some d =>
    simp only [Option.isSome_some, if_true] at hM ⊢
    have h2 : ∀ k ∈ Finset.range n, R (m + k) i * R (m + k) j =
        if k = i then (if i = j then d i ^ 2 else 0) else 0 := by
      intro k hk
      have hk := Finset.mem_range.1 hk
      rw [hR (m + k) (by omega) i hi, hR (m + k) (by omega) j hj, if_neg (by omega), if_neg (by omega)]
      unfold diagAt
      simp only [Nat.add_sub_cancel_left]
      by_cases hki : k = i
      · subst hki
        by_cases hkj : k = j
        · subst hkj; simp [sq]
        · simp [hkj]
      · simp [hki]
    rw [Finset.sum_congr rfl h2, Finset.sum_ite_eq', if_pos (Finset.mem_range.2 hi)]
    rfl

end Ceres.Direct
