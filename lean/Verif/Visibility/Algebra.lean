import Verif.Visibility.MatrixSpec
import Mathlib.Tactic.Linarith
import Mathlib.Tactic.Ring
import Mathlib.Algebra.Order.BigOperators.Group.Finset
import Mathlib.Tactic.NormNum

/-!
# Half of the blocks between joined clusters
-/

noncomputable section

namespace Ceres.Visibility

open Ceres.Direct

theorem sum_by {n num : ℕ} (cl : ℕ → ℕ) (hcl : ∀ p < n, cl p < num) (g : ℕ → ℝ) :
    ∑ p ∈ Finset.range n, g p = ∑ c ∈ Finset.range num, ∑ p ∈ Finset.range n, if cl p = c then g p else 0 := by
  rw [Finset.sum_comm]
  refine Finset.sum_congr rfl fun p hp => ?_
  rw [Finset.sum_ite_eq, if_pos (Finset.mem_range.2 (hcl p (Finset.mem_range.1 hp)))]

/-- At most two others joined to a cluster. -/
theorem degree_le {num : ℕ} {F : SimpleGraph ℕ}
    (hd : ∀ c x y z, F.Adj c x → F.Adj c y → F.Adj c z → x = y ∨ x = z ∨ y = z) (c : ℕ) [DecidableRel F.Adj] :
    ∑ d ∈ Finset.range num, (if F.Adj c d then (1 : ℝ) else 0) ≤ 2 := by
  rw [Finset.sum_boole]
  by_contra h
  push Not at h
  have h : 2 < ((Finset.range num).filter fun d => F.Adj c d).card := by exact_mod_cast h
  obtain ⟨x, hx, y, hy, z, hz, h1, h2, h3⟩ := Finset.two_lt_card.1 h
  rcases hd c x y z (Finset.mem_filter.1 hx).2 (Finset.mem_filter.1 hy).2 (Finset.mem_filter.1 hz).2 with h | h | h
  · exact h1 h
  · exact h2 h
  · exact h3 h

theorem half_posDef {n num : ℕ} {H : Buf} (hs : ∀ p < n, ∀ q < n, H p q = H q p) (hH : PosDef n H) (cl : ℕ → ℕ)
    (hcl : ∀ p < n, cl p < num) {F : SimpleGraph ℕ}
    (hd : ∀ c x y z, F.Adj c x → F.Adj c y → F.Adj c z → x = y ∨ x = z ∨ y = z)
    (hF : ∀ c d, F.Adj c d → c < num ∧ d < num) {M : Buf}
    (hM : ∀ p < n, ∀ q < n, M p q = weight id F (1 / 2) (cl p) (cl q) * H p q) : PosDef n M := by
  classical
  rintro x ⟨j, hj, hx⟩
  set Q : ℕ → ℕ → ℝ := fun c d => ∑ p ∈ Finset.range n, ∑ q ∈ Finset.range n,
    (if cl p = c then x p else 0) * H p q * (if cl q = d then x q else 0) with hQ
  set a : ℕ → ℕ → ℝ := fun c d => if F.Adj c d then 1 else 0 with ha
  have hasymm : ∀ c d, a c d = a d c := fun c d => by simp only [ha, F.adj_comm]
  have haself : ∀ c, a c c = 0 := fun c => by simp [ha]
  -- the form is the sum over pairs of clusters
  have e1 : ∑ i ∈ Finset.range n, ∑ j ∈ Finset.range n, x i * M i j * x j =
      ∑ c ∈ Finset.range num, ∑ d ∈ Finset.range num, ((if c = d then 1 else 0) + 1 / 2 * a c d) * Q c d := by
    have k1 : ∀ p ∈ Finset.range n, ∑ q ∈ Finset.range n, x p * M p q * x q =
        ∑ d ∈ Finset.range num, ∑ q ∈ Finset.range n, if cl q = d then x p * M p q * x q else 0 :=
      fun p _ => sum_by cl hcl _
    rw [Finset.sum_congr rfl k1, sum_by cl hcl]
    refine Finset.sum_congr rfl fun c _ => ?_
    have k2 : ∀ p ∈ Finset.range n, (if cl p = c then
        ∑ d ∈ Finset.range num, ∑ q ∈ Finset.range n, (if cl q = d then x p * M p q * x q else 0) else 0) =
        ∑ d ∈ Finset.range num, ∑ q ∈ Finset.range n, ((if c = d then 1 else 0) + 1 / 2 * a c d) *
          ((if cl p = c then x p else 0) * H p q * (if cl q = d then x q else 0)) := by
      intro p hp
      split_ifs with hpc
      · refine Finset.sum_congr rfl fun d _ => Finset.sum_congr rfl fun q hq => ?_
        split_ifs with hqd h2
        · rw [hM p (Finset.mem_range.1 hp) q (Finset.mem_range.1 hq), hpc, hqd, h2, haself]
          unfold weight
          simp
        · rw [hM p (Finset.mem_range.1 hp) q (Finset.mem_range.1 hq), hpc, hqd]
          unfold weight
          simp only [id, if_neg h2, ha]
          split_ifs <;> ring
        · simp
        · simp
      · symm
        refine Finset.sum_eq_zero fun d _ => Finset.sum_eq_zero fun q _ => by simp
    rw [Finset.sum_congr rfl k2, Finset.sum_comm]
    refine Finset.sum_congr rfl fun d _ => ?_
    simp only [hQ, Finset.mul_sum]
  have hQs : ∀ c d, Q c d = Q d c := by
    intro c d
    simp only [hQ]
    rw [Finset.sum_comm]
    refine Finset.sum_congr rfl fun p hp => Finset.sum_congr rfl fun q hq => ?_
    rw [hs q (Finset.mem_range.1 hq) p (Finset.mem_range.1 hp)]
    ring
  have e2 : ∑ c ∈ Finset.range num, ∑ d ∈ Finset.range num, ((if c = d then 1 else 0) + 1 / 2 * a c d) * Q c d =
      ∑ c ∈ Finset.range num, (1 - 1 / 2 * ∑ d ∈ Finset.range num, a c d) * Q c c +
      1 / 4 * ∑ c ∈ Finset.range num, ∑ d ∈ Finset.range num, a c d * (Q c c + Q c d + Q d c + Q d d) := by
    have s1 : ∑ c ∈ Finset.range num, ∑ d ∈ Finset.range num, a c d * Q d d =
        ∑ c ∈ Finset.range num, ∑ d ∈ Finset.range num, a c d * Q c c := by
      rw [Finset.sum_comm]
      refine Finset.sum_congr rfl fun c _ => Finset.sum_congr rfl fun d _ => ?_
      rw [hasymm]
    have s2 : ∑ c ∈ Finset.range num, ∑ d ∈ Finset.range num, a c d * Q d c =
        ∑ c ∈ Finset.range num, ∑ d ∈ Finset.range num, a c d * Q c d :=
      Finset.sum_congr rfl fun c _ => Finset.sum_congr rfl fun d _ => by rw [hQs d c]
    have s3 : ∑ c ∈ Finset.range num, ∑ d ∈ Finset.range num, ((if c = d then 1 else 0) + 1 / 2 * a c d) * Q c d =
        ∑ c ∈ Finset.range num, Q c c + 1 / 2 * ∑ c ∈ Finset.range num, ∑ d ∈ Finset.range num, a c d * Q c d := by
      rw [Finset.mul_sum, ← Finset.sum_add_distrib]
      refine Finset.sum_congr rfl fun c hc => ?_
      simp only [add_mul, Finset.sum_add_distrib, ite_mul, one_mul, zero_mul, Finset.sum_ite_eq, hc, if_true]
      rw [Finset.mul_sum]
      simp only [mul_assoc]
    have s4 : ∑ c ∈ Finset.range num, (1 - 1 / 2 * ∑ d ∈ Finset.range num, a c d) * Q c c =
        ∑ c ∈ Finset.range num, Q c c - 1 / 2 * ∑ c ∈ Finset.range num, ∑ d ∈ Finset.range num, a c d * Q c c := by
      rw [Finset.mul_sum, ← Finset.sum_sub_distrib]
      refine Finset.sum_congr rfl fun c _ => ?_
      rw [← Finset.sum_mul]
      ring
    rw [s3, s4]
    simp only [mul_add, Finset.sum_add_distrib]
    rw [s1, s2]
    ring
  -- the forms of the parts
  have form : ∀ y : Vec, 0 ≤ ∑ p ∈ Finset.range n, ∑ q ∈ Finset.range n, y p * H p q * y q := by
    intro y
    by_cases h : ∃ j < n, y j ≠ 0
    · exact (hH y h).le
    · push Not at h
      refine le_of_eq (Eq.symm ?_)
      refine Finset.sum_eq_zero fun p hp => Finset.sum_eq_zero fun q _ => ?_
      rw [h p (Finset.mem_range.1 hp)]
      ring
  have hq1 : ∀ c, 0 ≤ Q c c := fun c => form fun p => if cl p = c then x p else 0
  have pairForm : ∀ c d, Q c c + Q c d + Q d c + Q d d = ∑ p ∈ Finset.range n, ∑ q ∈ Finset.range n,
      ((if cl p = c then x p else 0) + if cl p = d then x p else 0) * H p q *
        ((if cl q = c then x q else 0) + if cl q = d then x q else 0) := by
    intro c d
    simp only [hQ, ← Finset.sum_add_distrib]
    refine Finset.sum_congr rfl fun p _ => Finset.sum_congr rfl fun q _ => ?_
    ring
  have hq2 : ∀ c d, 0 ≤ Q c c + Q c d + Q d c + Q d d := by
    intro c d
    rw [pairForm]
    exact form fun p => (if cl p = c then x p else 0) + if cl p = d then x p else 0
  have ha0 : ∀ c d, 0 ≤ a c d := fun c d => by
    simp only [ha]
    split_ifs <;> norm_num
  have hdeg : ∀ c, 0 ≤ 1 - 1 / 2 * ∑ d ∈ Finset.range num, a c d := by
    intro c
    have := degree_le (num := num) hd c
    linarith
  have t1 : 0 ≤ ∑ c ∈ Finset.range num, (1 - 1 / 2 * ∑ d ∈ Finset.range num, a c d) * Q c c :=
    Finset.sum_nonneg fun c _ => mul_nonneg (hdeg c) (hq1 c)
  have t2 : 0 ≤ ∑ c ∈ Finset.range num, ∑ d ∈ Finset.range num, a c d * (Q c c + Q c d + Q d c + Q d d) :=
    Finset.sum_nonneg fun c _ => Finset.sum_nonneg fun d _ => mul_nonneg (ha0 c d) (hq2 c d)
  rw [e1, e2]
  have hcj := Finset.mem_range.2 (hcl j hj)
  by_cases hex : ∃ d, F.Adj (cl j) d
  · obtain ⟨d, hadj⟩ := hex
    have : 0 < a (cl j) d * (Q (cl j) (cl j) + Q (cl j) d + Q d (cl j) + Q d d) := by
      have h1 : a (cl j) d = 1 := by simp [ha, hadj]
      rw [h1, one_mul, pairForm]
      refine hH (fun p => (if cl p = cl j then x p else 0) + if cl p = d then x p else 0) ⟨j, hj, ?_⟩
      beta_reduce
      rw [if_pos rfl, if_neg hadj.ne, add_zero]
      exact hx
    have h2 : 0 < ∑ c ∈ Finset.range num, ∑ d ∈ Finset.range num, a c d * (Q c c + Q c d + Q d c + Q d d) := by
      refine Finset.sum_pos' (fun c _ => Finset.sum_nonneg fun d _ => mul_nonneg (ha0 c d) (hq2 c d)) ⟨cl j, hcj, ?_⟩
      exact Finset.sum_pos' (fun d _ => mul_nonneg (ha0 _ d) (hq2 _ d)) ⟨d, Finset.mem_range.2 (hF _ _ hadj).2, this⟩
    linarith
  · have h1 : ∑ d ∈ Finset.range num, a (cl j) d = 0 := by
      refine Finset.sum_eq_zero fun d _ => ?_
      simp only [ha]
      exact if_neg fun h => hex ⟨d, h⟩
    have h2 : 0 < Q (cl j) (cl j) := by
      refine hH (fun p => if cl p = cl j then x p else 0) ⟨j, hj, ?_⟩
      beta_reduce
      rw [if_pos rfl]
      exact hx
    have h3 : 0 < ∑ c ∈ Finset.range num, (1 - 1 / 2 * ∑ d ∈ Finset.range num, a c d) * Q c c := by
      refine Finset.sum_pos' (fun c _ => mul_nonneg (hdeg c) (hq1 c)) ⟨cl j, hcj, ?_⟩
      rw [h1]
      linarith
    linarith

end Ceres.Visibility
