import Verif.Schur.OneF

/-!
# C51: a problem that meets the hypotheses, and what happens without convergence
-/

noncomputable section

namespace Ceres.Schur

open Matrix

/-- All blocks have one column. -/
def one : ℕ → ℕ := fun _ => 1

def scalarCell (b : ℕ) (v : ℝ) : Cell one 1 := ⟨b, fun _ _ => v⟩

/-- `10 e + 10 f = 0` and `f = 1`, where block 0 is `e` and block 1 is `f`. -/
def twoRows : List (Row one) :=
  [⟨1, [scalarCell 0 10, scalarCell 1 10], fun _ => 0⟩, ⟨1, [scalarCell 1 1], fun _ => 1⟩]

theorem twoRows_cost (x : BVec one) :
    cost 2 twoRows none x =
      (10 * x 0 (0 : Fin 1) + 10 * x 1 (0 : Fin 1)) ^ 2 + (x 1 (0 : Fin 1) - 1) ^ 2 := by
  have hs : ∀ f : Fin (one 0) → ℝ, ∑ i, f i = f (0 : Fin 1) := fun f => Fin.sum_univ_one f
  simp [cost, twoRows, Row.apply, scalarCell, mulVec, dotProduct]
  erw [hs, hs, hs]

theorem twoRows_ordered : Ordered 1 2 twoRows where
  sorted := by intro r hr; simp [twoRows] at hr; rcases hr with rfl | rfl <;> simp [scalarCell]
  nonempty := by intro r hr; simp [twoRows] at hr; rcases hr with rfl | rfl <;> simp
  bound := by
    intro r hr c hc
    simp [twoRows] at hr
    rcases hr with rfl | rfl <;> simp at hc
    · rcases hc with rfl | rfl <;> simp [scalarCell]
    · rw [hc]; simp [scalarCell]
  independent := by intros; omega
  eFirst := by simp [twoRows, scalarCell]
  grouped := by
    intro r s t h
    have := h.length_le
    simp [twoRows] at this

theorem twoRows_fullRank : FullRank 2 twoRows none := by
  intro x h
  have e : energy 2 twoRows none x =
      (10 * x 0 (0 : Fin 1) + 10 * x 1 (0 : Fin 1)) ^ 2 + (x 1 (0 : Fin 1)) ^ 2 := by
    have hs : ∀ f : Fin (one 0) → ℝ, ∑ i, f i = f (0 : Fin 1) := fun f => Fin.sum_univ_one f
    simp [energy, twoRows, Row.apply, scalarCell, mulVec, dotProduct]
    erw [hs, hs, hs]
  rw [e] at h
  have h1 : x 1 (0 : Fin 1) = 0 := by nlinarith [sq_nonneg (10 * x 0 (0 : Fin 1) + 10 * x 1 (0 : Fin 1))]
  have h0 : x 0 (0 : Fin 1) = 0 := by rw [h1] at h; nlinarith
  intro b hb
  funext i
  have hi : i = (0 : Fin 1) := Subsingleton.elim (α := Fin 1) _ _
  subst hi
  interval_cases b
  · exact h0
  · exact h1

/-- The hypotheses of `schur_full_rank` and `one_f_block_minimises` are satisfiable. -/
example : Ordered 1 2 twoRows ∧ FullRank 2 twoRows none ∧ FullRankE 1 2 twoRows none ∧
    InvertsFullRank exactInv :=
  ⟨twoRows_ordered, twoRows_fullRank,
    fun x _ he r hr c hc hlt => twoRows_fullRank x he _ (by omega), exactInv_fullRank⟩

/-- If the reduced system is solved iteratively (ITERATIVE_SCHUR with
`use_explicit_schur_complement`) and the iteration limit is reached, the e part of the step is
left at zero: the trust region minimizer goes on with a step that is worse than none, whatever
progress was made on the f part. -/
theorem no_convergence_worse {reduced : Lhs one → BVec one → Term × BVec one}
    (hn : ∀ L rhs, (reduced L rhs).1 = .noConvergence)
    (hz : ∀ L rhs, 1 / 50 < (reduced L rhs).2 1 (0 : Fin 1)) (inv : Inverter)
    (order order' : List (ℕ × List (Row one))) :
    (solve inv 1 2 (sparseHas 1 2 twoRows) twoRows none reduced order order').1 =
      .noConvergence ∧
    cost 2 twoRows none 0 <
      cost 2 twoRows none
        (solve inv 1 2 (sparseHas 1 2 twoRows) twoRows none reduced order order').2 := by
  have h1 : ∀ L rhs, (reduced L rhs).1 ≠ .success := fun L rhs h => by
    rw [hn] at h; exact absurd h (by decide)
  unfold solve
  simp only [if_neg (h1 _ _)]
  refine ⟨hn _ _, ?_⟩
  rw [twoRows_cost, twoRows_cost]
  have := hz (eliminate inv 1 2 (sparseHas 1 2 twoRows) twoRows none order).1
    (eliminate inv 1 2 (sparseHas 1 2 twoRows) twoRows none order).2
  generalize (reduced (eliminate inv 1 2 (sparseHas 1 2 twoRows) twoRows none order).1
    (eliminate inv 1 2 (sparseHas 1 2 twoRows) twoRows none order).2).2 = z at *
  change (10 * (0 : ℝ) + 10 * 0) ^ 2 + ((0 : ℝ) - 1) ^ 2 <
    (10 * (0 : ℝ) + 10 * z 1 (0 : Fin 1)) ^ 2 + (z 1 (0 : Fin 1) - 1) ^ 2
  nlinarith

end Ceres.Schur
