import Verif.TinySolver.Spec
import Mathlib.Data.Matrix.Diagonal
import Mathlib.Tactic.Positivity
import Mathlib.Tactic.Linarith
import Mathlib.Algebra.Order.BigOperators.Ring.Finset
import Mathlib.LinearAlgebra.Matrix.NonsingularInverse

/-! # The tiny solver never returns a worse point -/

namespace Ceres.TinySolver

open Matrix

noncomputable section

variable {n m : ℕ}

/-! ## One step -/

theorem squaredNorm_eq {k : ℕ} (v : Vec k) : squaredNorm v = ∑ i, v i ^ 2 := by
  simp only [squaredNorm, dotProduct, sq]

theorem squaredNorm_nonneg {k : ℕ} (v : Vec k) : 0 ≤ squaredNorm v := by
  rw [squaredNorm_eq]; exact Finset.sum_nonneg fun i _ => sq_nonneg _

/-- The scaled Jacobian, its normal matrix and gradient belong to the point. -/
structure Good (f : Vec n → Vec m) (J : Vec n → Mat m n) (S : Fin n → ℝ) (x : Vec n)
    (s : State n m) : Prop where
  residuals : s.residuals = -f x
  jacobian : s.jacobian = J x * Matrix.diagonal S
  scaling : s.jacobiScaling = S
  jtj : s.jtj = s.jacobianᵀ * s.jacobian
  g : s.g = s.jacobianᵀ *ᵥ s.residuals
  cost : s.cost = costOf f x
  gradient : s.gradientMaxNorm = ‖scaledGradient f J S x‖

variable {f : Vec n → Vec m} {J : Vec n → Mat m n} {S : Fin n → ℝ} {F : Function n m}

theorem g_eq (x : Vec n) :
    (J x * Matrix.diagonal S)ᵀ *ᵥ (-f x) = -scaledGradient f J S x := by
  funext j
  simp only [Matrix.mulVec_neg, Pi.neg_apply]
  refine congrArg Neg.neg ?_
  simp only [Matrix.mulVec, dotProduct, Matrix.transpose_apply, Matrix.mul_diagonal, scaledGradient,
    Finset.mul_sum]
  exact Finset.sum_congr rfl fun i _ => by ring

theorem costOf_eq (x : Vec n) : squaredNorm (-f x) / 2 = costOf f x := by
  simp [squaredNorm_eq, costOf]

/-- `Update` establishes the invariant; the scaling is set at iteration zero only. -/
theorem update_good (hF : Computes F f J) (x : Vec n) (s : State n m)
    (hS : s.iterations = 0 ∧ S = scaling J x ∨ s.iterations ≠ 0 ∧ s.jacobiScaling = S) :
    Good f J S x (update F x s).2 ∧ (update F x s).2.iterations = s.iterations := by
  unfold update
  simp only [hF.withJacobian, Bool.not_true, Bool.false_eq_true, if_false]
  rcases hS with ⟨h, rfl⟩ | ⟨h, rfl⟩
  · rw [if_pos h]
    have e : (fun j => 1 / (1 + norm fun i => J x i j)) = scaling J x := by
      funext j
      simp only [scaling, norm, squaredNorm_eq]
    simp only [e]
    refine ⟨⟨rfl, rfl, rfl, rfl, rfl, costOf_eq x, ?_⟩, trivial⟩
    change maxAbs ((J x * Matrix.diagonal (scaling J x))ᵀ *ᵥ (-f x)) = _
    rw [g_eq, maxAbs, norm_neg]
  · rw [if_neg h]
    refine ⟨⟨rfl, rfl, rfl, rfl, rfl, costOf_eq x, ?_⟩, rfl⟩
    change maxAbs ((J x * Matrix.diagonal s.jacobiScaling)ᵀ *ᵥ (-f x)) = _
    rw [g_eq, maxAbs, norm_neg]

theorem scaling_pos (J : Vec n → Mat m n) (x : Vec n) (j : Fin n) : 0 < scaling J x j := by
  unfold scaling; positivity

theorem damping_pos (x : Vec n) (j : Fin n) : 0 < damping J S x j :=
  lt_of_lt_of_le (by norm_num) (le_max_left _ _)

/-- The scaled objective. -/
def scaledObjective (A : Mat m n) (b : Vec m) (D : Vec n) (u : ℝ) (t : Vec n) : ℝ :=
  squaredNorm (b + A *ᵥ t) + u * ∑ j, D j * t j ^ 2

theorem regularized_mulVec (A : Mat n n) (u : ℝ) (y : Vec n) :
    regularized A u *ᵥ y
      = A *ᵥ y + fun i => u * max (1e-6 : ℝ) (min (A i i) (1e32 : ℝ)) * y i := by
  unfold regularized
  rw [Matrix.add_mulVec]
  congr 1
  funext i
  rw [Matrix.mulVec_diagonal]

theorem dot_gram (A : Mat m n) (y z : Vec n) : y ⬝ᵥ ((Aᵀ * A) *ᵥ z) = (A *ᵥ y) ⬝ᵥ (A *ᵥ z) := by
  rw [← Matrix.mulVec_mulVec, Matrix.dotProduct_mulVec, Matrix.vecMul_transpose]

theorem gram_diag (A : Mat m n) (j : Fin n) : (Aᵀ * A) j j = ∑ i, A i j ^ 2 := by
  rw [Matrix.mul_apply]
  exact Finset.sum_congr rfl fun i _ => by rw [Matrix.transpose_apply, sq]

variable {solve : Mat n n → Vec n → Vec n}

theorem spd (A : Mat m n) {u : ℝ} (hu : 0 < u) (y : Vec n) (hy : y ≠ 0) :
    0 < y ⬝ᵥ (regularized (Aᵀ * A) u *ᵥ y) := by
  rw [regularized_mulVec, dotProduct_add, dot_gram]
  have h1 : 0 ≤ (A *ᵥ y) ⬝ᵥ (A *ᵥ y) := squaredNorm_nonneg _
  obtain ⟨j, hj⟩ := Function.ne_iff.1 hy
  have hp : ∀ i, 0 < max (1e-6 : ℝ) (min ((Aᵀ * A) i i) (1e32 : ℝ)) := fun i =>
    lt_of_lt_of_le (by norm_num) (le_max_left _ _)
  have h2 : 0 < ∑ i, y i * (u * max (1e-6 : ℝ) (min ((Aᵀ * A) i i) (1e32 : ℝ)) * y i) := by
    refine Finset.sum_pos' (fun i _ => ?_) ⟨j, Finset.mem_univ _, ?_⟩
    · have := mul_nonneg (mul_pos hu (hp i)).le (mul_self_nonneg (y i))
      linarith [this, show y i * (u * max (1e-6 : ℝ) (min ((Aᵀ * A) i i) (1e32 : ℝ)) * y i)
        = u * max (1e-6 : ℝ) (min ((Aᵀ * A) i i) (1e32 : ℝ)) * (y i * y i) by ring]
    · have := mul_pos (mul_pos hu (hp j)) (mul_self_pos.2 hj)
      linarith [this, show y j * (u * max (1e-6 : ℝ) (min ((Aᵀ * A) j j) (1e32 : ℝ)) * y j)
        = u * max (1e-6 : ℝ) (min ((Aᵀ * A) j j) (1e32 : ℝ)) * (y j * y j) by ring]
  exact add_pos_of_nonneg_of_pos h1 h2

theorem regularized_symm (A : Mat m n) (u : ℝ) :
    (regularized (Aᵀ * A) u)ᵀ = regularized (Aᵀ * A) u := by
  unfold regularized
  rw [Matrix.transpose_add, Matrix.diagonal_transpose, Matrix.transpose_mul,
    Matrix.transpose_transpose]

/-- The step the solver computes minimises the damped linearised objective, and the predicted decrease is
positive unless the step is zero. -/
theorem step_spec (hsolve : SolvesSPD solve) (hS : ∀ j, 0 < S j) {u : ℝ} (hu : 0 < u) {x : Vec n}
    {s : State n m} (hs : Good f J S x s) :
    let lm := solve (regularized s.jtj u) s.g
    IsLMStep f J S u x (fun i => s.jacobiScaling i * lm i) ∧
      (lm ≠ 0 → 0 < lm ⬝ᵥ ((2 : ℝ) • s.g - s.jtj *ᵥ lm)) := by
  intro lm
  set A := s.jacobian with hA
  have hlm : regularized (Aᵀ * A) u *ᵥ lm = s.g := by
    have := hsolve (regularized s.jtj u) s.g (by rw [hs.jtj]; exact regularized_symm _ _)
      (by rw [hs.jtj]; exact spd A hu)
    rw [← hs.jtj]
    exact this
  set D : Vec n := fun i => u * max (1e-6 : ℝ) (min ((Aᵀ * A) i i) (1e32 : ℝ)) with hD
  have hDu : ∀ j, D j = u * damping J S x j := fun j => by
    simp only [hD, damping, gram_diag, hA, hs.jacobian, Matrix.mul_diagonal]
  rw [regularized_mulVec] at hlm
  have hDpos : ∀ j, 0 < D j := fun j => by rw [hDu]; exact mul_pos hu (damping_pos x j)
  have hg : ∀ d, d ⬝ᵥ s.g = -((A *ᵥ d) ⬝ᵥ f x) := fun d => by
    rw [hs.g, hs.residuals, Matrix.dotProduct_mulVec, Matrix.vecMul_transpose, dotProduct_neg]
  have hN : ∀ d, (A *ᵥ d) ⬝ᵥ (A *ᵥ lm) + ∑ i, d i * (D i * lm i) = -((A *ᵥ d) ⬝ᵥ f x) := fun d => by
    rw [← hg, ← hlm, dotProduct_add, dot_gram]
    rfl
  constructor
  · intro d' hne
    rw [hs.scaling] at hne ⊢
    have obj : ∀ t : Vec n, lmObjective f J S u x (fun i => S i * t i)
        = squaredNorm (f x + A *ᵥ t) + ∑ i, t i * (D i * t i) := fun t => by
      unfold lmObjective
      rw [squaredNorm_eq, Finset.mul_sum]
      congr 1
      · refine Finset.sum_congr rfl fun i _ => ?_
        simp only [Pi.add_apply, Matrix.mulVec, dotProduct, hA, hs.jacobian, Matrix.mul_diagonal]
        congr 2
        exact Finset.sum_congr rfl fun j _ => by ring
      · refine Finset.sum_congr rfl fun j _ => ?_
        rw [hDu, mul_div_cancel_left₀ _ (hS j).ne']
        ring
    obtain ⟨t, rfl⟩ : ∃ t : Vec n, d' = fun i => S i * t i :=
      ⟨fun i => d' i / S i, funext fun i => by
        rw [mul_div_cancel₀]; exact (hS i).ne'⟩
    rw [obj, obj]
    have hd : ∃ d : Vec n, d ≠ 0 ∧ t = lm + d := by
      refine ⟨t - lm, fun h => hne ?_, by simp⟩
      rw [sub_eq_zero.1 h]
    obtain ⟨d, hd0, rfl⟩ := hd
    have e1 : squaredNorm (f x + A *ᵥ (lm + d)) = squaredNorm (f x + A *ᵥ lm)
        + 2 * ((A *ᵥ d) ⬝ᵥ f x + (A *ᵥ d) ⬝ᵥ (A *ᵥ lm)) + squaredNorm (A *ᵥ d) := by
      rw [Matrix.mulVec_add]
      simp only [squaredNorm, add_dotProduct, dotProduct_add]
      rw [dotProduct_comm (f x) (A *ᵥ d), dotProduct_comm (A *ᵥ lm) (A *ᵥ d)]
      ring
    have e2 : ∑ i, (lm + d) i * (D i * (lm + d) i) = ∑ i, lm i * (D i * lm i)
        + 2 * ∑ i, d i * (D i * lm i) + ∑ i, d i * (D i * d i) := by
      rw [Finset.mul_sum, ← Finset.sum_add_distrib, ← Finset.sum_add_distrib]
      exact Finset.sum_congr rfl fun i _ => by simp only [Pi.add_apply]; ring
    rw [e1, e2]
    have h0 := hN d
    have h1 := squaredNorm_nonneg (A *ᵥ d)
    obtain ⟨j, hj⟩ := Function.ne_iff.1 hd0
    have h2 : 0 < ∑ i, d i * (D i * d i) := by
      refine Finset.sum_pos' (fun i _ => ?_) ⟨j, Finset.mem_univ _, ?_⟩
      · have := mul_nonneg (hDpos i).le (mul_self_nonneg (d i))
        linarith [show d i * (D i * d i) = D i * (d i * d i) by ring]
      · have := mul_pos (hDpos j) (mul_self_pos.2 hj)
        linarith [show d j * (D j * d j) = D j * (d j * d j) by ring]
    linarith
  · intro hne
    have h0 := hN lm
    have hgl := hg lm
    rw [dotProduct_sub, dotProduct_smul, smul_eq_mul, hs.jtj, dot_gram, hgl]
    have h1 : 0 ≤ (A *ᵥ lm) ⬝ᵥ (A *ᵥ lm) := squaredNorm_nonneg (A *ᵥ lm)
    obtain ⟨j, hj⟩ := Function.ne_iff.1 hne
    have h2 : 0 < ∑ i, lm i * (D i * lm i) := by
      refine Finset.sum_pos' (fun i _ => ?_) ⟨j, Finset.mem_univ _, ?_⟩
      · have := mul_nonneg (hDpos i).le (mul_self_nonneg (lm i))
        linarith [show lm i * (D i * lm i) = D i * (lm i * lm i) by ring]
      · have := mul_pos (hDpos j) (mul_self_pos.2 hj)
        linarith [show lm j * (D j * lm j) = D j * (lm j * lm j) by ring]
    linarith

/-! ## The loop -/

/-- What a status means at the final point. -/
def StatusMeans (o : Options) (f : Vec n → Vec m) (J : Vec n → Mat m n) (S : Fin n → ℝ) (x : Vec n)
    (iterations : ℤ) : Status → Prop
  | .gradientTooSmall => ∀ j, |scaledGradient f J S x j| < o.gradientTolerance
  | .costTooSmall => costOf f x < o.costThreshold
  | .hitMaxIterations => iterations = max 1 o.maxNumIterations
  | .relativeStepSizeTooSmall => ∃ u d, 0 < u ∧ IsLMStep f J S u x d ∧
      norm d < o.parameterTolerance * (norm x + o.parameterTolerance)
  | .costChangeTooSmall => ∃ u y d, 0 < u ∧ IsLMStep f J S u y d ∧
      |2 * costOf f y - 2 * costOf f (y + d)| < o.functionTolerance ∧
      (x = y ∧ costOf f y ≤ costOf f (y + d) ∨ x = y + d ∧ costOf f (y + d) < costOf f y)

theorem gradient_iff {S : Fin n → ℝ} {x : Vec n} {ε : ℝ} (h : ‖scaledGradient f J S x‖ < ε) (j : Fin n) :
    |scaledGradient f J S x j| < ε :=
  lt_of_le_of_lt (norm_le_pi_norm (scaledGradient f J S x) j) h

theorem loop_spec (o : Options) (hF : Computes F f J) (hsolve : SolvesSPD solve)
    (hS : ∀ j, 0 < S j) (x₀ : Vec n) :
    ∀ (fuel : ℕ) (s : State n m) (x : Vec n) (u v : ℝ) (k : ℕ), 0 < u → 0 < v → Good f J S x s →
      1 ≤ s.iterations → k + 1 ≤ s.iterations →
      s.iterations + fuel = max 1 o.maxNumIterations → Walk f J S k x₀ x →
      let r := loop o F solve fuel s x u v
      Good f J S r.2.1 r.1 ∧ 1 ≤ r.1.iterations ∧ r.1.iterations ≤ max 1 o.maxNumIterations ∧
      (∃ k' : ℕ, k' ≤ r.1.iterations ∧ k' + 1 ≤ max 1 o.maxNumIterations ∧ Walk f J S k' x₀ r.2.1) ∧
      StatusMeans o f J S r.2.1 r.1.iterations r.2.2 := by
  intro fuel
  induction fuel with
  | zero =>
    intro s x u v k hu hv hs h1 hk hi hw
    refine ⟨hs, h1, ?_, ⟨k, by simp only [loop]; omega, ?_, hw⟩, ?_⟩
    · show s.iterations ≤ _; push_cast at hi; omega
    · push_cast at hi; omega
    · simp only [loop, StatusMeans]; push_cast at hi; omega
  | succ fuel ih =>
    intro s x u v k hu hv hs h1 hk hi hw
    push_cast at hi
    obtain ⟨hstep, hpos⟩ := step_spec hsolve hS hu hs
    rw [loop]
    dsimp only
    generalize hlm : solve (regularized s.jtj u) s.g = lm at *
    set dx : Vec n := fun i => s.jacobiScaling i * lm i with hdx
    have hcc : 2 * s.cost - ∑ i, f (x + dx) i ^ 2 = 2 * costOf f x - 2 * costOf f (x + dx) := by
      rw [hs.cost]; simp only [costOf]; ring
    simp only [hF.without, squaredNorm_eq, hcc]
    split_ifs with c1 c2 c3 c4 c5 c6
    · exact ⟨hs, h1, by show s.iterations ≤ _; omega, ⟨k, by show _ ≤ s.iterations; omega, by omega, hw⟩,
        u, dx, hu, hstep, c1⟩
    -- accepted steps decrease the cost
    all_goals
      simp only [hF.without, squaredNorm_eq, hcc] at c2
      have hacc : ratioPos (2 * costOf f x - 2 * costOf f (x + dx))
          (lm ⬝ᵥ ((2 : ℝ) • s.g - s.jtj *ᵥ lm)) ↔ costOf f (x + dx) < costOf f x := by
        unfold ratioPos
        by_cases hl : lm = 0
        · have hd0 : dx = 0 := by
            funext i; simp only [hdx, hl, Pi.zero_apply, mul_zero]
          rw [hl, zero_dotProduct, if_pos rfl, hd0, add_zero]
          simp
        · have hp := hpos hl
          rw [if_neg hp.ne', lt_div_iff₀ hp, zero_mul]
          constructor <;> intro h <;> linarith
      have hup := update_good (F := F) (S := S) hF (x + dx) { s with fxNew := f (x + dx) }
        (Or.inr ⟨by show s.iterations ≠ 0; omega, hs.scaling⟩)
    · have hlt := hacc.1 c2
      refine ⟨hup.1, by rw [hup.2]; exact h1, by rw [hup.2]; show s.iterations ≤ _; omega,
        ⟨k + 1, by rw [hup.2]; push_cast; exact hk, by push_cast; omega,
          Walk.step hw hu (by simpa using hstep) hlt⟩, ?_⟩
      exact ⟨u, x, dx, hu, hstep, c3, Or.inr ⟨rfl, hlt⟩⟩
    · have hlt := hacc.1 c2
      refine ⟨hup.1, by rw [hup.2]; exact h1, by rw [hup.2]; show s.iterations ≤ _; omega,
        ⟨k + 1, by rw [hup.2]; push_cast; exact hk, by push_cast; omega,
          Walk.step hw hu (by simpa using hstep) hlt⟩, ?_⟩
      rw [hup.1.gradient] at c4
      exact gradient_iff c4
    · have hlt := hacc.1 c2
      refine ⟨hup.1, by rw [hup.2]; exact h1, by rw [hup.2]; show s.iterations ≤ _; omega,
        ⟨k + 1, by rw [hup.2]; push_cast; exact hk, by push_cast; omega,
          Walk.step hw hu (by simpa using hstep) hlt⟩, ?_⟩
      rw [hup.1.cost] at c5
      exact c5
    · have hlt := hacc.1 c2
      have hsh : ∀ a b, 0 < shrinkFactor a b := fun a b => by
        unfold shrinkFactor
        split
        · norm_num
        · exact lt_of_lt_of_le (by norm_num) (le_max_left _ _)
      refine ih _ _ _ _ (k + 1) (mul_pos hu (hsh _ _)) two_pos ?_ ?_ ?_ ?_
        (Walk.step hw hu (by simpa using hstep) hlt)
      · exact ⟨hup.1.residuals, hup.1.jacobian, hup.1.scaling, hup.1.jtj, hup.1.g, hup.1.cost,
          hup.1.gradient⟩
      · show 1 ≤ (update F (x + dx) _).2.iterations + 1
        rw [hup.2]; show 1 ≤ s.iterations + 1; omega
      · show _ ≤ (update F (x + dx) _).2.iterations + 1
        rw [hup.2]; push_cast; show _ ≤ s.iterations + 1; omega
      · show (update F (x + dx) _).2.iterations + 1 + _ = _
        rw [hup.2]; show s.iterations + 1 + _ = _; omega
    · refine ⟨⟨hs.residuals, hs.jacobian, hs.scaling, hs.jtj, hs.g, hs.cost, hs.gradient⟩, h1,
        by show s.iterations ≤ _; omega, ⟨k, by show _ ≤ s.iterations; omega, by omega, hw⟩, ?_⟩
      exact ⟨u, x, dx, hu, hstep, c6, Or.inl ⟨rfl, not_lt.1 fun h => c2 (hacc.2 h)⟩⟩
    · refine ih _ _ _ _ k (mul_pos hu hv) (by positivity)
        ⟨hs.residuals, hs.jacobian, hs.scaling, hs.jtj, hs.g, hs.cost, hs.gradient⟩ ?_ ?_ ?_ hw
      · show 1 ≤ s.iterations + 1; omega
      · show _ ≤ s.iterations + 1; omega
      · show s.iterations + 1 + _ = _; omega

theorem Walk.cost_le {k : ℕ} {x y : Vec n} (h : Walk f J S k x y) :
    costOf f y ≤ costOf f x ∧ (y ≠ x → costOf f y < costOf f x) := by
  induction h with
  | refl x => exact ⟨le_rfl, fun h => absurd rfl h⟩
  | step _ _ _ hlt ih => exact ⟨(hlt.trans_le ih.1).le, fun _ => hlt.trans_le ih.1⟩

/-- C48: the result of a solve, for a positive initial radius, whatever the solver was used for
before. -/
structure Outcome (o : Options) (f : Vec n → Vec m) (J : Vec n → Mat m n) (x₀ : Vec n)
    (r : Summary × Vec n × State n m) : Prop where
  initialCost : r.1.initialCost = costOf f x₀
  finalCost : r.1.finalCost = costOf f r.2.1
  noWorse : r.1.finalCost ≤ r.1.initialCost
  better : r.2.1 ≠ x₀ → r.1.finalCost < r.1.initialCost
  /-- At most `max_num_iterations - 1` steps are taken, each a Levenberg-Marquardt step. -/
  walk : ∃ k : ℕ, k ≤ r.1.iterations ∧ k + 1 ≤ max 1 o.maxNumIterations ∧
    Walk f J (scaling J x₀) k x₀ r.2.1
  iterations : 0 ≤ r.1.iterations ∧ r.1.iterations ≤ max 1 o.maxNumIterations
  status : StatusMeans o f J (scaling J x₀) r.2.1 r.1.iterations r.1.status
  gradient : r.1.gradientMaxNorm = ‖scaledGradient f J (scaling J x₀) r.2.1‖
  residuals : r.2.2.getResiduals = f r.2.1
  jacobian : r.2.2.getJacobian = J r.2.1

theorem Good.getters {x : Vec n} {s : State n m} (h : Good f J S x s) (hS : ∀ j, 0 < S j) :
    s.getResiduals = f x ∧ s.getJacobian = J x := by
  constructor
  · rw [State.getResiduals, h.residuals, neg_neg]
  · rw [State.getJacobian, h.jacobian, h.scaling, Matrix.mul_assoc, Matrix.diagonal_mul_diagonal]
    have : (fun i => S i * (S i)⁻¹) = fun _ => 1 := funext fun i => mul_inv_cancel₀ (hS i).ne'
    rw [this, Matrix.diagonal_one, Matrix.mul_one]

theorem solveTiny_spec (o : Options) (hr : 0 < o.initialTrustRegionRadius) (hF : Computes F f J)
    (hsolve : SolvesSPD solve) (s : State n m) (x₀ : Vec n) :
    Outcome o f J x₀ (solveTiny o F solve s x₀) := by
  have hS := scaling_pos J x₀
  have hup := update_good (F := F) (S := scaling J x₀) hF x₀
    { s with iterations := 0, gradientMaxNorm := -1 } (Or.inl ⟨rfl, rfl⟩)
  unfold solveTiny
  dsimp only
  generalize hs1 : (update F x₀ { s with iterations := 0, gradientMaxNorm := -1 }).2 = s1 at *
  have hit : s1.iterations = 0 := hup.2
  split_ifs with c1 c2
  · rw [hup.1.gradient] at c1
    have hg := hup.1.getters hS
    exact ⟨hup.1.cost, hup.1.cost, le_rfl, fun h => absurd rfl h,
      ⟨0, by rw [hit]; rfl, by omega, Walk.refl _⟩, ⟨hit.ge, by show s1.iterations ≤ _; rw [hit]; omega⟩,
      gradient_iff c1, hup.1.gradient, hg.1, hg.2⟩
  · rw [hup.1.cost] at c2
    have hg := hup.1.getters hS
    exact ⟨hup.1.cost, hup.1.cost, le_rfl, fun h => absurd rfl h,
      ⟨0, by rw [hit]; rfl, by omega, Walk.refl _⟩, ⟨hit.ge, by show s1.iterations ≤ _; rw [hit]; omega⟩,
      c2, hup.1.gradient, hg.1, hg.2⟩
  · have hgood : Good f J (scaling J x₀) x₀ { s1 with iterations := 1 } :=
      ⟨hup.1.residuals, hup.1.jacobian, hup.1.scaling, hup.1.jtj, hup.1.g, hup.1.cost, hup.1.gradient⟩
    have h := loop_spec o hF hsolve hS x₀ (o.maxNumIterations - 1).toNat { s1 with iterations := 1 } x₀
      (1 / o.initialTrustRegionRadius) 2 0 (by positivity) two_pos hgood le_rfl (by simp)
      (by show (1 : ℤ) + _ = _; omega) (Walk.refl _)
    dsimp only at h
    generalize loop o F solve (o.maxNumIterations - 1).toNat { s1 with iterations := 1 } x₀
      (1 / o.initialTrustRegionRadius) 2 = r at *
    obtain ⟨hg, h1, h2, ⟨k, hk1, hk2, hw⟩, hst⟩ := h
    have hget := hg.getters hS
    have hc := hw.cost_le
    refine ⟨hup.1.cost, hg.cost, ?_, ?_, ⟨k, hk1, hk2, hw⟩, ⟨by show 0 ≤ r.1.iterations; omega, h2⟩, hst, hg.gradient,
      hget.1, hget.2⟩
    · show r.1.cost ≤ s1.cost
      rw [hg.cost, hup.1.cost]; exact hc.1
    · intro hne
      show r.1.cost < s1.cost
      rw [hg.cost, hup.1.cost]; exact hc.2 hne

/-- Inverting the matrix is such a linear solver. -/
theorem solvesSPD_inverse : SolvesSPD (n := n) (fun A b => A⁻¹ *ᵥ b) := by
  intro A b _ hA
  have hdet : IsUnit A.det := by
    rw [isUnit_iff_ne_zero]
    intro h0
    obtain ⟨y, hy, h⟩ := Matrix.exists_mulVec_eq_zero_iff.2 h0
    have := hA y hy
    rw [h, dotProduct_zero] at this
    exact lt_irrefl _ this
  rw [Matrix.mulVec_mulVec, Matrix.mul_nonsing_inv A hdet, Matrix.one_mulVec]

end

end Ceres.TinySolver
