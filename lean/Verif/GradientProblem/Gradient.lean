import Verif.GradientProblem.Main

/-!
# The gradient that `GradientProblem::Evaluate` returns (C83)
-/
namespace Ceres.GradientProblem

open Ceres.Manifold (Vec Buf Manifold toBuf toMatrix asMap norm2 euclideanManifold)
open Ceres.LineSearch (Ext LSRecord Numerics)
open Ceres.Options (Build)

noncomputable section

/-- The components of the tangent gradient. -/
theorem evaluate_components {p : Problem} {junk : Buf} {x : p.Point} {c : Ext ℝ} {g : p.Tangent}
    (he : p.evaluate junk x true = some (c, g)) :
    ∃ g₀, p.function.evaluate (fun i => x (Fin.cast p.sizes i)) true = some (c, g₀) ∧
      ∀ J, p.manifold.plusJacobian x = some J →
        ∀ j, g j = ∑ k, g₀ (Fin.cast p.sizes.symm k) * J k j := by
  unfold Problem.evaluate at he
  split at he
  · cases he
  · next cost scratch hs =>
    rw [if_pos rfl] at he
    split_ifs at he with h
    simp only [Option.some.injEq, Prod.mk.injEq] at he
    obtain ⟨rfl, rfl⟩ := he
    refine ⟨scratch, hs, fun J hJ j => ?_⟩
    have := (Ceres.Manifold.rightMultiply_spec p.manifold x 1 (toBuf scratch) junk).2 J hJ
    have h2 := congrFun (congrFun this 0) j
    simp only [toMatrix, Matrix.mul_apply, Fin.val_zero, zero_mul, zero_add] at h2
    show (p.manifold.rightMultiply x 1 (toBuf scratch) junk).2 j = _
    rw [h2]
    refine Finset.sum_congr rfl fun k _ => ?_
    congr 1
    have hk : (k : ℕ) < p.function.numParameters := by have := k.2; have := p.sizes; omega
    simp only [toBuf]
    rw [dif_pos hk]
    rfl

/-- **C83 (gradient).**  If the user's function returns its gradient at `x`, and `PlusJacobian` is the derivative of
`Plus(x, ·)` at zero, then the vector that `GradientProblem::Evaluate` returns is the gradient, at zero, of the objective
as a function of the tangent step: `δ ↦ f(Plus(x, δ))`. -/
theorem evaluate_gradient {p : Problem} {junk : Buf} {x : p.Point} {c : Ext ℝ} {g : p.Tangent}
    (he : p.evaluate junk x true = some (c, g)) {f : Vec p.function.numParameters → ℝ}
    (hf : ∀ c g₀, p.function.evaluate (fun i => x (Fin.cast p.sizes i)) true = some (c, g₀) →
      IsGradient f (fun i => x (Fin.cast p.sizes i)) g₀)
    {plus : Vec p.manifold.tangentSize → p.Point} (h0 : plus 0 = x) {J} (hJ : p.manifold.plusJacobian x = some J)
    (hd : HasFDerivAt plus (asMap J) 0) :
    IsGradient (fun delta => f fun i => plus delta (Fin.cast p.sizes i)) 0 (WithLp.ofLp g) := by
  obtain ⟨g₀, h1, h2⟩ := evaluate_components he
  have h3 := hf c g₀ h1
  unfold IsGradient at h3 ⊢
  have h4 : HasFDerivAt (fun delta i => plus delta (Fin.cast p.sizes i))
      (ContinuousLinearMap.pi fun i : Fin p.function.numParameters =>
        (ContinuousLinearMap.proj (R := ℝ) (φ := fun _ => ℝ) (Fin.cast p.sizes i)).comp (asMap J)) 0 := by
    rw [hasFDerivAt_pi]
    intro i
    exact ((ContinuousLinearMap.proj (R := ℝ) (φ := fun _ : Fin p.manifold.ambientSize => ℝ)
      (Fin.cast p.sizes i)).hasFDerivAt).comp (0 : Vec p.manifold.tangentSize) hd
  rw [← h0] at h3
  have h5 := HasFDerivAt.comp (g := f) (0 : Vec p.manifold.tangentSize) h3 h4
  refine HasFDerivAt.congr_fderiv h5 ?_
  ext v
  simp only [ContinuousLinearMap.comp_apply, ContinuousLinearMap.sum_apply, ContinuousLinearMap.smul_apply,
    ContinuousLinearMap.proj_apply, ContinuousLinearMap.pi_apply, smul_eq_mul]
  have h6 : ∀ j, WithLp.ofLp g j = ∑ k, g₀ (Fin.cast p.sizes.symm k) * J k j := fun j => h2 J hJ j
  simp only [h6, Finset.sum_mul]
  rw [Finset.sum_comm]
  have h7 : ∀ k, asMap J v k = ∑ j, J k j * v j := by
    intro k; simp [asMap, Matrix.mulVec, dotProduct]
  simp only [h7, Finset.mul_sum]
  rw [← (finCongr p.sizes).sum_comp]
  refine Finset.sum_congr rfl fun i _ => Finset.sum_congr rfl fun j _ => ?_
  simp [mul_assoc]

/-- Without a manifold the gradient is the one the function returns. -/
theorem euclidean_evaluate (f : FirstOrderFunction) (junk : Buf) (x : Vec f.numParameters) {c : Ext ℝ}
    {g₀ : Vec f.numParameters} (h : f.evaluate x true = some (c, g₀)) :
    (⟨f, euclideanManifold f.numParameters, rfl⟩ : Problem).evaluate junk x true =
      some (c, (WithLp.toLp 2 g₀ : EuclideanSpace ℝ (Fin f.numParameters))) := by
  have h1 : ((euclideanManifold f.numParameters).rightMultiply x 1 (toBuf g₀) junk).1 = true :=
    ((Ceres.Manifold.rightMultiply_spec (euclideanManifold f.numParameters) x 1 (toBuf g₀) junk).1).2 (Or.inr rfl)
  cases h2 : (⟨f, euclideanManifold f.numParameters, rfl⟩ : Problem).evaluate junk x true with
  | none =>
    exfalso
    unfold Problem.evaluate at h2
    split at h2
    · next h3 =>
      have h4 : some (c, g₀) = none := h.symm.trans h3
      cases h4
    · next cost scratch h3 =>
      have h4 : some (c, g₀) = some (cost, scratch) := h.symm.trans h3
      rw [Option.some.injEq, Prod.mk.injEq] at h4
      rw [if_pos rfl, ← h4.2] at h2
      exact absurd h2 (by rw [if_pos h1]; simp)
  | some r =>
    obtain ⟨c', g⟩ := r
    obtain ⟨g₁, h3, h4⟩ := evaluate_components h2
    have h5 : some (c, g₀) = some (c', g₁) := h.symm.trans h3
    rw [Option.some.injEq, Prod.mk.injEq] at h5
    obtain ⟨rfl, rfl⟩ := h5
    congr 2
    have h6 := h4 _ rfl
    have h7 : ∀ j : Fin f.numParameters, g j = g₀ j := by
      intro j
      rw [h6 j]
      refine (Finset.sum_eq_single (s := (Finset.univ : Finset (Fin f.numParameters)))
        (f := fun k => g₀ k * (1 : Matrix (Fin f.numParameters) (Fin f.numParameters) ℝ) k j) j ?_ (by simp)).trans ?_
      · intro k _ hk
        rw [Matrix.one_apply_ne hk, mul_zero]
      · rw [Matrix.one_apply_eq, mul_one]
    ext (j : Fin f.numParameters)
    exact h7 j

theorem euclidean_zeroStep (f : FirstOrderFunction) :
    (⟨f, euclideanManifold f.numParameters, rfl⟩ : Problem).ZeroStep := by
  intro x
  show some (Ceres.Manifold.euclideanPlus x 0) = some x
  rw [Option.some.injEq]
  funext (i : Fin f.numParameters)
  show x i + 0 = x i
  rw [add_zero]

/-- **C83 (gradient norm).**  For a problem without a manifold, the `gradient_max_norm` of every recorded iteration is the
largest absolute value of a component of the gradient that the user's function returned at its point. -/
theorem solve_gradient_max_norm {A : Type} (b : Build) (N : Numerics) (junk : Buf) (late : ℕ → Bool)
    {f : FirstOrderFunction} {p : Problem} (hp : create f none = some p) (hc : f.Consistent)
    {o : Options p.manifold.ambientSize A} (hv : ValidOptions o) (hf : FiniteOptions o)
    (w : Driver.World p.Point A) :
    ∀ it ∈ (solve b N junk late p o w).2.iters, ∃ g,
      p.function.evaluate (fun i => it.x (Fin.cast p.sizes i)) true = some (.fin it.cost, g) ∧
        it.gradientMaxNorm = ‖g‖ := by
  have hp' : p = ⟨f, euclideanManifold f.numParameters, rfl⟩ := by
    simp only [create, Option.some.injEq] at hp
    exact hp.symm
  subst hp'
  intro it hit
  obtain ⟨g, y, h1, h2, h3⟩ := (solve_verdict b N junk late (p := ⟨f, euclideanManifold f.numParameters, rfl⟩)
    (euclidean_zeroStep f) hc hv hf w).2.2.1 it hit
  obtain ⟨g₀, h4, h5⟩ := evaluate_components h1
  refine ⟨g₀, h4, ?_⟩
  have h6 := h5 _ rfl
  have h7 : ∀ j : Fin f.numParameters, g j = g₀ j := by
    intro j
    rw [h6 j]
    refine (Finset.sum_eq_single (s := (Finset.univ : Finset (Fin f.numParameters)))
      (f := fun k => g₀ k * (1 : Matrix (Fin f.numParameters) (Fin f.numParameters) ℝ) k j) j ?_ (by simp)).trans ?_
    · intro k _ hk
      rw [Matrix.one_apply_ne hk, mul_zero]
    · rw [Matrix.one_apply_eq, mul_one]
  have h8 : it.x - y = g₀ := by
    have h9 : some (Ceres.Manifold.euclideanPlus it.x (WithLp.ofLp (-g))) = some y := h2
    rw [Option.some.injEq] at h9
    rw [← h9]
    funext (i : Fin f.numParameters)
    change it.x i - (it.x i + -(g i)) = g₀ i
    rw [h7]
    ring
  rw [h3, h8]
  rfl

end

end Ceres.GradientProblem
