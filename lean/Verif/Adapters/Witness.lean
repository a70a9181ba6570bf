import Verif.Adapters.Conditioned
import Verif.Adapters.Functor
import Verif.Adapters.Checker
import Mathlib.Analysis.Calculus.Deriv.Pow
import Mathlib.Tactic.NormNum

/-!
# C81: where checking interferes, and concrete cases
-/
namespace Ceres.Adapters

open Ceres.NumericDiff (Params at')

noncomputable section

/-- **`check_gradients` changes the outcome at the edge of the domain**: a cost function that succeeds at a point but
not above it in some coordinate fails there once gradient checking is on (gradient_checker.cc:165-195 lets the
numeric evaluation decide `return_value`, documented as that of the cost function). -/
theorem checking_fails_at_boundary {c : CostFunction} {dom : Params → Prop} {f : Params → ℕ → ℝ}
    {J : Params → ℕ → ℕ → ℕ → ℝ} (hc : Computes c dom f J) (hn : c.numResiduals ≠ 0) {o : NumericDiff.Options}
    (ho : Sane o) (junk' : ℕ → ℕ → ℝ) {manifolds : ℕ → Option Mfld} (hM : Fits c manifolds) (junk : ℕ → ℝ) (e : ℝ)
    {p : Params} (hd : dom p) {i j : ℕ} (hi : i < c.sizes.length) (hj : j < c.sizes.getD i 0)
    (hb : ∀ h, 0 < h → ¬ dom (at' p i j (p i j + h))) (residuals : ℕ → ℝ) (js : ℕ → Option (ℕ → ℝ)) :
    (c.evaluate p residuals (some js)).ok = true ∧
    ∃ out, checkingEvaluate c (numericOf o junk' c) manifolds junk e p residuals (some js) = some (out, false) ∧
      out.ok = false := by
  refine ⟨(hc.ok _ _ _).2 hd, ?_⟩
  obtain ⟨out, told, b, res, -, h2, h3, h4, -⟩ := checking_evaluate (n := numericOf o junk' c) hc rfl rfl hn hM junk e p
    residuals js
  suffices hf : (full (numericOf o junk' c) p).ok ≠ true by
    have h5 : out.ok = false := by
      by_contra h
      exact hf (h3.1 (by simpa using h)).2
    have h6 : told = false := by
      by_contra h
      have := (h4.1 (by simpa using h)).1
      rw [h5] at this
      cases this
    exact ⟨out, by rw [h2, h6], h5⟩
  intro hok
  set F : NumericDiff.Functor c.numResiduals := fun p =>
      if (c.evaluate p (fun _ => 0) none).ok then some fun i => (c.evaluate p (fun _ => 0) none).residuals i else none
    with hF
  set jf : ℕ → Option (ℕ → ℝ) := fun i => if i < c.sizes.length then some fun _ => 0 else none with hjf
  obtain ⟨-, hspec⟩ := NumericDiff.dynamicNumericEvaluate_spec o .ridders c.sizes F (fun k i => junk' k i) p
    (fun _ => 0) jf (fun _ => ho.extrapolations)
  obtain ⟨hQ, -⟩ := hspec _ (if_pos ((hc.ok p (fun _ => 0) none).2 hd))
  have hne : (NumericDiff.dynamicNumericEvaluate o .ridders c.sizes F (fun k i => junk' k i) p
    (fun _ => 0) (some jf)).jacobians i ≠ none := by
    intro h
    have := (hQ.null i).1 h
    rw [hjf] at this
    simp only [if_pos hi] at this
    cases this
  obtain ⟨a, ha⟩ := Option.ne_none_iff_exists'.1 hne
  obtain ⟨d, hq, -⟩ := hQ.jacobian hok i hi a ha j hj
  obtain ⟨first, i', k, -, -, hcen, -⟩ := hq
  obtain ⟨r, r', h1, -⟩ := hcen 0 (Nat.zero_le _)
  have hpos : 0 < NumericDiff.stepSize o .ridders (p i j) *
      o.riddersStepShrinkFactor ^ (o.maxNumRiddersExtrapolations / 2) / o.riddersStepShrinkFactor ^ 0 := by
    have h1 := NumericDiff.stepSize_pos o .ridders (p i j) ho.epsilon
    have h2 : 0 < o.riddersStepShrinkFactor := by linarith [ho.shrink]
    positivity
  refine hb _ hpos ?_
  rw [hF] at h1
  simp only at h1
  by_contra hnd
  rw [if_neg (fun h => hnd ((hc.ok _ _ _).1 h))] at h1
  cases h1

/-! ## Concrete cost functions -/

open Classical in
/-- A cost function of one variable, defined on `D`. -/
def scalar (D : ℝ → Prop) (φ φ' : ℝ → ℝ) : CostFunction where
  sizes := [1]
  numResiduals := 1
  evaluate := fun p res js =>
    if D (p 0 0) then ⟨true, Function.update res 0 (φ (p 0 0)),
      js.map fun js => Function.update js 0 ((js 0).map fun a => Function.update a 0 (φ' (p 0 0)))⟩
    else ⟨false, res, js⟩

theorem scalar_computes (D : ℝ → Prop) (φ φ' : ℝ → ℝ) :
    Computes (scalar D φ φ') (fun p => D (p 0 0)) (fun p _ => φ (p 0 0)) (fun p _ _ _ => φ' (p 0 0)) := by
  refine ⟨fun p res js => ?_, fun p res js hd r hr => ?_, fun p res js r hr => ?_, fun p res => ?_,
    fun p res js => ?_, fun p p' h => ?_⟩
  · simp only [scalar]; split_ifs with h <;> simp [h]
  · simp only [scalar] at hr ⊢
    rw [if_pos hd]
    obtain rfl : r = 0 := by omega
    simp
  · simp only [scalar] at hr ⊢
    split_ifs
    · exact Function.update_of_ne (by omega) _ _
    · rfl
  · simp only [scalar]; split_ifs <;> rfl
  · simp only [scalar]
    by_cases hd : D (p 0 0)
    · rw [if_pos hd]
      refine ⟨_, rfl, fun i => ?_⟩
      beta_reduce
      by_cases hi : i = 0
      · subst hi
        rw [Function.update_self]
        refine ⟨fun h => by rw [h]; rfl, fun a ha => ⟨_, by rw [ha]; rfl, fun _ _ r hr k hk => ?_, fun q hq => ?_⟩⟩
        · simp only [List.getD_cons_zero] at hk ⊢
          obtain rfl : r = 0 := by omega
          obtain rfl : k = 0 := by omega
          simp
        · simp at hq
          exact Function.update_of_ne (by omega) _ _
      · rw [Function.update_of_ne hi]
        exact ⟨fun h => h, fun a ha => ⟨a, ha, fun _ h => by simp at h; omega, fun _ _ => rfl⟩⟩
    · rw [if_neg hd]
      exact ⟨js, rfl, fun i => ⟨fun h => h, fun a ha => ⟨a, ha, fun h => absurd h hd, fun _ _ => rfl⟩⟩⟩
  · have e := h 0 (by simp [scalar]) 0 (by simp [scalar])
    exact ⟨by rw [e], fun _ => by rw [e], fun _ _ _ => by rw [e]⟩

/-- The only coordinate. -/
def only : Coord [1] := ⟨⟨0, by simp⟩, ⟨0, by simp⟩⟩

theorem scalar_jacobian {φ φ' : ℝ → ℝ} {p : Params} (h : HasDerivAt φ (φ' (p 0 0)) (p 0 0)) :
    IsJacobian [1] 1 (fun p _ => φ (p 0 0)) (fun _ _ _ => φ' (p 0 0)) p := by
  intro r _
  have e : (fun x : Coord [1] → ℝ => φ (toParams x 0 0)) =
      φ ∘ (ContinuousLinearMap.proj only : (Coord [1] → ℝ) →L[ℝ] ℝ) := by
    funext x
    unfold toParams
    rw [dif_pos ⟨by simp, by simp⟩]
    rfl
  rw [e]
  have h1 : HasDerivAt φ (φ' (p 0 0)) ((ContinuousLinearMap.proj only : (Coord [1] → ℝ) →L[ℝ] ℝ)
    (ofParams [1] p)) := h
  have h2 := h1.comp_hasFDerivAt (ofParams [1] p)
    (ContinuousLinearMap.proj only : (Coord [1] → ℝ) →L[ℝ] ℝ).hasFDerivAt
  refine h2.congr_fderiv ?_
  rw [Fintype.sum_sigma]
  simp only [List.length_singleton, Fin.sum_univ_one, Fin.isValue]
  exact (Fin.sum_univ_one (fun _ : Fin 1 => φ' (p 0 0) •
    (ContinuousLinearMap.proj only : (Coord [1] → ℝ) →L[ℝ] ℝ))).symm

theorem scalar_scalar (D : ℝ → Prop) (φ φ' : ℝ → ℝ) : (scalar D φ φ').isScalar := ⟨rfl, rfl⟩

/-- The square. -/
theorem sq_deriv (x : ℝ) : HasDerivAt (fun x : ℝ => x ^ 2) (2 * x) x := by
  simpa using hasDerivAt_pow 2 x

/-- Conditioning: two residuals `2 x - 6` and `x - 3`, the first squared, the second left as it is. -/
example : ∃ w c, normalPrior 2 1 1 (fun i _ => if i = 0 then 2 else 1) (fun _ => 3) = some w ∧
    conditioned w [some (scalar (fun _ => True) (fun x => x ^ 2) fun x => 2 * x), none] = some c ∧
    (c.evaluate (fun _ _ => 5) (fun _ => 0) none).residuals 0 = 16 ∧
    (c.evaluate (fun _ _ => 5) (fun _ => 0) none).residuals 1 = 2 := by
  obtain ⟨w, hw, hws, hwn, hwc, -⟩ := normal_prior (rows := 2) (n := 1) (by omega) (by omega)
    (fun i _ => if i = 0 then 2 else 1) (fun _ => 3)
  obtain ⟨c, hc, -, hcn, hcc⟩ := conditioned_computes hwc
    (gs := [some (scalar (fun _ => True) (fun x => x ^ 2) fun x => 2 * x), none]) hwn
    (D := fun _ _ => True) (φ := fun r x => if r = 0 then x ^ 2 else x) (φ' := fun r x => if r = 0 then 2 * x else 1)
    (fun r g hg => by
      match r, hg with
      | 0, hg => cases hg; exact ⟨scalar_scalar _ _ _, by simpa using scalar_computes (fun _ => True) (fun x => x ^ 2) fun x => 2 * x⟩
      | 1, hg => cases hg; exact ⟨fun _ => trivial, fun _ => rfl, fun _ => rfl⟩
      | r + 2, hg => simp at hg)
  refine ⟨w, c, hw, hc, ?_, ?_⟩
  · rw [hcc.residuals _ _ _ ⟨trivial, fun _ _ => trivial⟩ 0 (by rw [hcn, hwn]; omega), hwn]
    norm_num
  · rw [hcc.residuals _ _ _ ⟨trivial, fun _ _ => trivial⟩ 1 (by rw [hcn, hwn]; omega), hwn]
    norm_num

/-- Deleted once each: two different conditioners, one used twice, and a null. -/
example : deletes true 9 [4, 0, 7, 4] = [0, 4, 7, 9] := by
  simp [deletes, List.mergeSort, List.MergeSort.Internal.splitInTwo, unique]

/-- The functor on jets: the square of `t₀ t₁` at `(3, 2)`. -/
example (t : Fin 2 → ℝ) : Ceres.Jet.Represents
    ((functorJets (N := 2) (scalar (fun _ => True) (fun x => x ^ 2) fun x => 2 * x) (fun _ => 0)
      (fun _ _ => (Ceres.Jet.Jet.seed (t 0) 0).mul (Ceres.Jet.Jet.seed (t 1) 1)) fun _ => ⟨0, 0⟩).2 0)
    (fun t => (t 0 * t 1) ^ 2) t := by
  have h := functor_jets_compose (scalar_computes (fun _ => True) (fun x => x ^ 2) fun x => 2 * x) (fun _ => 0)
    (fun _ _ => (Ceres.Jet.Jet.seed (t 0) 0).mul (Ceres.Jet.Jet.seed (t 1) 1)) (fun _ => ⟨0, 0⟩)
    (fun _ _ t => t 0 * t 1) t
    (fun _ _ _ _ => Ceres.Jet.mul_represents (Ceres.Jet.seed_represents 0) (Ceres.Jet.seed_represents 1)) trivial
    (scalar_jacobian (φ' := fun x => 2 * x) (p := fun _ _ => t 0 * t 1) (sq_deriv _))
  exact h.2.1 0 (by simp [scalar])

/-- Some options. -/
def defaultOptions : NumericDiff.Options := ⟨1 / 10, 1 / 10, 10, 1, 2, 1 / 100, 1000⟩

theorem defaultOptions_sane : Sane defaultOptions := ⟨by norm_num [defaultOptions], by norm_num [defaultOptions],
  by norm_num [defaultOptions]⟩

theorem sq_quadratic (p : Params) : Quadratic [1] 1 (fun p _ => (p 0 0) ^ 2) p := by
  intro i hi j hj r _
  simp only [List.length_singleton] at hi
  obtain rfl : i = 0 := by omega
  simp only [List.getD_cons_zero] at hj
  obtain rfl : j = 0 := by omega
  exact ⟨0, 0, 1, fun t => by simp [at']⟩

/-- The derivative `2 x` of the square passes the check. -/
example (p : Params) : ∃ res, probe (scalar (fun _ => True) (fun x => x ^ 2) fun x => 2 * x)
    (numericOf defaultOptions (fun _ _ => 0) (scalar (fun _ => True) (fun x => x ^ 2) fun x => 2 * x)) (fun _ => none)
    (fun _ => 0) (1 / 1000) p = some (true, res) :=
  right_gradient_accepted (scalar_computes (fun _ => True) (fun x => x ^ 2) fun x => 2 * x) (by simp [scalar]) defaultOptions_sane _
    (fun _ _ _ h => by cases h) _ (by norm_num) (sq_quadratic p)
    (scalar_jacobian (φ' := fun x => 2 * x) (sq_deriv _))

/-- The derivative `3 x` does not, at one. -/
example : ∃ res, probe (scalar (fun _ => True) (fun x => x ^ 2) fun x => 3 * x)
    (numericOf defaultOptions (fun _ _ => 0) (scalar (fun _ => True) (fun x => x ^ 2) fun x => 3 * x)) (fun _ => none)
    (fun _ => 0) (1 / 1000) (fun _ _ => 1) = some (false, res) := by
  obtain ⟨b, res, h1, -, h3⟩ := gradient_check_decides (scalar_computes (fun _ => True) (fun x => x ^ 2) fun x => 3 * x)
    (by simp [scalar]) defaultOptions_sane (fun _ _ => 0) (manifolds := fun _ => none) (fun _ _ _ h => by cases h)
    (fun _ => 0) (e := 1 / 1000) (by norm_num) (p := fun _ _ => 1) (sq_quadratic _)
    (scalar_jacobian (φ' := fun x => 2 * x) (sq_deriv _))
  have hb : b = false := by
    by_contra h
    have := h3.1 (by simpa using h) 0 (by simp [scalar]) 0 (by simp [scalar]) 0 (by simp [scalar, tangentSize])
    simp only [tangent, Close] at this
    norm_num [abs_of_pos] at this
  exact ⟨res, by rw [h1, hb]⟩

/-- At the edge of its domain the identity on `x ≤ 1`, which evaluates at one, fails under gradient checking. -/
example : ∃ out, checkingEvaluate (scalar (fun x => x ≤ 1) (fun x => x) fun _ => 1)
    (numericOf defaultOptions (fun _ _ => 0) (scalar (fun x => x ≤ 1) (fun x => x) fun _ => 1)) (fun _ => none)
    (fun _ => 0) (1 / 1000) (fun _ _ => 1) (fun _ => 0) (some fun _ => some fun _ => 0) = some (out, false) ∧
    out.ok = false :=
  (checking_fails_at_boundary (scalar_computes (fun x => x ≤ 1) (fun x => x) fun _ => 1) (by simp [scalar])
    defaultOptions_sane _ (manifolds := fun _ => none) (fun _ _ _ h => by cases h) _ _ (p := fun _ _ => 1) (le_refl (1 : ℝ)) (i := 0) (j := 0) (by simp [scalar])
    (by simp [scalar]) (fun h hpos => by simp [at', hpos]) _ _).2

end

end Ceres.Adapters
