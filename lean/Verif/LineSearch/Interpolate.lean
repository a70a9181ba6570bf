import Verif.LineSearch.Polynomial
import Verif.LineSearch.Wolfe
import Mathlib.Algebra.Polynomial.FieldDivision
import Mathlib.LinearAlgebra.Matrix.Charpoly.Coeff
import Mathlib.LinearAlgebra.FiniteDimensional.Lemmas

/-!
# Interpolation and minimisation of the interpolant (C18)
-/
namespace Ceres.LineSearch

open Polynomial

variable {Y V : Type}

/-! ### Specification -/

/-- The samples are at different places and have no slope without a value. -/
structure Interpolable (samples : List (Sample ℝ Y V)) : Prop where
  distinct : (samples.map (·.x)).Nodup
  slopes : ∀ s ∈ samples, s.gradValid = true → s.valueValid = true

/-- The polynomial takes the value and the slope of every sample. -/
def Interpolates (p : List ℝ) (samples : List (Sample ℝ Y V)) : Prop :=
  ∀ s ∈ samples, (s.valueValid = true → (toPoly p).eval s.x = s.value) ∧
    (s.gradValid = true → (derivative (toPoly p)).eval s.x = slopeOf s)

/-! ### Rows of the linear system -/

theorem dot_valueRow (p : List ℝ) (x : ℝ) :
    dotRow (valueRow p.length x) p = (toPoly p).eval x := by
  induction p with
  | nil => simp [dotRow, valueRow, toPoly]
  | cons c l ih =>
    have h : valueRow (c :: l).length x = x ^ l.length :: valueRow l.length x := by
      unfold valueRow
      rw [List.length_cons, List.range_succ_eq_map, List.map_cons, List.map_map]
      simp only [Nat.add_sub_cancel, Nat.sub_zero, List.cons.injEq, true_and]
      apply List.map_congr_left
      intro j _
      simp only [Function.comp_apply]
      congr 1
      omega
    rw [h]
    simp only [dotRow, List.zipWith_cons_cons, List.sum_cons] at ih ⊢
    rw [ih, toPoly, eval_add]
    simp only [eval_mul, eval_C, eval_pow, eval_X]
    ring

theorem dot_slopeRow (p : List ℝ) (x : ℝ) :
    dotRow (slopeRow p.length x) p = (derivative (toPoly p)).eval x := by
  induction p with
  | nil => simp [dotRow, slopeRow, toPoly]
  | cons c l ih =>
    have h : slopeRow (c :: l).length x =
        (l.length : ℝ) * x ^ (l.length - 1) :: slopeRow l.length x := by
      unfold slopeRow
      rw [List.length_cons, List.range_succ_eq_map, List.map_cons, List.map_map]
      simp only [Nat.add_sub_cancel, Nat.sub_zero, List.cons.injEq]
      constructor
      · split
        · rfl
        · next h0 =>
          have : l.length = 0 := by omega
          simp [this]
      · apply List.map_congr_left
        intro j hj
        simp only [Function.comp_apply]
        have : (j + 1 < l.length) ↔ (j < l.length - 1) := by omega
        by_cases hlt : j < l.length - 1
        · rw [if_pos hlt, if_pos (this.mpr hlt)]
          congr 2 <;> first | omega | (congr 1; omega)
        · rw [if_neg hlt, if_neg (fun h => hlt (this.mp h))]
    rw [h]
    simp only [dotRow, List.zipWith_cons_cons, List.sum_cons] at ih ⊢
    rw [ih, toPoly, derivative_add, eval_add, derivative_C_mul_X_pow]
    simp only [eval_mul, eval_C, eval_pow, eval_X]
    ring

theorem degree_toPoly_lt (p : List ℝ) : (toPoly p).degree < p.length := by
  induction p with
  | nil => simp [toPoly]
  | cons c l ih =>
    rw [toPoly, List.length_cons]
    refine lt_of_le_of_lt (degree_add_le _ _) (max_lt ?_ (lt_trans ih ?_))
    · refine lt_of_le_of_lt (degree_C_mul_X_pow_le _ _) ?_
      exact_mod_cast Nat.lt_succ_self _
    · exact_mod_cast Nat.lt_succ_self _

theorem toPoly_eq_zero {p : List ℝ} (h : toPoly p = 0) : ∀ c ∈ p, c = 0 := by
  induction p with
  | nil => simp
  | cons c l ih =>
    rw [toPoly] at h
    have hc : c = 0 := by
      have := congrArg (fun q => q.coeff l.length) h
      simp only [coeff_add, coeff_C_mul_X_pow, if_true, coeff_zero] at this
      rw [coeff_eq_zero_of_degree_lt (degree_toPoly_lt l), add_zero] at this
      exact this
    rw [hc] at h
    simp only [map_zero, zero_mul, zero_add] at h
    intro d hd
    rcases List.mem_cons.mp hd with rfl | hd
    · exact hc
    · exact ih h d hd

/-! ### The system is nonsingular -/

/-- The number of constraints one sample contributes. -/
def weight (s : Sample ℝ Y V) : ℕ :=
  (if s.valueValid then 1 else 0) + (if s.gradValid then 1 else 0)

theorem sum_count_le (S : Finset ℝ) (R : Multiset ℝ) : ∑ x ∈ S, R.count x ≤ R.card := by
  rw [← Multiset.sum_count_eq_card (s := S ∪ R.toFinset) (m := R) (fun a ha => by simp [ha])]
  exact Finset.sum_le_sum_of_subset Finset.subset_union_left

/-- A polynomial of degree less than the number of homogeneous constraints vanishes. -/
theorem hermite_unique {samples : List (Sample ℝ Y V)} (hs : Interpolable samples) (P : ℝ[X])
    (hdeg : P.degree < numConstraints samples)
    (hval : ∀ s ∈ samples, s.valueValid = true → P.eval s.x = 0)
    (hder : ∀ s ∈ samples, s.gradValid = true → (derivative P).eval s.x = 0) : P = 0 := by
  by_contra hP
  have h1 : ∀ s ∈ samples, weight s ≤ P.roots.count s.x := by
    intro s hsm
    rw [count_roots]
    unfold weight
    cases hv : s.valueValid with
    | false =>
      cases hg : s.gradValid with
      | false => simp
      | true => rw [hs.slopes s hsm hg] at hv; cases hv
    | true =>
      have r0 : P.IsRoot s.x := hval s hsm hv
      cases hg : s.gradValid with
      | false =>
        have := (rootMultiplicity_pos hP).mpr r0
        show 1 + 0 ≤ _
        omega
      | true =>
        have := (one_lt_rootMultiplicity_iff_isRoot hP).mpr ⟨r0, hder s hsm hg⟩
        show 1 + 1 ≤ _
        omega
  have h2 : numConstraints samples ≤ P.roots.card := by
    calc numConstraints samples = (samples.map weight).sum := rfl
      _ ≤ (samples.map fun s => P.roots.count s.x).sum := List.sum_le_sum h1
      _ = ((samples.map (·.x)).map fun x => P.roots.count x).sum := by rw [List.map_map]; rfl
      _ = ∑ x ∈ (samples.map (·.x)).toFinset, P.roots.count x := by
          rw [List.sum_toFinset _ hs.distinct]
      _ ≤ P.roots.card := sum_count_le _ _
  have h3 := card_roots hP
  have : (numConstraints samples : WithBot ℕ) ≤ P.degree :=
    le_trans (by exact_mod_cast h2) h3
  exact absurd hdeg (not_lt.mpr this)

theorem mem_constraintsOf {n : ℕ} {s : Sample ℝ Y V} {r : List ℝ × ℝ}
    (h : r ∈ constraintsOf n s) :
    (s.valueValid = true ∧ r = (valueRow n s.x, s.value)) ∨
      (s.gradValid = true ∧ r = (slopeRow n s.x, slopeOf s)) := by
  unfold constraintsOf at h
  rcases List.mem_append.mp h with h | h
  · split at h
    · next hv => left; exact ⟨hv, by simpa using h⟩
    · simp at h
  · split at h
    · next hv => right; exact ⟨hv, by simpa using h⟩
    · simp at h

theorem constraints_length (n : ℕ) (samples : List (Sample ℝ Y V)) :
    (samples.flatMap (constraintsOf n)).length = numConstraints samples := by
  rw [List.length_flatMap]
  unfold numConstraints
  congr 1
  apply List.map_congr_left
  intro s _
  unfold constraintsOf
  cases s.valueValid <;> cases s.gradValid <;> rfl

/-- **C18.** The interpolating polynomial matches the value and the slope of every sample. -/
theorem interpolate_spec {N : Numerics} (hN : SolvesSystems N)
    {samples : List (Sample ℝ Y V)} (hs : Interpolable samples) :
    (interpolate N samples).length = numConstraints samples ∧
      Interpolates (interpolate N samples) samples := by
  unfold interpolate
  simp only
  have hlen := constraints_length (numConstraints samples) samples
  have H := hN ((samples.flatMap (constraintsOf (numConstraints samples))).map Prod.fst)
    ((samples.flatMap (constraintsOf (numConstraints samples))).map Prod.snd) (by simp) ?_ ?_
  · generalize N.solve _ _ = p at H
    obtain ⟨H1, H2⟩ := H
    rw [List.length_map, hlen] at H1
    refine ⟨H1, ?_⟩
    rw [List.map_map] at H2
    have H3 : ∀ r ∈ samples.flatMap (constraintsOf (numConstraints samples)),
        dotRow r.1 p = r.2 := by
      intro r hr
      have := List.map_inj_left.mp H2 r hr
      simpa using this
    intro s hsm
    constructor
    · intro hv
      have hm : (valueRow (numConstraints samples) s.x, s.value) ∈
          samples.flatMap (constraintsOf (numConstraints samples)) :=
        List.mem_flatMap.mpr ⟨s, hsm, by simp [constraintsOf, hv]⟩
      have := H3 _ hm
      rw [← H1, dot_valueRow] at this
      exact this
    · intro hg
      have hm : (slopeRow (numConstraints samples) s.x, slopeOf s) ∈
          samples.flatMap (constraintsOf (numConstraints samples)) :=
        List.mem_flatMap.mpr ⟨s, hsm, by simp [constraintsOf, hg]⟩
      have := H3 _ hm
      rw [← H1, dot_slopeRow] at this
      exact this
  · intro r hr
    rw [List.length_map, hlen]
    obtain ⟨c, hc, rfl⟩ := List.mem_map.mp hr
    obtain ⟨s, _, hc⟩ := List.mem_flatMap.mp hc
    rcases mem_constraintsOf hc with ⟨_, rfl⟩ | ⟨_, rfl⟩
    · simp [valueRow]
    · simp [slopeRow]
  · intro v hv hz
    rw [List.length_map, hlen] at hv
    apply toPoly_eq_zero
    refine hermite_unique hs _ ?_ ?_ ?_
    · rw [← hv]; exact degree_toPoly_lt v
    · intro s hsm hvv
      rw [← dot_valueRow, hv]
      refine hz _ (List.mem_map.mpr ⟨(valueRow (numConstraints samples) s.x, s.value), ?_, rfl⟩)
      exact List.mem_flatMap.mpr ⟨s, hsm, by simp [constraintsOf, hvv]⟩
    · intro s hsm hg
      rw [← dot_slopeRow, hv]
      refine hz _ (List.mem_map.mpr ⟨(slopeRow (numConstraints samples) s.x, slopeOf s), ?_, rfl⟩)
      exact List.mem_flatMap.mpr ⟨s, hsm, by simp [constraintsOf, hg]⟩

/-- **C18.** The interpolating polynomial is the only one of its degree that matches. -/
theorem interpolate_unique {N : Numerics} (hN : SolvesSystems N)
    {samples : List (Sample ℝ Y V)} (hs : Interpolable samples) (Q : ℝ[X])
    (hdeg : Q.degree < numConstraints samples)
    (hQ : ∀ s ∈ samples, (s.valueValid = true → Q.eval s.x = s.value) ∧
      (s.gradValid = true → (derivative Q).eval s.x = slopeOf s)) :
    toPoly (interpolate N samples) = Q := by
  obtain ⟨h1, h2⟩ := interpolate_spec hN hs
  rw [← sub_eq_zero]
  refine hermite_unique hs _ ?_ ?_ ?_
  · refine lt_of_le_of_lt (degree_sub_le _ _) (max_lt ?_ hdeg)
    rw [← h1]; exact degree_toPoly_lt _
  · intro s hsm hv
    rw [eval_sub, (h2 s hsm).1 hv, (hQ s hsm).1 hv, sub_self]
  · intro s hsm hv
    rw [derivative_sub, eval_sub, (h2 s hsm).2 hv, (hQ s hsm).2 hv, sub_self]

/-! ### Minimisation -/

/-- **C18, used by C16 and C17.** The step chosen by interpolation is inside the interval the
line search asks for, whatever the samples and the numerical routines. -/
theorem minimizeInterpolating_inside (N : Numerics) :
    StaysInside (K := ℝ) (X := Y) (V := V) (minimizeInterpolating N) := by
  intro l lo hi h
  unfold minimizeInterpolating
  exact (foldl_better _ lo hi (fun s : Sample ℝ Y V => s.x) l _
    (minimizePoly_inside N _ h).1).1

/-- **C18.** The step chosen by interpolation minimises the interpolating polynomial over the
interval, if the eigenvalue iteration succeeds or the degree is at most three. -/
theorem minimizeInterpolating_min {N : Numerics} (hN : FindsEigenvalues N)
    (samples : List (Sample ℝ Y V)) {lo hi : ℝ} (h : lo ≤ hi)
    (hroots : (findRoots N (differentiate (interpolate N samples))).isSome ∨
      (interpolate N samples).length ≤ 4) :
    ∀ x, lo ≤ x → x ≤ hi →
      (toPoly (interpolate N samples)).eval (minimizeInterpolating N samples lo hi) ≤
        (toPoly (interpolate N samples)).eval x := by
  have hr : (findRoots N (differentiate (interpolate N samples))).isSome := by
    rcases hroots with h | h
    · exact h
    · exact findRoots_isSome_of_length_le N _ h
  intro x hx hx'
  rw [← evalPoly_eq, ← evalPoly_eq]
  refine le_trans ?_ (minimizePoly_min hN _ h hr x hx hx')
  unfold minimizeInterpolating
  exact (foldl_better _ lo hi (fun s : Sample ℝ Y V => s.x) samples _
    (minimizePoly_inside N _ h).1).2.1

/-! ### The contracts can be met -/

theorem dotRow_add (r v w : List ℝ) (h1 : v.length = w.length) :
    dotRow r (List.zipWith (· + ·) v w) = dotRow r v + dotRow r w := by
  induction r generalizing v w with
  | nil => simp [dotRow]
  | cons a r ih =>
    cases v with
    | nil =>
      cases w with
      | nil => simp [dotRow]
      | cons b w => simp at h1
    | cons b v =>
      cases w with
      | nil => simp at h1
      | cons c w =>
        have := ih v w (by simpa using h1)
        simp only [dotRow, List.zipWith_cons_cons, List.sum_cons] at this ⊢
        rw [this]; ring

theorem dotRow_ofFn {n : ℕ} (r : List ℝ) (hr : r.length = n) (v : Fin n → ℝ) :
    dotRow r (List.ofFn v) = ∑ i : Fin n, r.getD i.val 0 * v i := by
  induction n generalizing r with
  | zero =>
    rw [List.length_eq_zero_iff] at hr
    simp [dotRow, hr]
  | succ n ih =>
    cases r with
    | nil => simp at hr
    | cons a r =>
      rw [List.ofFn_succ, Fin.sum_univ_succ]
      have := ih r (by simpa using hr) (fun i => v i.succ)
      simp only [dotRow, List.zipWith_cons_cons, List.sum_cons] at this ⊢
      rw [this]
      simp

/-- Exact linear algebra meets the contracts. -/
theorem exists_numerics : ∃ N : Numerics, SolvesSystems N ∧ FindsEigenvalues N ∧
    ∀ n M, (N.eig n M).isSome := by
  classical
  -- the solver picks a solution if there is one
  let solve : List (List ℝ) → List ℝ → List ℝ := fun rows rhs =>
    if h : ∃ v : List ℝ, v.length = rows.length ∧ rows.map (fun r => dotRow r v) = rhs
    then h.choose else []
  refine ⟨⟨solve, fun n M => some M.charpoly.roots.toList, fun _ _ => 0⟩, ?_, ?_, ?_⟩
  · intro rows rhs hrhs hsq hker
    have hex : ∃ v : List ℝ, v.length = rows.length ∧ rows.map (fun r => dotRow r v) = rhs := by
      let A : Matrix (Fin rows.length) (Fin rows.length) ℝ := fun i j => rows[i].getD j.val 0
      have hdot : ∀ (i : Fin rows.length) (v : Fin rows.length → ℝ),
          dotRow rows[i] (List.ofFn v) = A.mulVec v i := by
        intro i v
        exact dotRow_ofFn rows[i] (hsq _ (List.getElem_mem i.isLt)) v
      have hinj : Function.Injective A.mulVecLin := by
        rw [← LinearMap.ker_eq_bot, LinearMap.ker_eq_bot']
        intro v hv
        have h0 := hker (List.ofFn v) (by simp) (by
          intro r hr
          obtain ⟨i, hi, rfl⟩ := List.getElem_of_mem hr
          have := hdot ⟨i, hi⟩ v
          rw [show A.mulVec v = 0 from hv] at this
          exact this)
        funext i
        exact h0 (v i) (by simp [List.mem_ofFn])
      have hsurj := LinearMap.injective_iff_surjective.mp hinj
      obtain ⟨v, hv⟩ := hsurj (fun i => rhs[i.val]'(by rw [hrhs]; exact i.isLt))
      refine ⟨List.ofFn v, by simp, ?_⟩
      apply List.ext_getElem
      · simp [hrhs]
      · intro i h1 h2
        rw [List.getElem_map]
        have := hdot ⟨i, by simpa using h1⟩ v
        have h3 := congrFun hv ⟨i, by simpa using h1⟩
        simp only [Fin.getElem_fin] at this
        rw [this]
        exact h3
    show (solve rows rhs).length = rows.length ∧ rows.map (fun r => dotRow r (solve rows rhs)) = rhs
    simp only [solve, dif_pos hex]
    exact hex.choose_spec
  · intro n M l hl x hx
    simp only [Option.some.injEq] at hl
    rw [← hl, Multiset.mem_toList, mem_roots (Matrix.charpoly_monic M).ne_zero, IsRoot,
      Matrix.eval_charpoly, ← Matrix.exists_mulVec_eq_zero_iff]
    obtain ⟨v, hv, he⟩ := hx
    refine ⟨v, hv, ?_⟩
    rw [Matrix.sub_mulVec, he]
    simp
  · intro n M; rfl

/-- A cubic through two samples with slopes meets the hypotheses. -/
example : Interpolable (Y := ℝ) (V := ℝ)
    [Sample.initial 0 1 (-1), ⟨2, some 0, 3, true, some 0, .fin 4, true⟩] := by
  refine ⟨by simp [Sample.initial], by simp [Sample.initial]⟩

end Ceres.LineSearch
