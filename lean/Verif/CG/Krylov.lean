import Verif.CG.Theory

/-!
# Optimality and finite termination of the recurrence
-/

noncomputable section

namespace Ceres.CG

open Matrix

variable {n : ℕ} {o : Options} {lhs prec : Op n} {A M : Matrix (Fin n) (Fin n) ℝ} {b x0 : Vec n}

/-- Symmetric positive definite, spelled out. -/
def SPD (A : Matrix (Fin n) (Fin n) ℝ) : Prop :=
  A.IsSymm ∧ ∀ x : Vec n, x ≠ 0 → 0 < x ⬝ᵥ A *ᵥ x

theorem SPD.nonneg (hA : SPD A) (x : Vec n) : 0 ≤ x ⬝ᵥ A *ᵥ x := by
  by_cases h : x = 0
  · simp [h]
  · exact (hA.2 x h).le

/-- `p·r = rho` for the direction of the next iteration. -/
theorem p_dot_r' (hl : ∀ x, lhs x 0 = A *ᵥ x) (k : ℕ)
    (hg : ∀ l, l < k → Good o lhs prec b x0 l) :
    (S o lhs prec b x0 (k + 1)).p ⬝ᵥ (S o lhs prec b x0 k).r =
      (S o lhs prec b x0 (k + 1)).rho := by
  cases k with
  | zero => rw [rho_succ, zero_add, p_one, dotProduct_comm]
  | succ k =>
    rw [p_succ, add_dotProduct, smul_dotProduct, (p_dot_r hl k hg).2, smul_zero, add_zero,
      dotProduct_comm]
    rfl

/-- As long as the residual is not zero, the iteration cannot break down. -/
theorem good_of_residual (hl : ∀ x, lhs x 0 = A *ᵥ x) (hp : ∀ x, prec x 0 = M *ᵥ x)
    (hA : SPD A) (hM : SPD M) (k : ℕ) (hg : ∀ l, l < k → Good o lhs prec b x0 l)
    (hr : (S o lhs prec b x0 k).r ≠ 0) : Good o lhs prec b x0 k := by
  have hrho : 0 < (S o lhs prec b x0 (k + 1)).rho := by
    rw [rho_succ, hp]; exact hM.2 _ hr
  refine ⟨hrho.ne', ?_⟩
  rw [hl]
  apply hA.2
  intro h
  have := p_dot_r' hl k hg
  rw [h, zero_dotProduct] at this
  exact hrho.ne this

/-- The directions of `k` good iterations are linearly independent. -/
theorem dirs_independent (hl : ∀ x, lhs x 0 = A *ᵥ x) (hp : ∀ x, prec x 0 = M *ᵥ x)
    (hA : A.IsSymm) (hM : M.IsSymm) (k : ℕ) (hg : ∀ l, l < k → Good o lhs prec b x0 l) :
    LinearIndependent ℝ (fun i : Fin k => (S o lhs prec b x0 (i + 1)).p) := by
  have hc := (conjugacy hl hp hA hM k hg).2
  rw [Fintype.linearIndependent_iff]
  intro g h0 j
  have hpq := (hg j j.2).2
  rw [hl] at hpq
  have h1 : (∑ i : Fin k, g i • (S o lhs prec b x0 (i + 1)).p) ⬝ᵥ
      A *ᵥ (S o lhs prec b x0 (j + 1)).p = 0 := by rw [h0, zero_dotProduct]
  rw [sum_dotProduct, Finset.sum_eq_single j] at h1
  · rw [smul_dotProduct, smul_eq_mul] at h1
    rcases mul_eq_zero.1 h1 with h | h
    · exact h
    · exact absurd h hpq.ne'
  · intro i _ hij
    rw [smul_dotProduct]
    have : (S o lhs prec b x0 (i + 1)).p ⬝ᵥ A *ᵥ (S o lhs prec b x0 (j + 1)).p = 0 := by
      rcases lt_or_gt_of_ne (fun h => hij (Fin.ext h) : (i : ℕ) ≠ j) with h | h
      · exact hc _ _ h j.2
      · rw [symm_dot hA]; exact hc _ _ h i.2
    rw [this, smul_zero]
  · intro h; exact absurd (Finset.mem_univ _) h

/-- No more than `n` iterations can pass the checks. -/
theorem good_le (hl : ∀ x, lhs x 0 = A *ᵥ x) (hp : ∀ x, prec x 0 = M *ᵥ x)
    (hA : A.IsSymm) (hM : M.IsSymm) (k : ℕ) (hg : ∀ l, l < k → Good o lhs prec b x0 l) :
    k ≤ n := by
  have := (dirs_independent hl hp hA hM k hg).fintype_card_le_finrank
  simpa using this

/-- After `n` good iterations the residual is zero. -/
theorem residual_zero (hl : ∀ x, lhs x 0 = A *ᵥ x) (hp : ∀ x, prec x 0 = M *ᵥ x)
    (hA : SPD A) (hM : SPD M) (hg : ∀ l, l < n → Good o lhs prec b x0 l) :
    (S o lhs prec b x0 n).r = 0 := by
  by_contra hr
  have hgn := good_of_residual hl hp hA hM n hg hr
  have := good_le (o := o) (b := b) (x0 := x0) hl hp hA.1 hM.1 (n + 1) (fun l h => by
    rcases Nat.lt_succ_iff_lt_or_eq.1 h with h | h
    · exact hg l h
    · exact h ▸ hgn)
  omega

/-- The Krylov space `span {(MA)^i M (b - A x0) | i < k}`. -/
def krylov (A M : Matrix (Fin n) (Fin n) ℝ) (r0 : Vec n) (k : ℕ) : Submodule ℝ (Vec n) :=
  Submodule.span ℝ {v | ∃ i, i < k ∧ v = (M * A) ^ i *ᵥ (M *ᵥ r0)}

theorem krylov_mono {r0 : Vec n} {j k : ℕ} (h : j ≤ k) : krylov A M r0 j ≤ krylov A M r0 k :=
  Submodule.span_mono fun _ ⟨i, hi, hv⟩ => ⟨i, by omega, hv⟩

theorem krylov_step {r0 : Vec n} {k : ℕ} {v : Vec n} (h : v ∈ krylov A M r0 k) :
    (M * A) *ᵥ v ∈ krylov A M r0 (k + 1) := by
  induction h using Submodule.span_induction with
  | mem v hv =>
    obtain ⟨i, hi, rfl⟩ := hv
    exact Submodule.subset_span ⟨i + 1, by omega, by rw [mulVec_mulVec, pow_succ']⟩
  | zero => simp
  | add v w _ _ h1 h2 => rw [mulVec_add]; exact Submodule.add_mem _ h1 h2
  | smul c v _ h1 => rw [mulVec_smul]; exact Submodule.smul_mem _ _ h1

/-- Directions lie in the Krylov space, and so do the preconditioned residuals. -/
theorem p_mem_krylov (hl : ∀ x, lhs x 0 = A *ᵥ x) (hp : ∀ x, prec x 0 = M *ᵥ x) (k : ℕ) :
    (S o lhs prec b x0 (k + 1)).p ∈ krylov A M (b - A *ᵥ x0) (k + 1) ∧
      prec (S o lhs prec b x0 k).r 0 ∈ krylov A M (b - A *ᵥ x0) (k + 1) := by
  induction k with
  | zero =>
    have h : prec (S o lhs prec b x0 0).r 0 ∈ krylov A M (b - A *ᵥ x0) (0 + 1) := by
      rw [hp, residual_true hl]
      exact Submodule.subset_span ⟨0, by omega, by simp [S]⟩
    refine ⟨?_, h⟩
    rw [zero_add, p_one]
    exact h
  | succ k ih =>
    have hz : prec (S o lhs prec b x0 (k + 1)).r 0 ∈ krylov A M (b - A *ᵥ x0) (k + 1 + 1) := by
      rw [hp, r_succ hl, mulVec_sub, mulVec_smul, mulVec_mulVec, ← hp]
      exact Submodule.sub_mem _ (krylov_mono (by omega) ih.2)
        (Submodule.smul_mem _ _ (krylov_step ih.1))
    refine ⟨?_, hz⟩
    rw [p_succ]
    exact Submodule.add_mem _ hz (Submodule.smul_mem _ _ (krylov_mono (by omega) ih.1))

theorem x_mem_krylov (hl : ∀ x, lhs x 0 = A *ᵥ x) (hp : ∀ x, prec x 0 = M *ᵥ x) (k : ℕ) :
    (S o lhs prec b x0 k).x - x0 ∈ krylov A M (b - A *ᵥ x0) k := by
  induction k with
  | zero => simp [S]
  | succ k ih =>
    rw [x_succ hl, add_sub_right_comm]
    exact Submodule.add_mem _ (krylov_mono (by omega) ih)
      (Submodule.smul_mem _ _ (p_mem_krylov hl hp k).1)

/-- `M A` maps a span of directions into the next one. -/
theorem dirs_step (hl : ∀ x, lhs x 0 = A *ᵥ x) (hp : ∀ x, prec x 0 = M *ᵥ x) (k : ℕ)
    (hg : ∀ l, l < k → Good o lhs prec b x0 l) {v : Vec n} (hv : v ∈ dirs o lhs prec b x0 k) :
    (M * A) *ᵥ v ∈ dirs o lhs prec b x0 (k + 1) := by
  induction hv using Submodule.span_induction with
  | mem v hv =>
    obtain ⟨i, hi, rfl⟩ := hv
    have hgi := hg i hi
    have hpq := hgi.2
    rw [hl] at hpq
    have hα := div_ne_zero hgi.1 hpq.ne'
    have h := z_mem_dirs (o := o) (lhs := lhs) (prec := prec) (b := b) (x0 := x0) (i + 1)
    have h' := z_mem_dirs (o := o) (lhs := lhs) (prec := prec) (b := b) (x0 := x0) i
    rw [hp, r_succ hl, mulVec_sub, mulVec_smul, mulVec_mulVec, ← hp] at h
    have h2 := Submodule.sub_mem _ (dirs_mono (show i + 1 ≤ i + 1 + 1 by omega) h') h
    rw [sub_sub_cancel] at h2
    have h3 := (Submodule.smul_mem_iff _ hα).1 h2
    exact dirs_mono (by omega) h3
  | zero => simp
  | add v w _ _ h1 h2 => rw [mulVec_add]; exact Submodule.add_mem _ h1 h2
  | smul c v _ h1 => rw [mulVec_smul]; exact Submodule.smul_mem _ _ h1

theorem krylov_le_dirs (hl : ∀ x, lhs x 0 = A *ᵥ x) (hp : ∀ x, prec x 0 = M *ᵥ x) (k : ℕ)
    (hg : ∀ l, l < k → Good o lhs prec b x0 l) :
    krylov A M (b - A *ᵥ x0) k ≤ dirs o lhs prec b x0 k := by
  have key : ∀ i, i < k → (M * A) ^ i *ᵥ (M *ᵥ (b - A *ᵥ x0)) ∈
      dirs o lhs prec b x0 (i + 1) := by
    intro i
    induction i with
    | zero =>
      intro _
      have h := z_mem_dirs (o := o) (lhs := lhs) (prec := prec) (b := b) (x0 := x0) 0
      rw [hp, residual_true hl] at h
      simpa [S] using h
    | succ i ih =>
      intro hi
      rw [pow_succ', ← mulVec_mulVec]
      exact dirs_step hl hp (i + 1) (fun l h => hg l (by omega)) (ih (by omega))
  refine Submodule.span_le.2 ?_
  rintro v ⟨i, hi, rfl⟩
  exact dirs_mono (by omega) (key i hi)

/-- The `k`-th iterate minimises the quadratic over `x0` plus the `k`-th Krylov space. -/
theorem iterate_optimal (hl : ∀ x, lhs x 0 = A *ᵥ x) (hp : ∀ x, prec x 0 = M *ᵥ x)
    (hA : A.IsSymm) (hpos : ∀ x : Vec n, 0 ≤ x ⬝ᵥ A *ᵥ x) (hM : M.IsSymm) (k : ℕ)
    (hg : ∀ l, l < k → Good o lhs prec b x0 l) {d : Vec n}
    (hd : d ∈ krylov A M (b - A *ᵥ x0) k) :
    qf A b (S o lhs prec b x0 k).x ≤ qf A b (x0 + d) := by
  have hd' : x0 + d - (S o lhs prec b x0 k).x ∈ krylov A M (b - A *ᵥ x0) k := by
    have := Submodule.sub_mem _ hd (x_mem_krylov (o := o) (b := b) (x0 := x0) hl hp k)
    have e : x0 + d - (S o lhs prec b x0 k).x = d - ((S o lhs prec b x0 k).x - x0) := by abel
    rwa [e]
  have ho := dirs_orth (conjugacy hl hp hA hM k hg).1 _ (krylov_le_dirs hl hp k hg hd')
  have e : x0 + d = (S o lhs prec b x0 k).x + (x0 + d - (S o lhs prec b x0 k).x) := by abel
  rw [e, qf_add hA, ← residual_true hl (o := o) (prec := prec) (b := b) (x0 := x0) k, ho]
  have := hpos (x0 + d - (S o lhs prec b x0 k).x)
  linarith

end Ceres.CG
