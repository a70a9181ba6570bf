import Verif.CG.Krylov

/-!
# What a caller of the conjugate gradients solver can rely on

Specification vocabulary: `qf A b x = xᵀAx - 2bᵀx`, `SPD` (symmetric positive definite),
`krylov A M r k` and `norm2`.  `Applies lhs A` says that the operator, applied to a zeroed
vector, is multiplication by the matrix `A`.
-/

noncomputable section

namespace Ceres.CG

open Matrix

variable {n : ℕ} {A M : Matrix (Fin n) (Fin n) ℝ}

/-- The operator is multiplication by `A`. -/
def Applies (f : Op n) (A : Matrix (Fin n) (Fin n) ℝ) : Prop := ∀ x, f x 0 = A *ᵥ x

theorem dot_self_nonneg (v : Vec n) : 0 ≤ v ⬝ᵥ v :=
  Finset.sum_nonneg fun i _ => mul_self_nonneg (v i)

theorem norm2_eq_zero {v : Vec n} : norm2 v = 0 ↔ v = 0 := by
  unfold norm2
  rw [Real.sqrt_eq_zero (dot_self_nonneg v), dotProduct_self_eq_zero]

theorem norm2_nonneg (v : Vec n) : 0 ≤ norm2 v := Real.sqrt_nonneg _

/-- The number of iterations never exceeds the limit (one is always allowed), and at least the
requested minimum was done when success is reported after iterating. -/
theorem cg_iterations (o : Options) (lhs prec : Op n) (b x0 : Vec n) :
    ((solver o lhs prec b x0).numIterations : ℤ) ≤ max 1 o.maxNumIterations ∧
      ((solver o lhs prec b x0).termination = .success →
        (solver o lhs prec b x0).numIterations ≠ 0 →
        o.minNumIterations ≤ (solver o lhs prec b x0).numIterations) := by
  rcases solver_outcome o lhs prec b x0 with ⟨_, h⟩ | ⟨_, _, _, h⟩ | ⟨_, _, j, _, _, hl, h⟩
  · simp [h]
  · simp [h]
  · rcases h with ⟨h1, h2, _, h3⟩ | ⟨h1, h2, _, _, h3⟩ | ⟨h1, h2, h3, h4, _⟩ | ⟨h1, h2, h3, _⟩
    · refine ⟨?_, by simp [h1]⟩
      rw [h2]
      rcases Nat.eq_zero_or_pos j with rfl | hj
      · simp
      · have := (h3 hj).1; push_cast; omega
    · refine ⟨?_, by simp [h1]⟩
      rw [h2]
      rcases Nat.eq_zero_or_pos j with rfl | hj
      · simp
      · have := (h3 hj).1; push_cast; omega
    · refine ⟨?_, fun _ _ => by rw [h2]; exact h4⟩
      rw [h2]
      rcases Nat.lt_or_ge 1 j with hj | hj
      · have := (hl (j - 1) (by omega) (by omega)).1; omega
      · omega
    · refine ⟨?_, by simp [h1]⟩
      rw [h2]
      rcases Nat.lt_or_ge 1 j with hj | hj
      · have := (hl (j - 1) (by omega) (by omega)).1; omega
      · omega

/-- What SUCCESS means: the right hand side is zero and so is the answer; or the true residual
`b - Ax` is within the relative tolerance; or the last iteration, from a point `y`, made too
little progress on the quadratic. -/
theorem cg_success (o : Options) {lhs prec : Op n} (hl : Applies lhs A) (hA : A.IsSymm)
    (b x0 : Vec n) (hs : (solver o lhs prec b x0).termination = .success) :
    (b = 0 ∧ (solver o lhs prec b x0).x = 0) ∨
    norm2 (b - A *ᵥ (solver o lhs prec b x0).x) ≤ o.rTolerance * norm2 b ∨
    ∃ y, qf A b (solver o lhs prec b x0).x < qf A b y ∧ qf A b y ≤ qf A b x0 ∧
      zetaTest o (solver o lhs prec b x0).numIterations (qf A b y)
        (qf A b (solver o lhs prec b x0).x) := by
  rcases solver_outcome o lhs prec b x0 with ⟨h0, h⟩ | ⟨_, _, hr, h⟩ | ⟨_, _, j, hg, hx, _, h⟩
  · exact .inl ⟨norm2_eq_zero.1 h0, by simp [h]⟩
  · refine .inr (.inl ?_)
    rw [residual_true hl] at hr
    rw [h]
    exact hr
  · rcases h with ⟨h1, _⟩ | ⟨h1, _⟩ | ⟨h1, h2, h3, h4, h5⟩ | ⟨h1, _⟩
    · simp [h1] at hs
    · simp [h1] at hs
    · rw [hx, h2]
      right
      rcases h5 with h5 | h5
      · right
        obtain ⟨j, rfl⟩ := Nat.exists_eq_succ_of_ne_zero (show j ≠ 0 by omega)
        refine ⟨(S o lhs prec b x0 j).x, qf_lt hl hA j hg, ?_, ?_⟩
        · exact qf_le hl hA 0 j (by omega) fun l hlj => hg l (by omega)
        · rw [residual_true hl, residual_true hl, quad_eq, quad_eq] at h5
          exact h5
      · left
        rwa [residual_true hl] at h5
    · simp [h1] at hs

/-- Started from zero, the quadratic test is meaningful: the model value is negative, and
success by that test means that the last of `i` iterations improved it by less than
`q_tolerance / i` of its magnitude. -/
theorem cg_success_zero_start (o : Options) {lhs prec : Op n} (hl : Applies lhs A)
    (hA : A.IsSymm) (b : Vec n) (hs : (solver o lhs prec b 0).termination = .success) :
    (b = 0 ∧ (solver o lhs prec b 0).x = 0) ∨
    norm2 (b - A *ᵥ (solver o lhs prec b 0).x) ≤ o.rTolerance * norm2 b ∨
    ∃ y, qf A b (solver o lhs prec b 0).x < qf A b y ∧ qf A b y ≤ 0 ∧
      ((solver o lhs prec b 0).numIterations : ℝ) *
          (qf A b y - qf A b (solver o lhs prec b 0).x) <
        o.qTolerance * -qf A b (solver o lhs prec b 0).x := by
  rcases cg_success o hl hA b 0 hs with h | h | ⟨y, h1, h2, h3⟩
  · exact .inl h
  · exact .inr (.inl h)
  · refine .inr (.inr ⟨y, h1, ?_, ?_⟩)
    · simpa [qf] using h2
    · have h0 : qf A b y ≤ 0 := by simpa [qf] using h2
      have hneg : qf A b (solver o lhs prec b 0).x < 0 := by linarith
      rw [zetaTest, if_neg hneg.ne, div_lt_iff_of_neg hneg] at h3
      linarith

/-- For a symmetric matrix the answer is never worse than the starting point in terms of the
quadratic, whatever the preconditioner and however the solver ended; every completed iteration
makes it strictly better.  (`b = 0` is answered by the zero vector.) -/
theorem cg_never_worse (o : Options) {lhs prec : Op n} (hl : Applies lhs A) (hA : A.IsSymm)
    (b x0 : Vec n) (hb : b ≠ 0) :
    qf A b (solver o lhs prec b x0).x ≤ qf A b x0 ∧
      ((solver o lhs prec b x0).x ≠ x0 → qf A b (solver o lhs prec b x0).x < qf A b x0) ∧
      ((solver o lhs prec b x0).termination = .success →
        (solver o lhs prec b x0).numIterations ≠ 0 →
        qf A b (solver o lhs prec b x0).x < qf A b x0) := by
  have strict : ∀ j, j ≠ 0 → (∀ l, l < j → Good o lhs prec b x0 l) →
      qf A b (S o lhs prec b x0 j).x < qf A b x0 := by
    intro j hj hg
    obtain ⟨j, rfl⟩ := Nat.exists_eq_succ_of_ne_zero hj
    exact (qf_lt hl hA j hg).trans_le
      (qf_le hl hA 0 j (by omega) fun l hlj => hg l (by omega))
  rcases solver_outcome o lhs prec b x0 with ⟨h0, h⟩ | ⟨_, _, hr, h⟩ | ⟨_, _, j, hg, hx, _, h⟩
  · exact absurd (norm2_eq_zero.1 h0) hb
  · simp [h]
  · refine ⟨?_, ?_, ?_⟩
    · rw [hx]; exact qf_le hl hA 0 j (by omega) hg
    · intro hne
      rw [hx] at hne ⊢
      exact strict j (fun h => hne (by rw [h]; rfl)) hg
    · intro hs _
      rw [hx]
      rcases h with ⟨h1, _⟩ | ⟨h1, _⟩ | ⟨_, _, h3, _⟩ | ⟨h1, _⟩
      · simp [h1] at hs
      · simp [h1] at hs
      · exact strict j (by omega) hg
      · simp [h1] at hs

/-- Started from zero on a positive semidefinite matrix, the answer is never an ascent
direction: `bᵀx ≥ 0`, strictly if the answer is not zero and `A` is definite. -/
theorem cg_descent_direction (o : Options) {lhs prec : Op n} (hl : Applies lhs A)
    (hA : A.IsSymm) (hpos : ∀ x : Vec n, 0 ≤ x ⬝ᵥ A *ᵥ x) (b : Vec n) :
    0 ≤ b ⬝ᵥ (solver o lhs prec b 0).x ∧
      ((solver o lhs prec b 0).x ≠ 0 → 0 < b ⬝ᵥ (solver o lhs prec b 0).x) := by
  by_cases hb : b = 0
  · have : (solver o lhs prec b 0).x = 0 := by
      rcases solver_outcome o lhs prec b 0 with ⟨_, h⟩ | ⟨h, _⟩ | ⟨h, _⟩
      · simp [h]
      · exact absurd (norm2_eq_zero.2 hb) h
      · exact absurd (norm2_eq_zero.2 hb) h
    rw [this]
    simp
  · obtain ⟨h1, h2, _⟩ := cg_never_worse o (prec := prec) hl hA b 0 hb
    have e : qf A b 0 = 0 := by simp [qf]
    have hp := hpos (solver o lhs prec b 0).x
    constructor
    · rw [e] at h1; unfold qf at h1; linarith
    · intro hx
      have := h2 hx
      rw [e] at this; unfold qf at this; linarith

/-- With a positive definite preconditioner, FAILURE is only ever reported at an exact
solution. -/
theorem cg_failure_exact (o : Options) {lhs prec : Op n} (hl : Applies lhs A)
    (hp : Applies prec M) (hM : SPD M) (b x0 : Vec n)
    (hf : (solver o lhs prec b x0).termination = .failure) :
    A *ᵥ (solver o lhs prec b x0).x = b := by
  rcases solver_outcome o lhs prec b x0 with ⟨_, h⟩ | ⟨_, _, _, h⟩ | ⟨_, _, j, _, hx, _, h⟩
  · simp [h] at hf
  · simp [h] at hf
  · rcases h with ⟨_, _, h, _⟩ | ⟨h1, _⟩ | ⟨h1, _⟩ | ⟨h1, _⟩
    · rw [hp] at h
      have hr : (S o lhs prec b x0 j).r = 0 := by
        by_contra hr
        exact (hM.2 _ hr).ne' h
      rw [residual_true hl] at hr
      rw [hx]
      exact (sub_eq_zero.1 hr).symm
    · simp [h1] at hf
    · simp [h1] at hf
    · simp [h1] at hf

/-- On symmetric positive definite matrices NO_CONVERGENCE means that the iteration limit was
reached and the residual test had not been met (or could not be, before the minimum number of
iterations). -/
theorem cg_no_convergence (o : Options) {lhs prec : Op n} (hl : Applies lhs A)
    (hA : SPD A) (b x0 : Vec n)
    (hf : (solver o lhs prec b x0).termination = .noConvergence) :
    ((solver o lhs prec b x0).numIterations : ℤ) = max 1 o.maxNumIterations ∧
      ¬ (norm2 (b - A *ᵥ (solver o lhs prec b x0).x) ≤ o.rTolerance * norm2 b ∧
        o.minNumIterations ≤ (solver o lhs prec b x0).numIterations) := by
  have hle := (cg_iterations o lhs prec b x0).1
  rcases solver_outcome o lhs prec b x0 with ⟨_, h⟩ | ⟨_, _, _, h⟩ | ⟨_, _, j, hg, hx, _, h⟩
  · simp [h] at hf
  · simp [h] at hf
  · rcases h with ⟨h1, _⟩ | ⟨_, _, h, h', _⟩ | ⟨h1, _⟩ | ⟨_, h2, h3, h4, h5⟩
    · simp [h1] at hf
    · exfalso
      have hd := p_dot_r' hl j hg
      rw [hl] at h'
      have h0 : (S o lhs prec b x0 (j + 1)).p = 0 := by
        by_contra hne
        exact absurd (hA.2 _ hne) (not_lt.2 h')
      rw [h0, zero_dotProduct] at hd
      exact h hd.symm
    · simp [h1] at hf
    · rw [h2] at hle ⊢
      refine ⟨by omega, ?_⟩
      rw [residual_true hl] at h5
      rw [hx]
      exact h5

/-- The answer is optimal among everything the iterations could have reached: it minimises the
quadratic over `x0` plus the Krylov space of the number of iterations done (the last iteration
does not count when it was abandoned). -/
theorem cg_optimal (o : Options) {lhs prec : Op n} (hl : Applies lhs A) (hp : Applies prec M)
    (hA : A.IsSymm) (hpos : ∀ x : Vec n, 0 ≤ x ⬝ᵥ A *ᵥ x) (hM : M.IsSymm)
    (b x0 : Vec n) (hb : b ≠ 0) :
    ∃ k, (k = (solver o lhs prec b x0).numIterations ∨
        (solver o lhs prec b x0).termination ≠ .success ∧
          k + 1 = (solver o lhs prec b x0).numIterations) ∧
      (solver o lhs prec b x0).x - x0 ∈ krylov A M (b - A *ᵥ x0) k ∧
      ∀ d ∈ krylov A M (b - A *ᵥ x0) k,
        qf A b (solver o lhs prec b x0).x ≤ qf A b (x0 + d) := by
  rcases solver_outcome o lhs prec b x0 with ⟨h0, h⟩ | ⟨_, _, hr, h⟩ | ⟨_, _, j, hg, hx, _, h⟩
  · exact absurd (norm2_eq_zero.1 h0) hb
  · refine ⟨0, .inl (by simp [h]), by simp [h], ?_⟩
    intro d hd
    have := iterate_optimal (o := o) (b := b) (x0 := x0) hl hp hA hpos hM 0
      (fun l h => absurd h (by omega)) hd
    rw [h]
    exact this
  · refine ⟨j, ?_, ?_, ?_⟩
    · rcases h with ⟨h1, h2, _⟩ | ⟨h1, h2, _⟩ | ⟨_, h2, _⟩ | ⟨_, h2, _⟩
      · exact .inr ⟨by simp [h1], h2.symm⟩
      · exact .inr ⟨by simp [h1], h2.symm⟩
      · exact .inl h2.symm
      · exact .inl h2.symm
    · rw [hx]; exact x_mem_krylov hl hp j
    · intro d hd
      rw [hx]
      exact iterate_optimal hl hp hA hpos hM j hg hd

/-- On a symmetric positive definite system of size `n`, with a symmetric positive definite
preconditioner, at least `n` iterations allowed and the quadratic test off, the solver started
from zero reports SUCCESS after at most `n` iterations, with the requested residual.  With
`r_tolerance = 0` the system is solved exactly. -/
theorem cg_converges (o : Options) {lhs prec : Op n} (hl : Applies lhs A) (hp : Applies prec M)
    (hA : SPD A) (hM : SPD M) (hq : o.qTolerance ≤ 0) (hr : 0 ≤ o.rTolerance)
    (hmin : o.minNumIterations ≤ 1) (hmax : n ≤ o.maxNumIterations) (b : Vec n) :
    (solver o lhs prec b 0).termination = .success ∧
      (solver o lhs prec b 0).numIterations ≤ n ∧
      norm2 (b - A *ᵥ (solver o lhs prec b 0).x) ≤ o.rTolerance * norm2 b ∧
      (o.rTolerance = 0 → A *ᵥ (solver o lhs prec b 0).x = b) := by
  have last : norm2 (b - A *ᵥ (solver o lhs prec b 0).x) ≤ o.rTolerance * norm2 b →
      o.rTolerance = 0 → A *ᵥ (solver o lhs prec b 0).x = b := by
    intro h h0
    rw [h0, zero_mul] at h
    exact (sub_eq_zero.1 (norm2_eq_zero.1 (le_antisymm h (norm2_nonneg _)))).symm
  suffices hmain : (solver o lhs prec b 0).termination = .success ∧
      (solver o lhs prec b 0).numIterations ≤ n ∧
      norm2 (b - A *ᵥ (solver o lhs prec b 0).x) ≤ o.rTolerance * norm2 b from
    ⟨hmain.1, hmain.2.1, hmain.2.2, last hmain.2.2⟩
  rcases solver_outcome o lhs prec b 0 with ⟨h0, h⟩ | ⟨_, _, hr', h⟩ | ⟨hb, hno, j, hg, hx, hlt, h⟩
  · rw [h]
    have : b = 0 := norm2_eq_zero.1 h0
    subst this
    simp [norm2]
  · rw [residual_true hl] at hr'
    rw [h]
    exact ⟨rfl, by simp, hr'⟩
  · have htol : 0 ≤ o.rTolerance * norm2 b := mul_nonneg hr (norm2_nonneg _)
    have hjn := good_le hl hp hA.1 hM.1 j hg
    have hbne : b ≠ 0 := fun h => hb (norm2_eq_zero.2 h)
    have hr0 : (S o lhs prec b 0 0).r ≠ 0 := by
      rw [residual_true hl]; simpa [S] using hbne
    rcases h with ⟨_, _, h, h3⟩ | ⟨_, _, h, h', h3⟩ | ⟨h1, h2, h3, h4, h5⟩ | ⟨h1, h2, h3, h4, h5⟩
    · exfalso
      rw [hp] at h
      have hrj : (S o lhs prec b 0 j).r = 0 := by
        by_contra hne; exact (hM.2 _ hne).ne' h
      rcases Nat.eq_zero_or_pos j with rfl | hj
      · exact hr0 hrj
      · exact (h3 hj).2 ⟨by rw [hrj]; simpa [norm2] using htol, by omega⟩
    · exfalso
      have hd := p_dot_r' hl j hg
      rw [hl] at h'
      have h0 : (S o lhs prec b 0 (j + 1)).p = 0 := by
        by_contra hne
        exact absurd (hA.2 _ hne) (not_lt.2 h')
      rw [h0, zero_dotProduct] at hd
      exact h hd.symm
    · refine ⟨h1, by omega, ?_⟩
      rw [hx, ← residual_true hl (o := o) (prec := prec) (b := b) (x0 := 0) j]
      rcases h5 with h5 | h5
      · exfalso
        obtain ⟨j, rfl⟩ := Nat.exists_eq_succ_of_ne_zero (show j ≠ 0 by omega)
        rw [residual_true hl, residual_true hl, quad_eq, quad_eq] at h5
        have e1 := qf_lt hl hA.1 j hg
        have e2 := qf_le hl hA.1 0 j (by omega) fun l hlj => hg l (by omega)
        have e3 : qf A b (S o lhs prec b 0 0).x = 0 := by simp [S, qf]
        have hneg : qf A b (S o lhs prec b 0 (j + 1)).x < 0 := by linarith
        simp only [Nat.add_sub_cancel, Nat.succ_eq_add_one] at h5
        rw [zetaTest, if_neg hneg.ne, div_lt_iff_of_neg hneg] at h5
        have : (0 : ℝ) ≤ ((j + 1 : ℕ) : ℝ) := Nat.cast_nonneg _
        nlinarith
      · exact h5
    · exfalso
      obtain rfl : j = n := by omega
      have := residual_zero hl hp hA hM hg
      exact h5 ⟨by rw [this]; simpa [norm2] using htol, by omega⟩

/-- The operators of a concrete system: `A = diag(1, 2)`, identity preconditioner. -/
example : SPD (1 : Matrix (Fin n) (Fin n) ℝ) ∧
    SPD (Matrix.of ![![2, 1], ![1, 2]] : Matrix (Fin 2) (Fin 2) ℝ) ∧
    Applies (fun x y => y + A *ᵥ x) A := by
  refine ⟨⟨by simp [Matrix.IsSymm], fun x hx => ?_⟩, ⟨?_, fun x hx => ?_⟩, fun x => by simp⟩
  · rw [one_mulVec]
    exact lt_of_le_of_ne (dot_self_nonneg x)
      (fun h => hx (dotProduct_self_eq_zero.1 h.symm))
  · ext i j; fin_cases i <;> fin_cases j <;> rfl
  · have : x 0 ≠ 0 ∨ x 1 ≠ 0 := by
      by_contra h
      push Not at h
      exact hx (by ext i; fin_cases i; exacts [h.1, h.2])
    simp only [dotProduct, mulVec, Fin.sum_univ_two, Matrix.of_apply, Matrix.cons_val_zero,
      Matrix.cons_val_one]
    rcases this with h | h
    · nlinarith [sq_nonneg (x 0 + x 1), pow_pos (abs_pos.2 h) 2, sq_abs (x 0), sq_nonneg (x 1)]
    · nlinarith [sq_nonneg (x 0 + x 1), pow_pos (abs_pos.2 h) 2, sq_abs (x 1), sq_nonneg (x 0)]

/-! ## Findings -/

/-- Started at the exact solution with `min_num_iterations ≠ 0`, the solver reports FAILURE. -/
theorem cg_exact_start_fails (o : Options) {lhs prec : Op n} (hl : Applies lhs A)
    (hp : Applies prec M) (b x0 : Vec n) (hb : b ≠ 0) (hmin : o.minNumIterations ≠ 0)
    (hx : A *ᵥ x0 = b) :
    solver o lhs prec b x0 = ⟨.failure, 1, x0⟩ := by
  have hr : axpby 1 b (-1) (lhs x0 0) = 0 := by
    rw [hl, hx]; simp [axpby]
  have hnb : norm2 b ≠ 0 := fun h => hb (norm2_eq_zero.1 h)
  unfold solver
  simp only [if_neg hnb, hr]
  rw [if_neg (fun h => hmin h.1)]
  obtain ⟨f, hf⟩ := Nat.exists_eq_succ_of_ne_zero
    (show max 1 o.maxNumIterations.toNat ≠ 0 by omega)
  rw [hf, loop]
  simp [pre]

/-- Reaching the exact solution before `min_num_iterations` ends in FAILURE: the 1×1 system
`1·x = 1` with `min_num_iterations = 2`. -/
theorem cg_exact_too_early_fails :
    solver (n := 1) { minNumIterations := 2, maxNumIterations := 5 } (fun x y => y + x)
      (fun x y => y + x) (fun _ => 1) 0 = ⟨.failure, 2, fun _ => 1⟩ := by
  have h1 : norm2 (n := 1) (fun _ => (1 : ℝ)) ≠ 0 := by simp [norm2, dotProduct]
  unfold solver
  simp only [if_neg h1]
  rw [if_neg (by simp)]
  have e : max 1 (5 : ℤ).toNat = 3 + 1 + 1 := by decide
  rw [e, loop]
  simp [pre, axpby, dotProduct, update]
  rw [if_neg (show ¬ (1 : ℝ) ≤ 0 by norm_num)]
  simp only
  rw [loop.eq_def]
  simp [pre, axpby, dotProduct, Pi.one_def]

/-- From a starting point with a positive model value the quadratic test succeeds at once,
even with `q_tolerance = 0`: for `A = diag(1, 100)`, `b = (1, 0)`, `x0 = (11, 1)` the solver
reports SUCCESS after one iteration at a point whose residual is more than nine times `|b|`. -/
theorem cg_spurious_success :
    solver (n := 2) { maxNumIterations := 5, qTolerance := 0 }
      (fun x y => y + ![x 0, 100 * x 1]) (fun x y => y + x) ![1, 0] ![11, 1] =
        ⟨.success, 1, ![109001 / 10001, -99 / 10001]⟩ ∧
    9 * norm2 (n := 2) ![1, 0] <
      norm2 (n := 2) ![1 - 109001 / 10001, 0 - 100 * (-99 / 10001)] := by
  constructor
  · have h1 : norm2 (n := 2) ![1, 0] ≠ 0 := by simp [norm2, dotProduct]
    unfold solver
    simp only [if_neg h1]
    rw [if_neg (by simp)]
    have e : max 1 (5 : ℤ).toNat = 4 + 1 := by decide
    rw [e, loop]
    simp [pre, axpby, dotProduct, update, zetaTest, quad, Fin.sum_univ_two]
    norm_num
  · have e1 : norm2 (n := 2) ![1, 0] = 1 := by simp [norm2, dotProduct]
    rw [e1]
    unfold norm2
    rw [mul_one]
    apply Real.lt_sqrt_of_sq_lt
    simp only [dotProduct, Fin.sum_univ_two, Matrix.cons_val_zero, Matrix.cons_val_one]
    norm_num

end Ceres.CG
