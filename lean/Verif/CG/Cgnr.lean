import Verif.CG.Props
import Mathlib.Algebra.Order.BigOperators.Group.Finset

/-!
# CGNR solves the regularised least squares problem
-/

noncomputable section

namespace Ceres.CG

open Matrix

variable {m n : ℕ}

/-- What the linear solver is asked to minimise: `‖Ax - b‖² + ‖Dx‖²` (`D` absent: no second
term). -/
def cost (A : Matrix (Fin m) (Fin n) ℝ) (b : Vec m) (D : Option (Vec n)) (x : Vec n) : ℝ :=
  ∑ i, ((∑ j, A i j * x j) - b i) ^ 2 + D.elim 0 fun D => ∑ j, (D j * x j) ^ 2

/-- The matrix of the normal equations. -/
def normal (A : Matrix (Fin m) (Fin n) ℝ) (D : Option (Vec n)) : Matrix (Fin n) (Fin n) ℝ :=
  Aᵀ * A + D.elim 0 fun D => Matrix.diagonal fun j => D j ^ 2

theorem cgnrOp_applies (A : Matrix (Fin m) (Fin n) ℝ) (D : Option (Vec n)) :
    Applies (cgnrOp A D) (normal A D) := by
  intro x
  cases D with
  | none => simp [cgnrOp, normal, mulVec_mulVec]
  | some D =>
    simp only [cgnrOp, normal, zero_add, mulVec_mulVec, add_mulVec, Option.elim]
    congr 1
    ext j
    simp [mulVec_diagonal]

theorem normal_symm (A : Matrix (Fin m) (Fin n) ℝ) (D : Option (Vec n)) :
    (normal A D).IsSymm := by
  unfold Matrix.IsSymm normal
  rw [transpose_add, transpose_mul, transpose_transpose]
  cases D <;> simp

theorem dot_normal (A : Matrix (Fin m) (Fin n) ℝ) (D : Option (Vec n)) (x : Vec n) :
    x ⬝ᵥ normal A D *ᵥ x = (A *ᵥ x) ⬝ᵥ (A *ᵥ x) + D.elim 0 fun D => ∑ j, (D j * x j) ^ 2 := by
  unfold normal
  rw [add_mulVec, dotProduct_add, ← mulVec_mulVec, dotProduct_mulVec, vecMul_transpose]
  congr 1
  cases D with
  | none => simp
  | some D =>
    simp only [Option.elim, dotProduct, mulVec_diagonal]
    exact Finset.sum_congr rfl fun j _ => by ring

/-- The quadratic of the normal equations is the cost, up to the constant `‖b‖²`. -/
theorem cost_eq (A : Matrix (Fin m) (Fin n) ℝ) (b : Vec m) (D : Option (Vec n)) (x : Vec n) :
    cost A b D x = qf (normal A D) (Aᵀ *ᵥ b) x + b ⬝ᵥ b := by
  unfold cost qf
  rw [dot_normal]
  have e1 : ∑ i, ((∑ j, A i j * x j) - b i) ^ 2 =
      (A *ᵥ x) ⬝ᵥ (A *ᵥ x) - 2 * (b ⬝ᵥ A *ᵥ x) + b ⬝ᵥ b := by
    have e : ∀ i, (∑ j, A i j * x j) = (A *ᵥ x) i := fun _ => rfl
    simp only [e]
    generalize A *ᵥ x = y
    simp only [dotProduct]
    rw [Finset.mul_sum, ← Finset.sum_sub_distrib, ← Finset.sum_add_distrib]
    exact Finset.sum_congr rfl fun i _ => by ring
  have e2 : (Aᵀ *ᵥ b) ⬝ᵥ x = b ⬝ᵥ A *ᵥ x := by
    rw [mulVec_transpose, ← dotProduct_mulVec]
  rw [e1, e2]
  ring

/-- The least squares problem has a unique solution: `A` has full column rank, or every entry
of `D` is nonzero. -/
def Regular (A : Matrix (Fin m) (Fin n) ℝ) (D : Option (Vec n)) : Prop :=
  (∀ x : Vec n, A *ᵥ x = 0 → x = 0) ∨ ∃ D', D = some D' ∧ ∀ j, D' j ≠ 0

theorem normal_nonneg (A : Matrix (Fin m) (Fin n) ℝ) (D : Option (Vec n)) (x : Vec n) :
    0 ≤ x ⬝ᵥ normal A D *ᵥ x := by
  rw [dot_normal]
  refine add_nonneg (dot_self_nonneg _) ?_
  cases D with
  | none => simp
  | some D => exact Finset.sum_nonneg fun j _ => sq_nonneg _

theorem normal_spd {A : Matrix (Fin m) (Fin n) ℝ} {D : Option (Vec n)} (h : Regular A D) :
    SPD (normal A D) := by
  refine ⟨normal_symm A D, fun x hx => ?_⟩
  rw [dot_normal]
  rcases h with h | ⟨D', rfl, h⟩
  · have h1 : 0 < (A *ᵥ x) ⬝ᵥ (A *ᵥ x) :=
      lt_of_le_of_ne (dot_self_nonneg _)
        (fun h' => hx (h x (dotProduct_self_eq_zero.1 h'.symm)))
    refine add_pos_of_pos_of_nonneg h1 ?_
    cases D with
    | none => simp
    | some D => exact Finset.sum_nonneg fun j _ => sq_nonneg _
  · refine add_pos_of_nonneg_of_pos (dot_self_nonneg _) ?_
    obtain ⟨j, hj⟩ := Function.ne_iff.1 hx
    refine Finset.sum_pos' (fun j _ => sq_nonneg _) ⟨j, Finset.mem_univ _, ?_⟩
    exact pow_pos (abs_pos.2 (mul_ne_zero (h j) hj)) 2 |>.trans_eq (sq_abs _)

/-- The block diagonal part of a matrix. -/
def blockDiag (blk : Fin n → ℕ) (N : Matrix (Fin n) (Fin n) ℝ) : Matrix (Fin n) (Fin n) ℝ :=
  Matrix.of fun i j => if blk i = blk j then N i j else 0

/-- What the Jacobi preconditioner accumulates are the diagonal blocks of the normal
equations. -/
theorem jacobiBlocks_eq (A : Matrix (Fin m) (Fin n) ℝ) (D : Option (Vec n)) (blk : Fin n → ℕ) :
    jacobiBlocks A D blk = blockDiag blk (normal A D) := by
  have hfold : ∀ (l : List (Fin m)) (M : Matrix (Fin n) (Fin n) ℝ),
      l.foldl (fun (M : Matrix (Fin n) (Fin n) ℝ) r =>
        M + Matrix.of fun i j => if blk i = blk j then A r i * A r j else 0) M =
      M + Matrix.of fun i j => if blk i = blk j then (l.map fun r => A r i * A r j).sum else 0 := by
    intro l
    induction l with
    | nil => intro M; ext i j; simp
    | cons r l ih =>
      intro M
      rw [List.foldl_cons, ih]
      ext i j
      simp only [Matrix.add_apply, of_apply, List.map_cons, List.sum_cons]
      split_ifs <;> ring
  have hsum : ∀ i j, ((List.finRange m).map fun r => A r i * A r j).sum = (Aᵀ * A) i j := by
    intro i j
    rw [mul_apply, ← List.sum_ofFn, List.ofFn_eq_map]
    rfl
  unfold jacobiBlocks
  simp only [hfold]
  cases D with
  | none =>
    ext i j
    simp [blockDiag, normal, hsum]
  | some D =>
    ext i j
    simp only [blockDiag, normal, hsum, zero_add, Matrix.add_apply, of_apply, Option.elim,
      diagonal_apply]
    by_cases hij : i = j
    · subst hij; simp
    · simp [hij]

theorem blockDiag_spd {N : Matrix (Fin n) (Fin n) ℝ} (hN : SPD N) (blk : Fin n → ℕ) :
    SPD (blockDiag blk N) := by
  constructor
  · ext i j
    simp only [blockDiag, transpose_apply, of_apply]
    rw [← hN.1.apply i j]
    by_cases h : blk i = blk j
    · rw [if_pos h, if_pos h.symm]
    · rw [if_neg h, if_neg (fun h' => h h'.symm)]
  · intro x hx
    let xb : ℕ → Vec n := fun β i => if blk i = β then x i else 0
    have key : x ⬝ᵥ blockDiag blk N *ᵥ x =
        ∑ β ∈ Finset.univ.image blk, xb β ⬝ᵥ N *ᵥ xb β := by
      simp only [dotProduct, mulVec, blockDiag, of_apply]
      rw [Finset.sum_comm]
      refine Finset.sum_congr rfl fun i _ => ?_
      rw [Finset.sum_eq_single (blk i)]
      · simp only [xb, if_true]
        congr 1
        refine Finset.sum_congr rfl fun j _ => ?_
        by_cases h : blk i = blk j
        · simp [h]
        · simp [h, Ne.symm h, show ¬ blk j = blk i from fun h' => h h'.symm]
      · intro β _ hβ
        simp [xb, Ne.symm hβ]
      · intro h
        exact absurd (Finset.mem_image_of_mem _ (Finset.mem_univ i)) h
    rw [key]
    obtain ⟨i, hi⟩ := Function.ne_iff.1 hx
    refine Finset.sum_pos' (fun β _ => hN.nonneg _)
      ⟨blk i, Finset.mem_image_of_mem _ (Finset.mem_univ i), hN.2 _ ?_⟩
    intro h
    have := congrFun h i
    simp [xb] at this
    exact hi this

theorem SPD.isUnit_det {N : Matrix (Fin n) (Fin n) ℝ} (hN : SPD N) : IsUnit N.det := by
  rw [← Matrix.isUnit_iff_isUnit_det, ← Matrix.mulVec_injective_iff_isUnit]
  intro x y h
  by_contra hne
  have h0 : N *ᵥ (x - y) = 0 := by rw [mulVec_sub]; exact sub_eq_zero.2 h
  have := hN.2 (x - y) (sub_ne_zero.2 hne)
  rw [h0, dotProduct_zero] at this
  exact lt_irrefl _ this

theorem SPD.inv {N : Matrix (Fin n) (Fin n) ℝ} (hN : SPD N) : SPD N⁻¹ := by
  have hu := hN.isUnit_det
  refine ⟨?_, fun x hx => ?_⟩
  · unfold Matrix.IsSymm
    rw [transpose_nonsing_inv, hN.1.eq]
  · have e : x = N *ᵥ (N⁻¹ *ᵥ x) := by rw [mulVec_mulVec, mul_nonsing_inv _ hu, one_mulVec]
    have hne : N⁻¹ *ᵥ x ≠ 0 := by
      intro h; rw [h, mulVec_zero] at e; exact hx e
    have := hN.2 _ hne
    rw [← e, dotProduct_comm] at this
    exact this

theorem one_spd : SPD (1 : Matrix (Fin n) (Fin n) ℝ) :=
  ⟨by simp [Matrix.IsSymm], fun x hx => by
    rw [one_mulVec]
    exact lt_of_le_of_ne (dot_self_nonneg x)
      (fun h => hx (dotProduct_self_eq_zero.1 h.symm))⟩

/-- Both preconditioners are symmetric positive definite matrices when the problem is
regular. -/
theorem precOp_spd {A : Matrix (Fin m) (Fin n) ℝ} {D : Option (Vec n)} (h : Regular A D)
    (t : PrecType n) : ∃ M, Applies (precOp A D t) M ∧ SPD M := by
  cases t with
  | identity => exact ⟨1, fun x => by simp [precOp], one_spd⟩
  | jacobi blk =>
    refine ⟨(jacobiBlocks A D blk)⁻¹, fun x => by simp [precOp], ?_⟩
    rw [jacobiBlocks_eq]
    exact (blockDiag_spd (normal_spd h) blk).inv

/-- CGNR never returns a vector worse than zero, for any options, any preconditioner setting,
and however it ended; a nonzero answer is strictly better. -/
theorem cgnr_never_worse (o : Options) (t : PrecType n) (A : Matrix (Fin m) (Fin n) ℝ)
    (b : Vec m) (D : Option (Vec n)) :
    cost A b D (cgnrSolve o t A b D).x ≤ cost A b D 0 ∧
      ((cgnrSolve o t A b D).x ≠ 0 →
        cost A b D (cgnrSolve o t A b D).x < cost A b D 0) := by
  unfold cgnrSolve
  rw [zero_add]
  by_cases hb : Aᵀ *ᵥ b = 0
  · have : (solver o (cgnrOp A D) (precOp A D t) (Aᵀ *ᵥ b) 0).x = 0 := by
      rcases solver_outcome o (cgnrOp A D) (precOp A D t) (Aᵀ *ᵥ b) 0 with ⟨_, h⟩ | ⟨h, _⟩ | ⟨h, _⟩
      · simp [h]
      · exact absurd (norm2_eq_zero.2 hb) h
      · exact absurd (norm2_eq_zero.2 hb) h
    rw [this]
    simp
  · obtain ⟨h1, h2, _⟩ := cg_never_worse o (prec := precOp A D t) (cgnrOp_applies A D)
      (normal_symm A D) (Aᵀ *ᵥ b) 0 hb
    rw [cost_eq, cost_eq]
    exact ⟨by linarith, fun h => by have := h2 h; linarith⟩

/-- On a regular problem with `n` columns, with `n` iterations allowed and the tolerances set
to zero, CGNR reports SUCCESS and returns the minimiser of `‖Ax - b‖² + ‖Dx‖²`. -/
theorem cgnr_exact (o : Options) (t : PrecType n) (A : Matrix (Fin m) (Fin n) ℝ) (b : Vec m)
    (D : Option (Vec n)) (h : Regular A D) (hq : o.qTolerance ≤ 0) (hr : o.rTolerance = 0)
    (hmin : o.minNumIterations ≤ 1) (hmax : n ≤ o.maxNumIterations) :
    (cgnrSolve o t A b D).termination = .success ∧
      (cgnrSolve o t A b D).numIterations ≤ n ∧
      ∀ y, y ≠ (cgnrSolve o t A b D).x →
        cost A b D (cgnrSolve o t A b D).x < cost A b D y := by
  obtain ⟨M, hM, hs⟩ := precOp_spd h t
  have hN := normal_spd h
  obtain ⟨h1, h2, _, h4⟩ := cg_converges o (cgnrOp_applies A D) hM hN hs hq hr.ge hmin hmax
    (Aᵀ *ᵥ b)
  unfold cgnrSolve
  rw [zero_add]
  refine ⟨h1, h2, fun y hy => ?_⟩
  have hx := h4 hr
  generalize (solver o (cgnrOp A D) (precOp A D t) (Aᵀ *ᵥ b) 0).x = x at *
  rw [cost_eq, cost_eq]
  have e : y = x + (y - x) := by abel
  rw [e, qf_add hN.1, hx, sub_self, dotProduct_zero]
  have := hN.2 (y - x) (sub_ne_zero.2 hy)
  linarith

/-- A regular problem: two observations of one unknown, no regularisation; and a rank
deficient one made regular by `D`. -/
example : Regular (Matrix.of fun (_ : Fin 2) (_ : Fin 1) => (1 : ℝ)) none ∧
    Regular (0 : Matrix (Fin 2) (Fin 3) ℝ) (some fun _ => 1) := by
  refine ⟨.inl fun x h => ?_, .inr ⟨_, rfl, fun _ => one_ne_zero⟩⟩
  ext j
  have := congrFun h 0
  simpa [mulVec, dotProduct, Subsingleton.elim j 0] using this

end Ceres.CG
