import Verif.Direct.Sparse
import Verif.Direct.Dense
import Verif.Direct.Qr
import Mathlib.LinearAlgebra.Matrix.NonsingularInverse
import Mathlib.Analysis.InnerProductSpace.GramSchmidtOrtho
import Mathlib.Analysis.InnerProductSpace.PiL2

/-!
# The contracts of the libraries can be met

Exact (not computable) implementations of each contract: none of the theorems is about nothing.
-/
namespace Ceres.Direct

open Ceres.BlockSparse Ceres.InnerProduct Classical

/-- The solution of a system by the inverse matrix. -/
noncomputable def solveMat (n : ℕ) (H : Buf) (rhs : Vec) : Vec :=
  extend ((lead n H)⁻¹.mulVec fun j => rhs j)

theorem PosDef.det_ne {n : ℕ} {H : Buf} (h : PosDef n H) : (lead n H).det ≠ 0 := by
  intro h0
  obtain ⟨v, hv, hm⟩ := Matrix.exists_mulVec_eq_zero_iff.2 h0
  obtain ⟨j, hj⟩ := Function.ne_iff.1 hv
  have := h (extend v) ⟨j, j.2, by unfold extend; rw [dif_pos j.2]; exact hj⟩
  have e : ∑ i ∈ Finset.range n, ∑ j ∈ Finset.range n, extend v i * H i j * extend v j = 0 := by
    refine Finset.sum_eq_zero fun i hi => ?_
    rw [sum_extend (fun j => extend v i * H i j)]
    have h1 : ∑ j : Fin n, extend v i * H i j * v j = extend v i * ∑ j : Fin n, H i j * v j := by
      rw [Finset.mul_sum]
      exact Finset.sum_congr rfl fun j _ => by ring
    rw [h1, show ∑ j : Fin n, H i j * v j = 0 from congrFun hm ⟨i, Finset.mem_range.1 hi⟩, mul_zero]
  rw [e] at this
  exact lt_irrefl _ this

theorem solveMat_eqs {n : ℕ} {H : Buf} (h : PosDef n H) (rhs : Vec) : Eqs n H (solveMat n H rhs) rhs := by
  intro i hi
  unfold solveMat
  rw [sum_extend]
  have : (lead n H).mulVec ((lead n H)⁻¹.mulVec fun j : Fin n => rhs j) = fun j : Fin n => rhs j := by
    rw [Matrix.mulVec_mulVec, Matrix.mul_nonsing_inv _ (isUnit_iff_ne_zero.2 h.det_ne), Matrix.one_mulVec]
  exact congrFun this ⟨i, hi⟩

/-- An exact sparse Cholesky factorisation, for either triangle. -/
noncomputable def exactSparse (upper : Bool) : SparseChol where
  State := Option (Sparse.Mat ℝ)
  init := none
  upper := upper
  factorize := fun _ A => (decide (PosDef A.numCols A.sym), some A)
  solve := fun s rhs =>
    match s with
    | none => (false, rhs)
    | some A => (true, solveMat A.numCols A.sym rhs)

theorem exactSparse_correct (upper : Bool) : (exactSparse upper).Correct :=
  ⟨fun _ _ A rhs _ _ _ hf => ⟨rfl, solveMat_eqs (of_decide_eq_true hf) rhs⟩,
    fun _ _ _ _ _ _ hpd => decide_eq_true hpd⟩

/-- An exact solver for dynamic sparsity. -/
noncomputable def exactGram : GramSolve := fun A rhs =>
  let H : Buf := fun i j => ∑ k ∈ Finset.range A.numRows, A.entry k i * A.entry k j
  (decide (PosDef A.numCols H), solveMat A.numCols H rhs)

theorem exactGram_correct : GramCorrect exactGram :=
  ⟨fun _ _ _ rhs hf => solveMat_eqs (of_decide_eq_true hf) rhs, fun _ _ _ _ hpd => decide_eq_true hpd⟩

/-- An exact dense Cholesky factorisation that leaves the memory of the matrix alone, as `FloatEigenDenseCholesky`
and `FloatLAPACKDenseCholesky` do (dense_cholesky.cc:180-192, 262-285). -/
noncomputable def exactDense : DenseChol where
  State := ℕ × Buf
  factorize := fun n lhs => (decide (PosDef n (symUpper lhs)), lhs, n, lhs)
  solve := fun s rhs => (true, solveMat s.1 (symUpper s.2) rhs)

theorem exactDense_correct : exactDense.Correct :=
  ⟨fun _ _ rhs hf => ⟨rfl, solveMat_eqs (of_decide_eq_true hf) rhs⟩, fun _ _ hpd => decide_eq_true hpd⟩

/-! ## QR -/

/-- The columns of a matrix, and zeros. -/
noncomputable def columns (m n : ℕ) (L : Buf) : Fin m → EuclideanSpace ℝ (Fin m) := fun j =>
  WithLp.toLp 2 fun i => if (j : ℕ) < n then L i j else 0

/-- An orthonormal basis by Gram and Schmidt. -/
noncomputable def basis (m n : ℕ) (L : Buf) : OrthonormalBasis (Fin m) ℝ (EuclideanSpace ℝ (Fin m)) :=
  InnerProductSpace.gramSchmidtOrthonormalBasis (by simp) (columns m n L)

/-- Exact LAPACK. -/
noncomputable def exactLapack : Lapack where
  qr := fun m n L =>
    (fun i k => if h : i < m ∧ k < m then basis m n L ⟨k, h.2⟩ ⟨i, h.1⟩ else 0,
     fun k j => if h : k < m ∧ j < m then
       ∑ i : Fin m, basis m n L ⟨k, h.1⟩ i * columns m n L ⟨j, h.2⟩ i else 0)
  trtrs := fun n R rhs =>
    if ∀ i < n, R i i ≠ 0 then some (solveMat n (fun i j => if i ≤ j then R i j else 0) rhs) else none

theorem inner_eq (m : ℕ) (u v : EuclideanSpace ℝ (Fin m)) : inner ℝ u v = ∑ i, u i * v i := by
  rw [PiLp.inner_apply]
  exact Finset.sum_congr rfl fun i _ => by simp [mul_comm]

theorem exactLapack_correct : exactLapack.Correct := by
  refine ⟨?_, ?_, ?_, ?_, ?_, ?_⟩
  · intro m n L _ i hi j hj
    have h1 : ∑ k ∈ Finset.range m, (exactLapack.qr m n L).1 k i * (exactLapack.qr m n L).1 k j =
        inner ℝ (basis m n L ⟨i, hi⟩) (basis m n L ⟨j, hj⟩) := by
      rw [inner_eq, Finset.sum_range]
      refine Finset.sum_congr rfl fun k _ => ?_
      simp only [exactLapack]
      rw [dif_pos ⟨k.2, hi⟩, dif_pos ⟨k.2, hj⟩]
    rw [h1, (basis m n L).inner_eq_ite]
    simp
  · intro m n L hnm i hi j hj
    have hjm : j < m := lt_of_lt_of_le hj hnm
    have h1 : ∑ k ∈ Finset.range m, (exactLapack.qr m n L).1 i k * (exactLapack.qr m n L).2 k j =
        (∑ k : Fin m, inner ℝ (basis m n L k) (columns m n L ⟨j, hjm⟩) • basis m n L k) ⟨i, hi⟩ := by
      rw [Finset.sum_range]
      simp only [PiLp.smul_apply, WithLp.ofLp_sum, Finset.sum_apply, smul_eq_mul, WithLp.ofLp_smul, Pi.smul_apply]
      refine Finset.sum_congr rfl fun k _ => ?_
      simp only [exactLapack]
      rw [dif_pos ⟨hi, k.2⟩, dif_pos ⟨k.2, hjm⟩, inner_eq, mul_comm]
    rw [h1, (basis m n L).sum_repr']
    unfold columns
    simp [hj]
  · intro m n L hnm i hi j hj hji
    have hjm : j < m := lt_of_lt_of_le hj hnm
    have := InnerProductSpace.gramSchmidtOrthonormalBasis_inv_triangular (𝕜 := ℝ)
      (by simp : Module.finrank ℝ (EuclideanSpace ℝ (Fin m)) = Fintype.card (Fin m)) (columns m n L)
      (i := ⟨j, hjm⟩) (j := ⟨i, hi⟩) hji
    simp only [exactLapack]
    rw [dif_pos ⟨hi, hjm⟩, ← this, inner_eq]
    rfl
  · intro n R rhs y hy i hi
    simp only [exactLapack] at hy
    split_ifs at hy with hd
    cases hy
    set T : Buf := fun i j => if i ≤ j then R i j else 0 with hT
    have hdet : (lead n T).det ≠ 0 := by
      rw [lead_det (n := n) fun i _ j _ hji => by rw [hT]; simp only; rw [if_neg (by omega)]]
      refine Finset.prod_ne_zero_iff.2 fun i _ => ?_
      rw [hT]
      simp only [le_refl, if_true]
      exact hd i i.2
    unfold solveMat
    rw [sum_extend]
    have : (lead n T).mulVec ((lead n T)⁻¹.mulVec fun j : Fin n => rhs j) = fun j : Fin n => rhs j := by
      rw [Matrix.mulVec_mulVec, Matrix.mul_nonsing_inv _ (isUnit_iff_ne_zero.2 hdet), Matrix.one_mulVec]
    exact congrFun this ⟨i, hi⟩
  · intro n R rhs hd
    simp only [exactLapack]
    rw [if_pos hd]
    rfl
  · rintro n R rhs ⟨i, hi, h0⟩
    simp only [exactLapack]
    rw [if_neg fun h => h i hi h0]

end Ceres.Direct
