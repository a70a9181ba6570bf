import Verif.PartitionedView.Invert
import Verif.Schur.Implicit

/-!
# The inverted blocks are the inverse of the block diagonal
-/
namespace Ceres.PartitionedView

open Matrix Ceres.Tasks Ceres.BlockSparse Ceres.CG

/-- What is asked of `selfadjointView<Upper>().llt().solve(Identity)`: the inverse of a symmetric positive definite
matrix. -/
def LltOk (llt : (n : ℕ) → Matrix (Fin n) (Fin n) ℝ → Matrix (Fin n) (Fin n) ℝ) : Prop :=
  ∀ n A, SPD A → llt n A = A⁻¹

theorem spd_submatrix {n k : ℕ} {A : Matrix (Fin n) (Fin n) ℝ} (h : SPD A) {e : Fin k → Fin n}
    (he : Function.Injective e) : SPD (A.submatrix e e) := by
  refine ⟨by
    have := h.1
    unfold Matrix.IsSymm at this ⊢
    rw [Matrix.transpose_submatrix, this], fun x hx => ?_⟩
  have hp : A.PosDef := Matrix.posDef_iff_dotProduct_mulVec.2
    ⟨by unfold Matrix.IsHermitian; rw [Matrix.conjTranspose_eq_transpose_of_trivial]; exact h.1,
      fun x hx => by simpa using h.2 x hx⟩
  have := (Matrix.posDef_iff_dotProduct_mulVec.1 (hp.submatrix he)).2 hx
  simpa using this

/-- Every column belongs to a block. -/
theorem offset_slot (L : List Block) {i : ℕ} (h : i < offset L L.length) :
    ∃ k blk, L[k]? = some blk ∧ ∃ i', i' < blk.size ∧ i = offset L k + i' := by
  have key : ∀ n, n ≤ L.length → i < offset L n →
      ∃ k blk, L[k]? = some blk ∧ ∃ i', i' < blk.size ∧ i = offset L k + i' := by
    intro n
    induction n with
    | zero => intro _ h; simp [offset] at h
    | succ n ih =>
      intro hn h
      by_cases hi : i < offset L n
      · exact ih (by omega) hi
      · have hb : L[n]? = some L[n] := List.getElem?_eq_getElem (by omega)
        have := offset_succ hb
        exact ⟨n, _, hb, i - offset L n, by omega, by omega⟩
  exact key _ le_rfl h

theorem get_lt {L : List Block} {k : ℕ} {blk : Block} (h : L[k]? = some blk) : k < L.length := by
  by_contra hge
  rw [List.getElem?_eq_none (by omega)] at h
  cases h

theorem offset_bound {L : List Block} {k : ℕ} {blk : Block} (h : L[k]? = some blk) :
    offset L k + blk.size ≤ offset L L.length := by
  rw [← offset_succ h]
  exact offset_mono L (get_lt h)

section
variable {M : BMat ℝ} {a b n : ℕ}

/-- Column `i` of the blocks from `a` on is in block `a + k`. -/
theorem blockOf_col (hM : M.Ok) {k : ℕ} {blk : Block} (h : (blocksOf M.bs a b)[k]? = some blk) {i : ℕ}
    (hi : i < blk.size) : blockOf M.bs.cols (colsE M.bs a + (offset (blocksOf M.bs a b) k + i)) = a + k := by
  obtain ⟨h1, h2⟩ := position_eq hM.bs.cols h
  exact blockOf_eq hM.bs.cols h1 (by omega) (by omega)

/-- The columns of the blocks `a, ..., b - 1`. -/
def colMat (M : BMat ℝ) (a n : ℕ) : Matrix (Fin M.numRows) (Fin n) ℝ :=
  Matrix.of fun r i => M.entry r (colsE M.bs a + i)

/-- **The inverted blocks**: the entries of the result are those of the inverse of the block diagonal. -/
theorem inverted_entry {llt : (n : ℕ) → Matrix (Fin n) (Fin n) ℝ → Matrix (Fin n) (Fin n) ℝ} (hl : LltOk llt)
    (hM : M.Ok) (hb : b ≤ M.bs.cols.length) (hn : offset (blocksOf M.bs a b) (blocksOf M.bs a b).length = n)
    {v y : ℕ → ℝ} (hv : IsGram M a b v) (D : Option (ℕ → ℝ))
    (hN : SPD (normal (colMat M a n) (D.map fun d (i : Fin n) => d i)))
    (hy : ∀ k blk, (blocksOf M.bs a b)[k]? = some blk → ∀ i j : Fin blk.size,
        y (sqOffset (blocksOf M.bs a b) k + i * blk.size + j) =
          llt blk.size (blockMat (blocksOf M.bs a b) v D k blk.size) i j) (i j : Fin n) :
    (BMat.ofStructure (layout M.bs a b) y).entry i j =
      Schur.blockInverse (colMat M a n) (D.map fun d (i : Fin n) => d i)
        (fun i => blockOf M.bs.cols (colsE M.bs a + i)) i j := by
  set L := blocksOf M.bs a b with hL
  set N := normal (colMat M a n) (D.map fun d (i : Fin n) => d i) with hNdef
  set G : Matrix (Fin n) (Fin n) ℝ := Matrix.of fun i j : Fin n =>
    (BMat.ofStructure (layout M.bs a b) y).entry i j with hG
  rw [Schur.blockInverse_eq]
  suffices h : CG.blockDiag (fun i : Fin n => blockOf M.bs.cols (colsE M.bs a + i)) N * G = 1 by
    rw [Matrix.inv_eq_right_inv h]
    rfl
  -- the columns of a block
  let e : ∀ (k : ℕ) (blk : Block), L[k]? = some blk → Fin blk.size → Fin n := fun k blk h i' =>
    ⟨offset L k + i', by have := offset_bound h; have := i'.2; omega⟩
  have he : ∀ (k : ℕ) (blk : Block) (h : L[k]? = some blk), Function.Injective (e k blk h) := by
    intro k blk h i' j' hij
    have := congrArg Fin.val hij
    simp only [e] at this
    exact Fin.ext (by omega)
  -- the matrix that is inverted
  have hblk : ∀ (k : ℕ) (blk : Block) (h : L[k]? = some blk), blockMat L v D k blk.size = N.submatrix (e k blk h) (e k blk h) := by
    intro k blk h
    ext i' j'
    have h1 : v (sqOffset L k + i' * blk.size + j') =
        (BMat.ofStructure (layout M.bs a b) v).entry (offset L k + i') (offset L k + j') :=
      (layout_entry M.bs v h i'.2 j'.2).symm
    have h2 : SameBlock M.bs a b (offset L k + i') (offset L k + j') := by
      rw [sameBlock_iff hM.bs.cols hb]
      show Same L _ _
      have := i'.2
      have := j'.2
      exact ⟨k, blk, h, by omega, by omega, by omega, by omega⟩
    have h3 : v (sqOffset L k + i' * blk.size + j') =
        ((colMat M a n)ᵀ * colMat M a n) (e k blk h i') (e k blk h j') := by
      rw [h1, hv, if_pos h2, Matrix.mul_apply, ← Fin.sum_univ_eq_sum_range fun r =>
        M.entry r (colsE M.bs a + (offset L k + i')) * M.entry r (colsE M.bs a + (offset L k + j'))]
      rfl
    unfold blockMat
    rw [Matrix.add_apply, Matrix.of_apply, h3, hNdef, Matrix.submatrix_apply]
    unfold normal
    rw [Matrix.add_apply]
    congr 1
    cases D with
    | none => rfl
    | some d =>
      simp only [Option.elim, Option.map_some, Matrix.diagonal_apply]
      by_cases hij : i' = j'
      · subst hij; simp [e]
      · rw [if_neg hij, if_neg fun h' => hij (he k blk h h')]
  ext i j
  obtain ⟨k, blk, hk, i', hi', hi⟩ := offset_slot L (i := i) (by rw [hn]; exact i.2)
  obtain ⟨k2, blk2, hk2, j', hj', hj⟩ := offset_slot L (i := j) (by rw [hn]; exact j.2)
  have hie : i = e k blk hk ⟨i', hi'⟩ := Fin.ext hi
  have hje : j = e k2 blk2 hk2 ⟨j', hj'⟩ := Fin.ext hj
  have hbi : ∀ (k : ℕ) (blk : Block) (h : L[k]? = some blk) (i' : Fin blk.size), blockOf M.bs.cols (colsE M.bs a + (e k blk h i' : Fin n)) = a + k := fun k blk h i' =>
    blockOf_col hM h i'.2
  rw [Matrix.mul_apply, ← Fintype.sum_of_injective (e k blk hk) (he k blk hk)
    (fun l => N (e k blk hk ⟨i', hi'⟩) (e k blk hk l) * G (e k blk hk l) j)]
  · by_cases hkk : k = k2
    · subst hkk
      have : blk = blk2 := by rw [hk] at hk2; injection hk2
      subst this
      have hS : SPD (blockMat L v D k blk.size) := by rw [hblk k blk hk]; exact spd_submatrix hN (he k blk hk)
      have h1 : ∀ l, G (e k blk hk l) j = (blockMat L v D k blk.size)⁻¹ l ⟨j', hj'⟩ := by
        intro l
        rw [hje, ← hl _ _ hS, ← hy k blk hk]
        exact layout_entry M.bs y hk l.2 hj'
      have h2 : ∀ l, N (e k blk hk ⟨i', hi'⟩) (e k blk hk l) = blockMat L v D k blk.size ⟨i', hi'⟩ l := by
        intro l
        rw [hblk k blk hk]
        rfl
      simp only [h1, h2]
      rw [← Matrix.mul_apply, Matrix.mul_nonsing_inv _ hS.isUnit_det, hie, hje]
      simp only [Matrix.one_apply, (he k blk hk).eq_iff]
    · have h1 : ∀ l, G (e k blk hk l) j = 0 := by
        intro l
        refine layout_entry_zero M.bs y ?_
        show ¬ Same L _ _
        rintro ⟨k', b', g1, g2, g3, g4, g5⟩
        have e1 := same_unique g1 hk g2 g3 (by simp only [e]; omega) (by have := l.2; simp only [e]; omega)
        have e2 := same_unique g1 hk2 g4 g5 (by omega) (by omega)
        exact hkk (e1.symm.trans e2)
      simp only [h1, mul_zero, Finset.sum_const_zero]
      rw [Matrix.one_apply_ne]
      intro hij
      refine hkk (same_unique hk hk2 (i := (i : ℕ)) (by omega) (by omega) ?_ ?_) <;> rw [hij] <;> omega
  · intro l hlr
    obtain ⟨k3, blk3, hk3, l', hl', hll⟩ := offset_slot L (i := l) (by rw [hn]; exact l.2)
    have hle : l = e k3 blk3 hk3 ⟨l', hl'⟩ := Fin.ext hll
    have hne : k ≠ k3 := by
      rintro rfl
      have : blk = blk3 := by rw [hk] at hk3; injection hk3
      subst this
      exact hlr ⟨⟨l', hl'⟩, hle.symm⟩
    have : CG.blockDiag (fun i : Fin n => blockOf M.bs.cols (colsE M.bs a + i)) N i l = 0 := by
      refine if_neg ?_
      rw [hie, hle]
      beta_reduce
      rw [hbi k blk hk, hbi k3 blk3 hk3]
      omega
    rw [this, zero_mul]
  · intro l
    have : CG.blockDiag (fun i : Fin n => blockOf M.bs.cols (colsE M.bs a + i)) N i (e k blk hk l) =
        N i (e k blk hk l) := by
      refine if_pos ?_
      rw [hie]
      beta_reduce
      rw [hbi k blk hk, hbi k blk hk]
    rw [this, hie]

end

end Ceres.PartitionedView
