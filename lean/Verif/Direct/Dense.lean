import Verif.Direct.Algebra
import Verif.Sparse.Rows

/-!
# C80: dynamic sparsity, the dense normal equations, and what refinement does to them
-/
namespace Ceres.Direct

/-! ## Dynamic sparsity -/

theorem diagonal_entry_sparse (d : Vec) (n : ℕ) {r : ℕ} (hr : r < n) (c : ℕ) :
    (Sparse.diagonal d n).entry r c = if r = c then d r else 0 := by
  unfold Sparse.Mat.entry
  rw [(Sparse.diagonal_spec d n).2 r hr]
  simp [Sparse.colSum]

/-- **SPARSE_NORMAL_CHOLESKY with dynamic sparsity**: a call returns and gives the Jacobian back as it was; success
means that `x` minimises; if the minimiser is unique the call succeeds. -/
theorem dynamic_sparse_normal_cholesky {lib : GramSolve} (hlib : GramCorrect lib) {A : Sparse.Mat ℝ} (hA : A.WF)
    (hst : A.storage = .unsymmetric) (hrb : A.rowBlocks = []) (b : Vec) (D : Option Vec) :
    ∃ A2 ok x, dynamicSolve lib A b D = some (A2, ok, x) ∧
      (A2.numRows = A.numRows ∧ A2.numCols = A.numCols ∧ A2.nnz = A.nnz ∧ ∀ r < A.numRows, A2.row r = A.row r) ∧
      (ok = true → Minimises A.numRows A.numCols A.entry b D x) ∧
      (Regular A.numRows A.numCols A.entry D → ok = true) := by
  -- the augmented matrix
  have haug : ∃ A1 A2, augmentRows A D = some A1 ∧ restoreRows D A.numCols A1 = some A2 ∧
      A1.WF ∧ A1.storage = .unsymmetric ∧
      A1.numCols = A.numCols ∧ A1.numRows = A.numRows + (if D.isSome then A.numCols else 0) ∧
      (∀ k < A1.numRows, ∀ j < A.numCols, A1.entry k j =
        if k < A.numRows then A.entry k j else diagAt D (k - A.numRows) j) ∧
      (A2.numRows = A.numRows ∧ A2.numCols = A.numCols ∧ A2.nnz = A.nnz ∧ ∀ r < A.numRows, A2.row r = A.row r) := by
    cases D with
    | none =>
      refine ⟨A, A, rfl, rfl, hA, hst, rfl, by simp, ?_, rfl, rfl, rfl, fun _ _ => rfl⟩
      intro k hk j _
      rw [if_pos hk]
    | some d =>
      have hd := Sparse.diagonal_spec d A.numCols
      obtain ⟨A1, hA1⟩ := Option.isSome_iff_exists.1
        ((Sparse.appendRows_isSome A (Sparse.diagonal d A.numCols)).2
          ⟨hst, rfl, by rw [hrb]; exact Iff.rfl⟩)
      obtain ⟨w1, w2, w3, w4, w5⟩ := Sparse.appendRows_spec hA hd.1 hA1
      obtain ⟨-, -, s1, -⟩ := Sparse.appendRows_arrays hA hd.1 hA1
      obtain ⟨B, b1, b2, b3, -, b5, b6⟩ := Sparse.append_delete_restores hA hd.1 hA1
        (by rw [hrb]; intro b hb; cases hb) (by intro h; exact absurd hrb h)
      refine ⟨A1, B, hA1, b1, w1, s1.trans hst, w3, ?_, ?_, b2, b3, b5, b6⟩
      · rw [w2]; rfl
      · intro k hk j hj
        have hn : (Sparse.diagonal d A.numCols).numRows = A.numCols := rfl
        rw [w2, hn] at hk
        split_ifs with h
        · unfold Sparse.Mat.entry
          rw [w4 k h]
        · have : A1.entry k j = (Sparse.diagonal d A.numCols).entry (k - A.numRows) j := by
            unfold Sparse.Mat.entry
            rw [← w5 (k - A.numRows) (by rw [hn]; omega)]
            congr 2
            omega
          rw [this, diagonal_entry_sparse d _ (by omega)]
          unfold diagAt
          simp only
          by_cases e : k - A.numRows = j
          · rw [if_pos e, if_pos e, e]
          · rw [if_neg e, if_neg e]
  obtain ⟨A1, A2, e1, e2, hwf, hst1, hc1, hr1, hent, hsame⟩ := haug
  set x0 : Vec := A.leftMul b fun _ => 0 with hx0
  have hval : dynamicSolve lib A b D = some (A2, (lib A1 x0).1, (lib A1 x0).2) := by
    unfold dynamicSolve
    simp only [Option.bind_eq_bind]
    rw [e1, Option.bind_some, e2, Option.bind_some]
  have hgram : ∀ i < A.numCols, ∀ j < A.numCols,
      ∑ k ∈ Finset.range A1.numRows, A1.entry k i * A1.entry k j = normalMat A.numRows A.entry D i j :=
    fun i hi j hj => gram_append hr1 hent hi hj
  refine ⟨A2, _, _, hval, hsame, fun hok => ?_, fun hreg => ?_⟩
  · have hs := hlib.solves A1 hwf hst1 x0 hok
    rw [hc1] at hs
    refine minimises_of_normal fun i hi => ?_
    have h1 := hs i hi
    have h2 : x0 i = ∑ k ∈ Finset.range A.numRows, A.entry k i * b k := by
      rw [hx0, Sparse.leftMul_unsymmetric hA hst b _ hi, zero_add]
    refine Eq.trans ?_ (h1.trans h2)
    exact Finset.sum_congr rfl fun j hj => by
      simp only [hgram i hi j (Finset.mem_range.1 hj)]
  · refine hlib.complete A1 hwf hst1 x0 ?_
    rw [hc1]
    intro x hx
    refine lt_of_lt_of_eq (posDef_normal hreg x hx) ?_
    exact Finset.sum_congr rfl fun i hi => Finset.sum_congr rfl fun j hj => by
      simp only [hgram i (Finset.mem_range.1 hi) j (Finset.mem_range.1 hj)]

/-! ## Dense normal equations -/

theorem symUpper_denseLhs (m n : ℕ) (A : Buf) (D : Option Vec) (i j : ℕ) :
    symUpper (denseLhs m n A D) i j = normalMat m A D i j := by
  unfold symUpper denseLhs normalMat dsq
  by_cases hij : i ≤ j
  · rw [if_pos hij, if_pos hij]
    congr 1
    cases D with
    | none => simp
    | some d => simp
  · rw [if_neg hij, if_pos (by omega), if_neg (show ¬ i = j by omega)]
    congr 1
    · exact Finset.sum_congr rfl fun k _ => mul_comm _ _
    · cases D with
      | none => rfl
      | some d => simp only [if_neg (show ¬ j = i by omega)]

/-- **DENSE_NORMAL_CHOLESKY**: success means that `x` minimises; if the minimiser is unique the call succeeds. -/
theorem dense_normal_cholesky {c : DenseChol} (hc : c.Correct) (m n : ℕ) (A : Buf) (b : Vec) (D : Option Vec)
    (x0 : Vec) :
    ((denseNormalSolve c m n A b D x0).1 = true → Minimises m n A b D (denseNormalSolve c m n A b D x0).2) ∧
    (Regular m n A D → (denseNormalSolve c m n A b D x0).1 = true) := by
  have hsym : symUpper (denseLhs m n A D) = normalMat m A D := by
    funext i j; exact symUpper_denseLhs m n A D i j
  unfold denseNormalSolve DenseChol.factorAndSolve
  simp only
  refine ⟨fun h => ?_, fun h => ?_⟩
  · by_cases hf : (c.factorize n (denseLhs m n A D)).1 = true
    · rw [if_pos hf]
      have := (hc.solves n (denseLhs m n A D) (fun j => ∑ k ∈ Finset.range m, A k j * b k) hf).2
      rw [hsym] at this
      exact minimises_of_normal this
    · rw [if_neg hf] at h
      cases h
  · have hf := hc.complete n (denseLhs m n A D) (by rw [hsym]; exact posDef_normal h)
    rw [if_pos hf]
    exact (hc.solves n _ _ hf).1

/-- **What one step of refinement does**: the solution of the factorisation is still a solution afterwards if and
only if it solves the system of *all* that is in the memory of the matrix after the factorisation.  (Only one
triangle of it was ever filled in, and a factorisation in place has overwritten that too.) -/
theorem refined_once_iff {c : DenseChol} (hc : c.Correct) {n : ℕ} {lhs : Buf} {rhs : Vec}
    (hf : (c.factorize n lhs).1 = true) :
    Eqs n (symUpper lhs) ((c.refined 1).solve ((c.refined 1).factorize n lhs).2.2 rhs).2 rhs ↔
      Eqs n (c.factorize n lhs).2.1 (c.solve (c.factorize n lhs).2.2 rhs).2 rhs := by
  set x := (c.solve (c.factorize n lhs).2.2 rhs).2 with hx
  set F := (c.factorize n lhs).2.1 with hF
  set res : Vec := fun i => rhs i - ∑ j ∈ Finset.range n, F i j * x j with hres
  have e : ((c.refined 1).solve ((c.refined 1).factorize n lhs).2.2 rhs).2 =
      fun i => x i + (c.solve (c.factorize n lhs).2.2 res).2 i := by
    show (if (c.solve (c.factorize n lhs).2.2 rhs).1 then _ else _ : Bool × Vec).2 = _
    rw [if_pos (hc.solves n lhs rhs hf).1]
    rfl
  rw [e]
  have h1 := (hc.solves n lhs rhs hf).2
  have h2 := (hc.solves n lhs res hf).2
  have h3 : ∀ i < n, ∑ j ∈ Finset.range n, symUpper lhs i j * (x j + (c.solve (c.factorize n lhs).2.2 res).2 j) =
      rhs i + (rhs i - ∑ j ∈ Finset.range n, F i j * x j) := by
    intro i hi
    simp only [mul_add, Finset.sum_add_distrib]
    rw [h1 i hi, h2 i hi]
  constructor
  · intro h i hi
    have := h i hi
    rw [h3 i hi] at this
    linarith
  · intro h i hi
    rw [h3 i hi, h i hi]
    ring

/-- For the triangle of the normal equations and a library that leaves it alone (all the mixed precision ones do):
refinement preserves the solution only if the part below the diagonal does not contribute. -/
theorem refined_triangle_iff {c : DenseChol} (hc : c.Correct) {m n : ℕ} {A : Buf} {D : Option Vec} {rhs : Vec}
    (hf : (c.factorize n (denseLhs m n A D)).1 = true)
    (hkeep : (c.factorize n (denseLhs m n A D)).2.1 = denseLhs m n A D) :
    Eqs n (normalMat m A D) ((c.refined 1).solve ((c.refined 1).factorize n (denseLhs m n A D)).2.2 rhs).2 rhs ↔
      ∀ i < n, ∑ j ∈ Finset.range n, (if j < i then normalMat m A D i j else 0) *
        (c.solve (c.factorize n (denseLhs m n A D)).2.2 rhs).2 j = 0 := by
  have hsym : symUpper (denseLhs m n A D) = normalMat m A D := by
    funext i j; exact symUpper_denseLhs m n A D i j
  have h := refined_once_iff hc (rhs := rhs) hf
  rw [hsym, hkeep] at h
  rw [h]
  have hx := (hc.solves n (denseLhs m n A D) rhs hf).2
  rw [hsym] at hx
  generalize (c.solve (c.factorize n (denseLhs m n A D)).2.2 rhs).2 = x at hx ⊢
  have key : ∀ i < n, ∑ j ∈ Finset.range n, denseLhs m n A D i j * x j =
      rhs i - ∑ j ∈ Finset.range n, (if j < i then normalMat m A D i j else 0) * x j := by
    intro i hi
    rw [← hx i hi, ← Finset.sum_sub_distrib]
    refine Finset.sum_congr rfl fun j _ => ?_
    rw [← sub_mul]
    congr 1
    by_cases hji : j < i
    · rw [if_pos hji, sub_self]
      unfold denseLhs
      rw [if_neg (by omega)]
      cases D with
      | none => simp
      | some d => simp [show ¬ i = j by omega]
    · rw [if_neg hji, sub_zero, ← hsym]
      unfold symUpper
      rw [if_pos (by omega)]
  constructor
  · intro hE i hi
    have := hE i hi
    rw [key i hi] at this
    linarith
  · intro hE i hi
    rw [key i hi, hE i hi, sub_zero]

end Ceres.Direct
