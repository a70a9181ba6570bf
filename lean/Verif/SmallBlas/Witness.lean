import Verif.SmallBlas.Correct
import Mathlib.Tactic.NormNum
import Mathlib.LinearAlgebra.Matrix.Notation

/-!
# Concrete runs
-/

namespace Ceres.SmallBlas.Witness

/-- `A` (2 × 3) at 0, `B` (3 × 7) at 10 and an 4 × 9 matrix `C` of hundreds at 40; nothing else is
allocated.  Seven columns make all three parts of the kernel run. -/
def mem : Mem ℤ := fun p =>
  if p < 6 then some p
  else if 10 ≤ p ∧ p < 31 then some (p - 10 : ℕ)
  else if 40 ≤ p ∧ p < 76 then some 100
  else none

def X : Matrix (Fin 2) (Fin 3) ℤ := fun i j => i.val * 3 + j.val

def Y : Matrix (Fin 3) (Fin 7) ℤ := fun i j => i.val * 7 + j.val

/-- The hypotheses of `matrixMatrixMultiply_correct` are met by an interior block of `C`, and the
theorem gives the numbers one expects. -/
theorem mm_run : ∃ act m', matrixMatrixMultiply (K := ℤ) none (some 3) none none 1 0 2 3 10 7 40 1 2 9
      = some act ∧
    act mem = some ((), m') ∧
    -- row 1, column 6 of the product lands at row 2, column 8 of C, added to what was there
    m' (40 + 2 * 9 + 8) = some (100 + (3 * 6 + 4 * 13 + 5 * 20)) ∧
    -- the rest of C and the inputs are as before
    m' (40 + 2 * 9 + 1) = some 100 ∧ m' (40 + 3 * 9 + 3) = some 100 ∧ m' 5 = some 5 := by
  obtain ⟨act, m', h1, h2, h3, h4⟩ := matrixMatrixMultiply_correct (K := ℤ) (m := mem) (op := 1)
    (A := 0) (B := 10) (C := 40) (startRow := 1) (startCol := 2) (stride := 9) (X := X) (Y := Y)
    (kRowA := none) (kColA := some 3) (kRowB := none) (kColB := none)
    (Or.inl rfl) (Or.inr rfl) (Or.inl rfl) (Or.inl rfl)
    (by unfold HoldsMatrix; decide) (by unfold HoldsMatrix; decide) (by decide)
    (by decide) (by decide) (by decide)
  refine ⟨act, m', h1, h2, ?_, ?_, ?_, ?_⟩
  · obtain ⟨old, e1, e2⟩ := h3 (1, 6)
    have : old = 100 := by
      have : mem (40 + 2 * 9 + 8) = some 100 := by decide
      exact Option.some.inj (e1.symm.trans this)
    rw [this] at e2
    exact e2.trans (by decide)
  · exact (h4 _ (by decide)).trans (by decide)
  · exact (h4 _ (by decide)).trans (by decide)
  · exact (h4 _ (by decide)).trans (by decide)

/-- The transposed product on the same memory: `A` read as a 3 × 2 matrix. -/
theorem mtm_run : ∃ act m', matrixTransposeMatrixMultiply (K := ℤ) none none none (some 7) (-1)
      0 3 2 10 7 40 1 2 9 = some act ∧
    act mem = some ((), m') ∧
    m' (40 + 2 * 9 + 8) = some (100 - (1 * 6 + 3 * 13 + 5 * 20)) ∧
    m' (40 + 2 * 9 + 1) = some 100 := by
  obtain ⟨act, m', h1, h2, h3, h4⟩ := matrixTransposeMatrixMultiply_correct (K := ℤ) (m := mem)
    (op := -1) (A := 0) (B := 10) (C := 40) (startRow := 1) (startCol := 2) (stride := 9)
    (X := (fun i j => i.val * 2 + j.val : Matrix (Fin 3) (Fin 2) ℤ)) (Y := Y)
    (kRowA := none) (kColA := none) (kRowB := none) (kColB := some 7)
    (Or.inl rfl) (Or.inl rfl) (Or.inr rfl) (Or.inl rfl)
    (by unfold HoldsMatrix; decide) (by unfold HoldsMatrix; decide) (by decide)
    (by decide) (by decide) (by decide)
  refine ⟨act, m', h1, h2, ?_, ?_⟩
  · obtain ⟨old, e1, e2⟩ := h3 (1, 6)
    have : old = 100 := by
      have : mem (40 + 2 * 9 + 8) = some 100 := by decide
      exact Option.some.inj (e1.symm.trans this)
    rw [this] at e2
    exact e2.trans (by decide)
  · exact (h4 _ (by decide)).trans (by decide)

/-- A 7 × 3 matrix times a vector. -/
theorem mv_run : ∃ m', matrixVectorMultiply (K := ℤ) none none 0 10 7 3 0 40 mem = some ((), m') ∧
    m' 46 = some (18 * 0 + 19 * 1 + 20 * 2) ∧ m' 47 = some 100 := by
  obtain ⟨m', h1, h2, h3⟩ := matrixVectorMultiply_correct (K := ℤ) (m := mem) (op := 0)
    (A := 10) (b := 0) (c := 40) (X := (fun i j => i.val * 3 + j.val : Matrix (Fin 7) (Fin 3) ℤ))
    (x := fun i => i.val) (kRowA := none) (kColA := none) (Or.inl rfl) (Or.inl rfl)
    (by unfold HoldsMatrix; decide) (by unfold HoldsVector; decide) (by decide) (by decide) (by decide)
  refine ⟨m', h1, ?_, ?_⟩
  · obtain ⟨old, -, e2⟩ := h2 6
    exact e2.trans (by rw [show ∀ v, combine 0 old v = v from fun v => rfl]; decide)
  · exact (h3 _ (by decide)).trans (by decide)

/-- A 3 × 7 matrix, transposed, times a vector. -/
theorem mtv_run : ∃ m', matrixTransposeVectorMultiply (K := ℤ) (some 3) none 1 10 3 7 0 40 mem =
      some ((), m') ∧
    m' 46 = some (100 + (6 * 0 + 13 * 1 + 20 * 2)) ∧ m' 47 = some 100 := by
  obtain ⟨m', h1, h2, h3⟩ := matrixTransposeVectorMultiply_correct (K := ℤ) (m := mem) (op := 1)
    (A := 10) (b := 0) (c := 40) (X := Y)
    (x := fun i => i.val) (kRowA := some 3) (kColA := none) (Or.inr rfl) (Or.inl rfl)
    (by unfold HoldsMatrix; decide) (by unfold HoldsVector; decide) (by decide) (by decide) (by decide)
  refine ⟨m', h1, ?_, ?_⟩
  · obtain ⟨old, e1, e2⟩ := h2 6
    have : old = 100 := by
      have : mem (40 + 6) = some 100 := by decide
      exact Option.some.inj (e1.symm.trans this)
    rw [this] at e2
    exact e2.trans (by decide)
  · exact (h3 _ (by decide)).trans (by decide)

/-- The separation hypotheses are needed.  With `b` and `c` the same array, the product of the
3 × 3 matrix of ones with `(1, 1, 1)` is `(5, 5, 3)` instead of `(3, 3, 3)`: the last row is stored
before the other two read it. -/
def ones : Mem ℤ := fun p => if p < 12 then some 1 else none

theorem alias_wrong :
    (matrixVectorMultiply (K := ℤ) none none 0 0 3 3 9 9 ones).map (fun r => (r.2 9, r.2 10, r.2 11)) =
      some (some 5, some 5, some 3) := by
  unfold matrixVectorMultiply mvNaive mvRest mvPair
  rw [mask4_eq]
  decide +kernel

/-- A matrix too close to the end of its allocation: the kernel faults instead of reading past it. -/
theorem overrun_faults :
    matrixVectorMultiply (K := ℤ) none none 0 1 3 3 9 9 (fun p => if p < 10 then some 1 else none) =
      none := by
  decide +kernel

end Ceres.SmallBlas.Witness
