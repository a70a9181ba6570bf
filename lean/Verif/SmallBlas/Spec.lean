import Verif.SmallBlas.Model
import Mathlib.Data.Matrix.Mul

/-!
# What the kernels are supposed to do

In terms of matrices and of the memory before and after; nothing here mentions the kernels.
-/

namespace Ceres.SmallBlas

variable {K : Type} [Ring K]

/-- The meaning of `kOperation`: `+=`, `-=` or `=`. -/
def combine (op : ℤ) (old v : K) : K :=
  if op > 0 then old + v else if op < 0 then old - v else v

/-- The memory holds the matrix `X` in row-major order at address `p`. -/
def HoldsMatrix {r c : ℕ} (m : Mem K) (p : ℕ) (X : Matrix (Fin r) (Fin c) K) : Prop :=
  ∀ i j, m (p + i.val * c + j.val) = some (X i j)

/-- The memory holds the vector `x` at address `p`. -/
def HoldsVector {n : ℕ} (m : Mem K) (p : ℕ) (x : Fin n → K) : Prop :=
  ∀ i, m (p + i.val) = some (x i)

/-- The cells at `addr i`, for all `i`, have been combined with `v i`, and no other cell of the
memory has changed. -/
def Updated {ι : Type*} (op : ℤ) (addr : ι → ℕ) (v : ι → K) (m m' : Mem K) : Prop :=
  (∀ i, ∃ old, m (addr i) = some old ∧ m' (addr i) = some (combine op old (v i))) ∧
  ∀ p, (∀ i, p ≠ addr i) → m' p = m p

/-- The address of entry `(i, j)` of the block of `C` that starts at `(startRow, startCol)`, where
`C` has rows of length `stride`. -/
def blockAddr {r c : ℕ} (C startRow startCol stride : ℕ) (x : Fin r × Fin c) : ℕ :=
  C + (startRow + x.1.val) * stride + (startCol + x.2.val)

end Ceres.SmallBlas
