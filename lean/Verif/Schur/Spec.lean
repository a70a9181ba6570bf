import Verif.Schur.Model
import Mathlib.Algebra.BigOperators.Intervals
import Mathlib.Algebra.Order.BigOperators.Group.Finset

/-!
# Specification of a Schur complement solver

The linear least squares problem `min ‖A x - b‖² + ‖D x‖²`, the rows of `A` being given by
cells, and what it means to solve the reduced system.
-/

noncomputable section

namespace Ceres.Schur

open Matrix

variable {sz : ℕ → ℕ}

/-- The rows of `A x` of one row block. -/
def Row.apply (r : Row sz) (x : BVec sz) : Fin r.size → ℝ :=
  (r.cells.map fun c => c.val *ᵥ x c.id).sum

/-- `‖A x - b‖² + ‖D x‖²`. -/
def cost (nb : ℕ) (rows : List (Row sz)) (D : Option (BVec sz)) (x : BVec sz) : ℝ :=
  (rows.map fun r => ∑ i, (r.apply x i - r.rhs i) ^ 2).sum +
    D.elim 0 fun D => ∑ b ∈ Finset.range nb, ∑ i, (D b i * x b i) ^ 2

/-- `‖A x‖² + ‖D x‖²`. -/
def energy (nb : ℕ) (rows : List (Row sz)) (D : Option (BVec sz)) (x : BVec sz) : ℝ :=
  (rows.map fun r => ∑ i, (r.apply x i) ^ 2).sum +
    D.elim 0 fun D => ∑ b ∈ Finset.range nb, ∑ i, (D b i * x b i) ^ 2

/-- A Jacobian in the order the Schur solvers need: blocks below `ne` are to be eliminated. -/
structure Ordered (ne nb : ℕ) (rows : List (Row sz)) : Prop where
  /-- The cells of a row are in the order of their columns. -/
  sorted : ∀ r ∈ rows, r.cells.Pairwise fun c d => c.id < d.id
  /-- No row is empty. -/
  nonempty : ∀ r ∈ rows, r.cells ≠ []
  /-- All cells are in the matrix. -/
  bound : ∀ r ∈ rows, ∀ c ∈ r.cells, c.id < nb
  /-- No row depends on two e blocks. -/
  independent : ∀ r ∈ rows, ∀ c ∈ r.cells, ∀ d ∈ r.cells, c.id < ne → d.id < ne → c.id = d.id
  /-- Rows with e blocks come first. -/
  eFirst : rows.Pairwise fun r s => (∃ c ∈ s.cells, c.id < ne) → ∃ c ∈ r.cells, c.id < ne
  /-- The rows of an e block are contiguous. -/
  grouped : ∀ r s t, [r, s, t].Sublist rows → ∀ e < ne, (∃ c ∈ r.cells, c.id = e) →
    (∃ c ∈ t.cells, c.id = e) → ∃ c ∈ s.cells, c.id = e

/-- Block `(x, y)` of the symmetric matrix whose upper triangle is stored in `L`, cells not
stored being zero. -/
def Lhs.sym (L : Lhs sz) (x y : ℕ) : Matrix (Fin (sz x)) (Fin (sz y)) ℝ :=
  if x ≤ y then (if L.has x y then L.val x y else 0)
  else (if L.has y x then L.val y x else 0)ᵀ

/-- `z` solves the reduced system. -/
def SolvesReduced (ne nb : ℕ) (L : Lhs sz) (rhs z : BVec sz) : Prop :=
  ∀ x, ne ≤ x → x < nb → ∑ y ∈ Finset.Ico ne nb, L.sym x y *ᵥ z y = rhs x

/-- The columns of the e blocks that occur are linearly independent in `[A; D]`. -/
def FullRankE (ne nb : ℕ) (rows : List (Row sz)) (D : Option (BVec sz)) : Prop :=
  ∀ x : BVec sz, (∀ b, ne ≤ b → x b = 0) → energy nb rows D x = 0 →
    ∀ r ∈ rows, ∀ c ∈ r.cells, c.id < ne → x c.id = 0

/-- A generalised inverse: what `InvertPSDMatrix` computes, with or without full rank. -/
def Inverts (inv : Inverter) {n : ℕ} (M : Matrix (Fin n) (Fin n) ℝ) : Prop :=
  M * inv n M * M = M ∧ (inv n M)ᵀ = inv n M

end Ceres.Schur
