import Verif.Cov.Model

/-!
# What `Covariance` is supposed to return

A function `f` of two column numbers stands for the covariance matrix of all variable parameters,
in the tangent space.
-/
namespace Ceres.Cov

variable {K : Type}

/-- Addresses are distinct and a block without manifold has as many tangent coordinates as
coordinates. -/
structure Prob.WellFormed (P : Prob K) : Prop where
  nodup : P.ptrs.Nodup
  plain : ∀ p ∈ P.ptrs, (P.block p).plusJacobian = none → (P.block p).size = (P.block p).tangent

/-- A block the covariance is computed for: it can vary and some residual depends on it. -/
def Prob.Varies (P : Prob K) (p : ℕ) : Prop :=
  p ∈ P.ptrs ∧ (P.block p).setConstant = false ∧ (P.block p).tangent ≠ 0 ∧ (P.block p).used = true

/-- The column of the Jacobian, and the row and column of the covariance matrix, that belongs to
the first tangent coordinate of a block: the blocks are in the order of their addresses. -/
def Prob.firstColumn (P : Prob K) (p : ℕ) : ℕ :=
  ((P.ptrs.filter fun q => P.isActive q && decide (q < p)).map P.tangent).sum

/-- The number of columns. -/
def Prob.numColumns (P : Prob K) : ℕ := ((P.ptrs.filter P.isActive).map P.tangent).sum

/-- The user asked for a pair, in this order or the other. -/
def Requested (pairs : List (ℕ × ℕ)) (p q : ℕ) : Prop := (p, q) ∈ pairs ∨ (q, p) ∈ pairs

/-- Number of rows or columns a block has in the answer. -/
def Prob.extent (P : Prob K) (lift : Bool) (p : ℕ) : ℕ :=
  if lift then (P.block p).size else (P.block p).tangent

open Classical in
/-- The block of the covariance that belongs to `p` and `q`: zero if one of them is fixed,
`C_pq` in the tangent space, `J_p C_pq J_q'` in the ambient space. -/
noncomputable def Prob.expected [Field K] (P : Prob K) (f : ℕ → ℕ → K) (lift : Bool) (p q : ℕ)
    (i j : ℕ) : K :=
  if ¬(P.Varies p ∧ P.Varies q) then 0
  else if lift then
    ∑ k ∈ Finset.range (P.tangent p), ∑ l ∈ Finset.range (P.tangent q),
      (P.block p).jacobian i k * f (P.firstColumn p + k) (P.firstColumn q + l) *
        (P.block q).jacobian j l
  else f (P.firstColumn p + i) (P.firstColumn q + j)

/-- `f` is symmetric. -/
def Symmetric (n : ℕ) (f : ℕ → ℕ → K) : Prop := ∀ i < n, ∀ j < n, f i j = f j i

/-- `f` is the inverse of `g`. -/
def IsInverse [Field K] (n : ℕ) (g f : ℕ → ℕ → K) : Prop :=
  (∀ i < n, ∀ j < n, ∑ k ∈ Finset.range n, g i k * f k j = if i = j then 1 else 0) ∧
  (∀ i < n, ∀ j < n, ∑ k ∈ Finset.range n, f i k * g k j = if i = j then 1 else 0)

/-- `J'J`. -/
def Jac.gram [Field K] (J : Jac K) (i j : ℕ) : K :=
  ∑ r ∈ Finset.range J.numRows, J.entry r i * J.entry r j

/-- The rows of a compressed row matrix follow each other. -/
def Csr.Ordered (m : Csr) : Prop := ∀ r < m.numRows, m.rows r ≤ m.rows (r + 1)

/-- Whenever the algorithm succeeds, the stored entries are those of `f`. -/
def Algorithm.Computes (A : Algorithm K) (n : ℕ) (f : ℕ → ℕ → K) : Prop :=
  ∀ m v, m.numRows = n → m.Ordered → A.values m = .ok (some v) →
    ∀ r < n, ∀ i, m.rows r ≤ i → i < m.rows (r + 1) → v i = f r (m.cols.getD i 0)

end Ceres.Cov
