import Verif.Direct.Model
import Verif.Sparse.Products

/-!
# What the direct solvers are asked for, and what is expected of the libraries
-/
namespace Ceres.Direct

open Ceres.BlockSparse

/-- `‖E x - b‖² + ‖D x‖²` for a matrix `E` of `m` rows and `n` columns (linear_solver.h:236-257). -/
noncomputable def lsq (m n : ℕ) (E : Buf) (b : Vec) (D : Option Vec) (x : Vec) : ℝ :=
  ∑ k ∈ Finset.range m, (∑ j ∈ Finset.range n, E k j * x j - b k) ^ 2 +
    match D with
    | none => 0
    | some d => ∑ j ∈ Finset.range n, (d j * x j) ^ 2

/-- `x` minimises. -/
def Minimises (m n : ℕ) (E : Buf) (b : Vec) (D : Option Vec) (x : Vec) : Prop :=
  ∀ y, lsq m n E b D x ≤ lsq m n E b D y

/-- `D x = 0`. -/
def Annihilates (D : Option Vec) (n : ℕ) (x : Vec) : Prop :=
  match D with
  | none => True
  | some d => ∀ j < n, d j * x j = 0

/-- Only zero is mapped to zero by `E` and `D` together: the minimiser is unique. -/
def Regular (m n : ℕ) (E : Buf) (D : Option Vec) : Prop :=
  ∀ x : Vec, (∀ k < m, ∑ j ∈ Finset.range n, E k j * x j = 0) →
    Annihilates D n x → ∀ j < n, x j = 0

/-- `H` is positive definite. -/
def PosDef (n : ℕ) (H : Buf) : Prop :=
  ∀ x : Vec, (∃ j < n, x j ≠ 0) →
    0 < ∑ i ∈ Finset.range n, ∑ j ∈ Finset.range n, x i * H i j * x j

/-- `H x = rhs`. -/
def Eqs (n : ℕ) (H : Buf) (x rhs : Vec) : Prop :=
  ∀ i < n, ∑ j ∈ Finset.range n, H i j * x j = rhs i

/-- A square matrix in order that stores the triangle asked for: what may be given to `Factorize`. -/
structure Input (upper : Bool) (A : Sparse.Mat ℝ) : Prop where
  wf : A.WF
  square : A.numRows = A.numCols
  storage : A.storage = if upper then .upper else .lower
  sorted : A.RowsSorted

/-- The same sparsity. -/
def SamePattern (A B : Sparse.Mat ℝ) : Prop :=
  A.numRows = B.numRows ∧ A.numCols = B.numCols ∧ (∀ r ≤ A.numRows, A.rows r = B.rows r) ∧
    ∀ i < A.nnz, A.cols i = B.cols i

/-- The objects reachable by factorising matrices of the sparsity of `P` ("assuming that the sparsity of the matrix
has remained constant", sparse_cholesky.h:92-94). -/
inductive Reach (c : SparseChol) (P : Sparse.Mat ℝ) : c.State → Prop where
  | init : Reach c P c.init
  | factorize {s : c.State} (A : Sparse.Mat ℝ) : Reach c P s → Input c.upper A → SamePattern P A →
      Reach c P (c.factorize s A).2

/-- The contract of `SparseCholesky`: after a successful factorisation, a solve that succeeds solves the system of
the symmetric matrix stored; for a positive definite matrix both succeed; a solve after a successful factorisation
succeeds. -/
structure SparseChol.Correct (c : SparseChol) : Prop where
  solves : ∀ P s A rhs, Reach c P s → Input c.upper A → SamePattern P A → (c.factorize s A).1 = true →
    (c.solve (c.factorize s A).2 rhs).1 = true ∧
    Eqs A.numCols A.sym (c.solve (c.factorize s A).2 rhs).2 rhs
  complete : ∀ P s A, Reach c P s → Input c.upper A → SamePattern P A → PosDef A.numCols A.sym →
    (c.factorize s A).1 = true

/-- The contract of the libraries for dynamic sparsity: success means that `A'A x = rhs`, and a matrix of full rank
succeeds. -/
structure GramCorrect (lib : GramSolve) : Prop where
  solves : ∀ A : Sparse.Mat ℝ, A.WF → A.storage = .unsymmetric → ∀ rhs, (lib A rhs).1 = true →
    Eqs A.numCols (fun i j => ∑ k ∈ Finset.range A.numRows, A.entry k i * A.entry k j) (lib A rhs).2 rhs
  complete : ∀ A : Sparse.Mat ℝ, A.WF → A.storage = .unsymmetric → ∀ rhs,
    PosDef A.numCols (fun i j => ∑ k ∈ Finset.range A.numRows, A.entry k i * A.entry k j) →
    (lib A rhs).1 = true

/-- The symmetric matrix of which `lhs` holds the upper triangle (row by row; the libraries see the lower triangle
of the transpose, dense_cholesky.h:65-74). -/
def symUpper (lhs : Buf) : Buf := fun i j => if i ≤ j then lhs i j else lhs j i

/-- The contract of `DenseCholesky` (dense_cholesky.h:65-88). -/
structure DenseChol.Correct (c : DenseChol) : Prop where
  solves : ∀ n lhs rhs, (c.factorize n lhs).1 = true →
    (c.solve (c.factorize n lhs).2.2 rhs).1 = true ∧
    Eqs n (symUpper lhs) (c.solve (c.factorize n lhs).2.2 rhs).2 rhs
  complete : ∀ n lhs, PosDef n (symUpper lhs) → (c.factorize n lhs).1 = true

/-- The contract of the LAPACK functions: for at least as many rows as columns, `lhs = Q R` with `Q` orthogonal
and `R` upper triangular; a triangular system is solved if there is no zero on the diagonal, and refused
otherwise.  Only the triangle and the first `n` elements are read. -/
structure Lapack.Correct (lib : Lapack) : Prop where
  orthogonal : ∀ m n lhs, n ≤ m → ∀ i < m, ∀ j < m,
    ∑ k ∈ Finset.range m, (lib.qr m n lhs).1 k i * (lib.qr m n lhs).1 k j = if i = j then 1 else 0
  factors : ∀ m n lhs, n ≤ m → ∀ i < m, ∀ j < n,
    lhs i j = ∑ k ∈ Finset.range m, (lib.qr m n lhs).1 i k * (lib.qr m n lhs).2 k j
  triangular : ∀ m n lhs, n ≤ m → ∀ i < m, ∀ j < n, j < i → (lib.qr m n lhs).2 i j = 0
  solves : ∀ n R rhs y, lib.trtrs n R rhs = some y → ∀ i < n,
    ∑ j ∈ Finset.range n, (if i ≤ j then R i j else 0) * y j = rhs i
  complete : ∀ n R rhs, (∀ i < n, R i i ≠ 0) → (lib.trtrs n R rhs).isSome
  refuses : ∀ n R rhs, (∃ i < n, R i i = 0) → lib.trtrs n R rhs = none

end Ceres.Direct
