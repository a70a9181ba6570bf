import Verif.InnerProduct.Model
import Mathlib.Data.Real.Basic
import Mathlib.Algebra.BigOperators.Group.Finset.Basic

/-!
# The direct linear solvers

`SparseNormalCholeskySolver`, `DynamicSparseNormalCholeskySolver`, `DenseNormalCholeskySolver` and `DenseQRSolver`
with the classes that wrap the libraries doing the factorisation.  Vectors are functions of the index; what they
hold beyond their size is not looked at.  The libraries (Eigen, LAPACK, SuiteSparse, Accelerate) are objects of
which only a contract is known, stated in `Spec`.  Rounding is not modelled.
-/
namespace Ceres.Direct

open Ceres.BlockSparse Ceres.InnerProduct

/-- A vector. -/
abbrev Vec := ℕ → ℝ

/-! ## Sparse Cholesky factorisation -/

/-- An object of a class derived from `SparseCholesky` (sparse_cholesky.h:72-112).  `factorize` returns whether
it succeeded and the object afterwards (the symbolic factorisation and the factors); `solve` returns whether it
succeeded and what is then in `solution`.  Kinds of failure are not told apart. -/
structure SparseChol where
  State : Type
  init : State
  /-- `StorageType() == UPPER_TRIANGULAR`. -/
  upper : Bool
  factorize : State → Sparse.Mat ℝ → Bool × State
  solve : State → Vec → Bool × Vec

/-- `SparseCholesky::FactorAndSolve` (sparse_cholesky.cc:123-133): whether it succeeded, the solution and the
object. -/
def SparseChol.factorAndSolve (c : SparseChol) (s : c.State) (lhs : Sparse.Mat ℝ) (rhs x : Vec) :
    Bool × Vec × c.State :=
  let f := c.factorize s lhs
  if f.1 then ((c.solve f.2 rhs).1, (c.solve f.2 rhs).2, f.2) else (false, x, f.2)

/-- `SparseIterativeRefiner::Refine` (iterative_refiner.cc:53-71): whether a solve succeeds is not looked at. -/
def refineSparse (lhs : Sparse.Mat ℝ) (rhs : Vec) (solve : Vec → Bool × Vec) : ℕ → Vec → Vec
  | 0, x => x
  | k + 1, x => refineSparse lhs rhs solve k fun i =>
      x i + (solve fun i => rhs i - lhs.rightMul x (fun _ => 0) i).2 i

/-- `RefinedSparseCholesky` (sparse_cholesky.cc:135-165).  `lhs_` is a pointer: the matrix is not changed between
`Factorize` and `Solve`. -/
def SparseChol.refined (c : SparseChol) (iterations : ℕ) : SparseChol where
  State := c.State × Sparse.Mat ℝ
  init := (c.init, ⟨0, 0, fun _ => 0, fun _ => 0, fun _ => 0, .unsymmetric, []⟩)
  upper := c.upper
  factorize := fun s lhs => ((c.factorize s.1 lhs).1, (c.factorize s.1 lhs).2, lhs)
  solve := fun s rhs =>
    let r := c.solve s.1 rhs
    if r.1 then (true, refineSparse s.2 rhs (c.solve s.1) iterations r.2) else r

/-! ## SPARSE_NORMAL_CHOLESKY -/

/-- What a linear solver is given (linear_solver.h:233-258, 339-342). -/
structure Call where
  A : BMat ℝ
  b : Vec
  D : Option Vec

/-- A `SparseNormalCholeskySolver` between two calls (sparse_normal_cholesky_solver.h:56-75). -/
structure Solver (c : SparseChol) where
  computer : Option (Computer ℝ)
  chol : c.State

/-- What `Solve` leaves. -/
structure Result (c : SparseChol) where
  solver : Solver c
  A : BMat ℝ
  success : Bool
  x : Vec

/-- The matrix with the diagonal appended, if there is one (sparse_normal_cholesky_solver.cc:77-86); `none`: a
`CHECK` fails. -/
def augment (A : BMat ℝ) (D : Option Vec) : Option (BMat ℝ) :=
  match D with
  | none => some A
  | some d => A.appendRows (diagonalMatrix d A.bs.cols)

/-- The matrix is given back as it was (sparse_normal_cholesky_solver.cc:99-101). -/
def restore (D : Option Vec) (A1 : BMat ℝ) : BMat ℝ :=
  match D with
  | none => A1
  | some _ => A1.deleteRowBlocks A1.bs.cols.length

/-- The computer, made in the first call (sparse_normal_cholesky_solver.cc:89-94). -/
def Solver.theComputer {c : SparseChol} (S : Solver c) (A1 : BMat ℝ) (oldCols : ℕ → ℕ) (oldValues : Vec) :
    Option (Computer ℝ) :=
  match S.computer with
  | some C => some C
  | none => create A1 0 A1.bs.rows.length c.upper oldCols oldValues

/-- `SolveImpl` once the right hand side is there (sparse_normal_cholesky_solver.cc:77-109); `none`: a `CHECK`
fails or row blocks that are not there are read.  `oldCols` and `oldValues` are what the arrays of a new result
hold.  The computer keeps a reference to the matrix of the first call; here every call passes the same object,
as the minimizer does. -/
def Solver.normalEquations {c : SparseChol} (S : Solver c) (A : BMat ℝ) (D : Option Vec) (oldCols : ℕ → ℕ)
    (oldValues : Vec) (rhs : Vec) : Option (Result c) := do
  let A1 ← augment A D
  let C ← S.theComputer A1 oldCols oldValues
  let C' ← C.compute A1
  let r := c.factorAndSolve S.chol C'.result rhs fun _ => 0
  some ⟨⟨some C', r.2.2⟩, restore D A1, r.1, r.2.1⟩

/-- `SolveImpl` (sparse_normal_cholesky_solver.cc:58-110) on any number of threads: the right hand side is a
parallel product. -/
def Solve {c : SparseChol} (S : Solver c) (call : Call) (threads : ℕ) (o : Option (Result c)) : Prop :=
  ∃ m, LeftRun call.A threads (memOf call.A call.b fun _ => 0) m ∧
    match m with
    | none => o = none
    | some m => ∃ oldCols oldValues,
        o = S.normalEquations call.A call.D oldCols oldValues fun i => m (.y i)

/-- The solver after some calls. -/
inductive After (c : SparseChol) (threads : ℕ) : List Call → Solver c → Prop where
  | nil : After c threads [] ⟨none, c.init⟩
  | snoc {calls : List Call} {S : Solver c} (call : Call) (r : Result c) :
      After c threads calls S → Solve S call threads (some r) → After c threads (calls ++ [call]) r.solver

/-! ## SPARSE_NORMAL_CHOLESKY with dynamic sparsity -/

/-- What `SolveImplUsingSuiteSparse`, `...Eigen` and `...Cuda` (dynamic_sparse_normal_cholesky_solver.cc:111-297)
do with the matrix, whose transpose times itself is factorised by the library, and with the vector that holds the
right hand side first and the solution then. -/
abbrev GramSolve := Sparse.Mat ℝ → Vec → Bool × Vec

/-- The matrix with the diagonal appended (dynamic_sparse_normal_cholesky_solver.cc:72-85).  The matrix has no column
blocks, as the writer of dynamic Jacobians leaves it, so that the regulariser is the plain diagonal matrix. -/
def augmentRows (A : Sparse.Mat ℝ) (D : Option Vec) : Option (Sparse.Mat ℝ) :=
  match D with
  | none => some A
  | some d => A.appendRows (Sparse.diagonal d A.numCols)

/-- The matrix is given back (dynamic_sparse_normal_cholesky_solver.cc:104-106). -/
def restoreRows (D : Option Vec) (n : ℕ) (A1 : Sparse.Mat ℝ) : Option (Sparse.Mat ℝ) :=
  match D with
  | none => some A1
  | some _ => A1.deleteRows n

/-- `DynamicSparseNormalCholeskySolver::SolveImpl` (dynamic_sparse_normal_cholesky_solver.cc:63-109); `none`: a
`CHECK` fails. -/
def dynamicSolve (lib : GramSolve) (A : Sparse.Mat ℝ) (b : Vec) (D : Option Vec) :
    Option (Sparse.Mat ℝ × Bool × Vec) := do
  let x := A.leftMul b fun _ => 0
  let A1 ← augmentRows A D
  let r := lib A1 x
  let A2 ← restoreRows D A.numCols A1
  some (A2, r.1, r.2)

/-! ## DENSE_NORMAL_CHOLESKY -/

/-- A dense matrix in memory: row and column. -/
abbrev Buf := ℕ → ℕ → ℝ

/-- An object of a class derived from `DenseCholesky` (dense_cholesky.h:58-102).  `factorize` also returns what it
leaves in the memory of `lhs`. -/
structure DenseChol where
  State : Type
  factorize : ℕ → Buf → Bool × Buf × State
  solve : State → Vec → Bool × Vec

/-- `DenseCholesky::FactorAndSolve` (dense_cholesky.cc:139-152). -/
def DenseChol.factorAndSolve (c : DenseChol) (n : ℕ) (lhs : Buf) (rhs x : Vec) : Bool × Vec :=
  let f := c.factorize n lhs
  if f.1 then c.solve f.2.2 rhs else (false, x)

/-- `DenseIterativeRefiner::Refine` (iterative_refiner.cc:83-99): `lhs` is all of what is in the memory of the
matrix when `Solve` is called. -/
def refineDense (n : ℕ) (lhs : Buf) (rhs : Vec) (solve : Vec → Bool × Vec) : ℕ → Vec → Vec
  | 0, x => x
  | k + 1, x => refineDense n lhs rhs solve k fun i =>
      x i + (solve fun i => rhs i - ∑ j ∈ Finset.range n, lhs i j * x j).2 i

/-- `RefinedDenseCholesky` (dense_cholesky.cc:322-349). -/
def DenseChol.refined (c : DenseChol) (iterations : ℕ) : DenseChol where
  State := c.State × ℕ × Buf
  factorize := fun n lhs =>
    let f := c.factorize n lhs
    (f.1, f.2.1, f.2.2, n, f.2.1)
  solve := fun s rhs =>
    let r := c.solve s.1 rhs
    if r.1 then (true, refineDense s.2.1 s.2.2 rhs (c.solve s.1) iterations r.2) else r

/-- `lhs` (dense_normal_cholesky_solver.cc:59-77): `rankUpdate` of the upper triangle of a matrix of zeros, then
the squares of `D` on the diagonal. -/
noncomputable def denseLhs (m n : ℕ) (A : Buf) (D : Option Vec) : Buf := fun i j =>
  (if i ≤ j then ∑ k ∈ Finset.range m, A k i * A k j else 0) +
    match D with
    | none => 0
    | some d => if i = j then d i ^ 2 else 0

/-- `DenseNormalCholeskySolver::SolveImpl` (dense_normal_cholesky_solver.cc:49-87); `x` before is `x0`. -/
noncomputable def denseNormalSolve (c : DenseChol) (m n : ℕ) (A : Buf) (b : Vec) (D : Option Vec) (x0 : Vec) :
    Bool × Vec :=
  c.factorAndSolve n (denseLhs m n A D) (fun j => ∑ k ∈ Finset.range m, A k j * b k) x0

/-! ## DENSE_QR -/

/-- The LAPACK functions that `LAPACKDenseQR` uses (dense_qr.cc:46-111).  `qr` is `dgeqrf`: from a matrix of `m`
rows and `n` columns an orthogonal `Q` (as reflections) and an `R`; applying the reflections is exact.  `trtrs` is
`dtrtrs` for an upper triangular matrix: `none` if `info > 0`. -/
structure Lapack where
  qr : ℕ → ℕ → Buf → Buf × Buf
  trtrs : ℕ → Buf → Vec → Option Vec

/-- A `LAPACKDenseQR` (dense_qr.h:124-143) with what the reflections and the triangle in `lhs_` stand for. -/
structure Qr where
  rows : ℕ
  cols : ℕ
  Q : Buf
  R : Buf
  /-- `q_transpose_rhs_`: grows only. -/
  qtRhs : Vec
  success : Bool

/-- `LAPACKDenseQR::Factorize` (dense_qr.cc:184-245). -/
def Qr.factorize (lib : Lapack) (q : Qr) (m n : ℕ) (lhs : Buf) : Qr :=
  { q with rows := m, cols := n, Q := (lib.qr m n lhs).1, R := (lib.qr m n lhs).2, success := true }

/-- The right hand side is copied and `dormqr` applied (dense_qr.cc:255-276). -/
def Qr.rotate (q : Qr) (rhs : Vec) : Vec :=
  let copied : Vec := fun i => if i < q.rows then rhs i else q.qtRhs i
  fun i => if i < q.rows then ∑ k ∈ Finset.range q.rows, q.Q k i * copied k else copied i

/-- `LAPACKDenseQR::Solve` (dense_qr.cc:247-310): success, solution, object. -/
def Qr.solve (lib : Lapack) (q : Qr) (rhs x : Vec) : Bool × Vec × Qr :=
  if q.success then
    match lib.trtrs q.cols q.R (q.rotate rhs) with
    | none => (false, x, { q with qtRhs := q.rotate rhs, success := false })
    | some y => (true, fun i => if i < q.cols then y i else x i,
        { q with qtRhs := fun i => if i < q.cols then y i else q.rotate rhs i, success := true })
  else (false, x, q)

/-- A `DenseQRSolver` (dense_qr_solver.h:85-112): the buffers `lhs_` and `rhs_` with their sizes. -/
structure QrSolver where
  lhsRows : ℕ
  lhsCols : ℕ
  rhsRows : ℕ
  lhs : Buf
  rhs : Vec
  qr : Qr

/-- The last `n` of `aug` rows are set to the diagonal matrix (dense_qr_solver.cc:68-70). -/
def setBottom (D : Option Vec) (m n aug : ℕ) (lhs : Buf) : Buf :=
  match D with
  | none => lhs
  | some d => if m ≠ aug then
      fun i j => if aug - n ≤ i then (if i - (aug - n) = j then d j else 0) else lhs i j
    else lhs

/-- `DenseQRSolver::SolveImpl` (dense_qr_solver.cc:48-81): success, solution, object; `none`: an assignment to
rows that are not there.  Resizing loses the contents (`junk`), and so does the factorisation in place. -/
def QrSolver.solve (lib : Lapack) (S : QrSolver) (m n : ℕ) (A : Buf) (b : Vec) (D : Option Vec) (junk : Buf)
    (junkRhs : Vec) (factored : Buf) (x : Vec) : Option (Bool × Vec × QrSolver) :=
  let aug := m + if D.isSome then n else 0
  let S1 : QrSolver :=
    if S.lhsRows ≠ aug ∨ S.lhsCols ≠ n then
      { S with lhsRows := aug, lhsCols := n, rhsRows := aug, lhs := junk, rhs := junkRhs }
    else S
  if m ≤ S1.lhsRows ∧ S1.rhsRows = S1.lhsRows then
    let lhs : Buf := fun i j => if i < m then A i j else S1.lhs i j
    let rhs : Vec := fun i => if i < m then b i else S1.rhs i
    let lhs : Buf := setBottom D m n aug lhs
    let rhs : Vec := if m ≠ aug then fun i => if aug - n ≤ i then 0 else rhs i else rhs
    let q := S1.qr.factorize lib S1.lhsRows S1.lhsCols lhs
    let r := q.solve lib rhs x
    some (r.1, r.2.1, { S1 with lhs := factored, rhs := rhs, qr := r.2.2 })
  else none

end Ceres.Direct
