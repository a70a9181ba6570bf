import Verif.Cgnr.Model
import Verif.Sparse.Spec

/-!
# CGNR with CUDA

`CudaCgnrSolver` (cgnr_solver.cc:210-420) on a `CompressedRowSparseMatrix`, with `CudaIdentityPreconditioner`,
`CudaJacobiPreconditioner` and the `BlockCRSJacobiPreconditioner` it wraps (block_jacobi_preconditioner.cc:117-227).
The loops of the latter run on threads of the CPU and are programs on shared memory with mutexes as in `Verif.Tasks`.
What is done on the device is in one stream, hence in order; the kernels of cuSPARSE and cuBLAS are taken to compute
the products and sums they stand for: `cusparseSpMV` is `Sparse.Mat.rightMul` and `leftMul` of the arrays on the device
(`beta` is one).  Conjugate gradients are those of `Verif.CG`.  Not modelled: rounding, failures of CUDA (which abort).
-/

noncomputable section

namespace Ceres.CudaCgnr

open Matrix Ceres.Tasks Ceres.BlockSparse Ceres.Direct
open Ceres.PartitionedView (Does diagPos invertTask onY setZero)
open Ceres.SchurJacobi (diagonal front extend)
open Ceres.Cgnr (Locked)

/-- A `CompressedRowSparseMatrix` with the blocks of its rows and columns. -/
structure Crs where
  mat : Sparse.Mat ℝ
  rowBlocks : List Block
  colBlocks : List Block

/-! ## The structure of the preconditioner -/

/-- `m_rows`, `m_cols` and `idx` in the constructor. -/
structure Build where
  rows : ℕ → ℕ
  cols : ℕ → ℕ
  idx : ℕ

/-- The loop over `k` (block_jacobi_preconditioner.cc:142-144). -/
def buildRow (b : Block) (s : Build) : Build :=
  (List.range b.size).foldl
    (fun s k => { s with cols := Function.update s.cols s.idx (b.position + k), idx := s.idx + 1 }) s

/-- The loop over `j` (block_jacobi_preconditioner.cc:141-146). -/
def buildBlock (s : Build) (b : Block) : Build :=
  (List.range b.size).foldl
    (fun s j =>
      let s := buildRow b s
      { s with rows := Function.update s.rows (b.position + j + 1) s.idx }) s

/-- The loop over the column blocks (block_jacobi_preconditioner.cc:133-147), in arrays that hold anything. -/
def build (cols : List Block) (oldRows oldCols : ℕ → ℕ) : Build :=
  cols.foldl buildBlock ⟨Function.update oldRows 0 0, oldCols, 0⟩

/-- The constructor (block_jacobi_preconditioner.cc:117-156), with the `CHECK_EQ` at its end. -/
def construct (A : Crs) (oldRows oldCols : ℕ → ℕ) (oldValues : Vec) : Option (Sparse.Mat ℝ) :=
  let s := build A.colBlocks oldRows oldCols
  if s.rows A.mat.numCols = (A.colBlocks.map fun b => b.size * b.size).sum then
    some ⟨A.mat.numCols, A.mat.numCols, s.rows, s.cols, oldValues, .unsymmetric, []⟩
  else none

/-! ## Its update -/

/-- The body of the loop `while (c < row_nnz)` (block_jacobi_preconditioner.cc:190-205) for the columns `b` of the row
block from `c` on, whose first is `col`: `m += b'b` for the block `m` of `size` rows stored from `pos`, under the mutex
of `col`.  `base` is `a_rows[row]`. -/
def cellStep (threads base nnz c col size pos : ℕ) (row : Block) (k : Locked) : Locked :=
  let loc : Fin row.size → Fin size → Loc := fun i j => .val (base + i * nnz + (c + j))
  condLock threads col
    (readMat row.size size loc fun B =>
      readMat row.size size loc fun B' =>
        adds (matEntries (Bᵀ * B') fun i j => .y (pos + i * size + j)) (condUnlock threads col k))

/-- The loop `while (c < row_nnz)` (block_jacobi_preconditioner.cc:188-206).  The first number bounds the iterations; the
code would not end if `col_block_size` were zero, which it is not for a column that is stored. -/
def cellLoop (threads : ℕ) (A : Sparse.Mat ℝ) (mRows : ℕ → ℕ) (row : Block) (nnz : ℕ) : ℕ → ℕ → Locked
  | 0, _ => .ret
  | fuel + 1, c =>
    if c < nnz then
      let col := A.cols (A.rows row.position + c)
      let size := mRows (col + 1) - mRows col
      cellStep threads (A.rows row.position) nnz c col size (mRows col) row
        (cellLoop threads A mRows row nnz fuel (c + size))
    else .ret

/-- The body of the loop over the row blocks (block_jacobi_preconditioner.cc:177-208). -/
def rowTask (threads : ℕ) (A : Crs) (mRows : ℕ → ℕ) (_tid i : ℕ) : Locked :=
  match A.rowBlocks[i]? with
  | some row =>
    let nnz := A.mat.rows (row.position + 1) - A.mat.rows row.position
    cellLoop threads A.mat mRows row nnz nnz 0
  | none => .ret

/-- The body of the loop over the column blocks (block_jacobi_preconditioner.cc:210-227): the squares of `D` are added
to the diagonal and the block is inverted.  `llt` stands for `m.llt().solve(Identity)`. -/
def colTask (llt : (n : ℕ) → Matrix (Fin n) (Fin n) ℝ → Matrix (Fin n) (Fin n) ℝ) (cols : List Block) (mRows : ℕ → ℕ)
    (hasD : Bool) (_tid i : ℕ) : Prog ℝ :=
  match cols[i]? with
  | none => .ret
  | some b =>
    let loc : Fin b.size → Fin b.size → Loc := fun r c => .y (mRows b.position + r * b.size + c)
    readMat b.size b.size loc fun m =>
      if hasD then
        readVec b.size (fun k => .x (b.position + k)) fun D =>
          writes (matEntries (llt b.size (m + Matrix.diagonal fun k => D k ^ 2)) loc) .ret
      else writes (matEntries (llt b.size m) loc) .ret

/-- `BlockCRSJacobiPreconditioner::UpdateImpl` (block_jacobi_preconditioner.cc:160-229): the values of `m_`.  `SetZero`
is `fill` on one thread (compressed_row_sparse_matrix.cc:279-281). -/
def update (llt : (n : ℕ) → Matrix (Fin n) (Fin n) ℝ → Matrix (Fin n) (Fin n) ℝ) (threads : ℕ) (A : Crs)
    (D : Option Vec) (m : Sparse.Mat ℝ) : Does Vec :=
  let v0 : Vec := fun p => if p < m.nnz then 0 else m.values p
  Does.bind (onY (ForRun (rowTask threads A m.rows) 0 A.rowBlocks.length threads
    (PartitionedView.mem v0 v0 A.mat.values))) fun v1 =>
  onY (ForRun (colTask llt A.colBlocks m.rows D.isSome) 0 A.colBlocks.length threads
    (PartitionedView.mem (D.getD 0) v1 v1))

/-! ## The device -/

/-- `CudaSparseMatrix::CopyValuesFromCpu` (cuda_sparse_matrix.cc:135-144). -/
def copyValues (dev A : Sparse.Mat ℝ) : Option (Sparse.Mat ℝ) :=
  if dev.numRows = A.numRows ∧ dev.numCols = A.numCols ∧ dev.nnz = A.nnz then
    some { dev with values := fun p => if p < dev.nnz then A.values p else dev.values p }
  else none

/-- The preconditioners (cgnr_solver.cc:302-310). -/
inductive Prec where
  | identity
  | jacobi

/-- What `CudaCgnrSolver` keeps between two calls, if there was one: `A_` on the device and, for JACOBI, the matrix of
the preconditioner on the CPU and on the device.  The vectors are overwritten before they are read. -/
structure Kept where
  A : Sparse.Mat ℝ
  m : Option (Sparse.Mat ℝ × Sparse.Mat ℝ)

/-- A call of `Solve`. -/
structure Call where
  A : Crs
  b : Vec
  D : Option Vec

/-- `CpuToGpuTransfer` (cgnr_solver.cc:317-356); `none`: a `CHECK` fails or `D`, which is read without a test, is
`nullptr`.  The arrays of `m_` hold anything when they are made. -/
def transfer (p : Prec) (S : Option Kept) (call : Call) (o : Option Kept) : Prop :=
  ∃ s, (match S with
    | none => ∃ oldRows oldCols oldValues, s = match p with
        | .identity => some ⟨call.A.mat, none⟩
        | .jacobi => (construct call.A oldRows oldCols oldValues).map fun m => ⟨call.A.mat, some (m, m)⟩
    | some k => s = (copyValues k.A call.A.mat).map fun A => { k with A := A }) ∧
    o = if call.D.isSome then s else none

/-- `preconditioner_->Update` (cgnr_solver.cc:245, 267-270). -/
def updatePrec (llt : (n : ℕ) → Matrix (Fin n) (Fin n) ℝ → Matrix (Fin n) (Fin n) ℝ) (threads : ℕ) (call : Call)
    (k : Kept) (o : Option Kept) : Prop :=
  match k.m with
  | none => o = some k
  | some (cpu, dev) => ∃ v, update llt threads call.A call.D cpu v ∧
      o = v.bind fun w => (copyValues dev { cpu with values := w }).map fun dev' =>
        { k with m := some ({ cpu with values := w }, dev') }

/-- `RightMultiplyAndAccumulate` of the preconditioner (cgnr_solver.cc:246-248, 272-274). -/
def apply (k : Kept) (x y : Vec) : Vec :=
  match k.m with
  | none => fun i => if i < k.A.numCols then y i + x i else y i
  | some (_, dev) => dev.rightMul x y

/-- `CudaCgnrLinearOperator::RightMultiplyAndAccumulate` (cgnr_solver.cc:226-237); `DtDxpy`: cuda_kernels_vector_ops.cu.cc. -/
def normalMultiply (A : Sparse.Mat ℝ) (D x y : Vec) : Vec :=
  let z := A.rightMul x fun _ => 0
  let y := A.leftMul z y
  fun i => if i < A.numCols then y i + D i * D i * x i else y i

/-- What `Solve` leaves. -/
structure Result where
  kept : Kept
  termination : CG.Term
  x : Vec

/-- `CudaCgnrSolver::SolveImpl` (cgnr_solver.cc:358-398); `none`: it does not return. -/
def Solve (llt : (n : ℕ) → Matrix (Fin n) (Fin n) ℝ → Matrix (Fin n) (Fin n) ℝ) (o : CG.Options) (p : Prec)
    (threads : ℕ) (S : Option Kept) (call : Call) (out : Option Result) : Prop :=
  ∃ t, transfer p S call t ∧
    match t with
    | none => out = none
    | some k => ∃ u, updatePrec llt threads call k u ∧ out = u.map fun k =>
        let n := k.A.numCols
        let s := CG.solver (n := n) o
          (fun x y => front n (normalMultiply k.A (call.D.getD 0) (extend x) (extend y)))
          (fun x y => front n (apply k (extend x) (extend y)))
          (front n (k.A.leftMul call.b fun _ => 0)) 0
        ⟨k, s.termination, extend s.x⟩

/-- The solver after some calls, from its creation (cgnr_solver.cc:279-315). -/
inductive After (llt : (n : ℕ) → Matrix (Fin n) (Fin n) ℝ → Matrix (Fin n) (Fin n) ℝ) (p : Prec) (threads : ℕ) :
    List Call → Option Kept → Prop where
  | nil : After llt p threads [] none
  | snoc {calls : List Call} {S : Option Kept} (o : CG.Options) (call : Call) (r : Result) :
      After llt p threads calls S → Solve llt o p threads S call (some r) →
      After llt p threads (calls ++ [call]) (some r.kept)

end Ceres.CudaCgnr
