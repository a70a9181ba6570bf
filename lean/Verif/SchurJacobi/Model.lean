import Verif.SchurDirect.Model
import Verif.PartitionedView.Model
import Verif.CG.Model

/-!
# SCHUR_JACOBI, and ITERATIVE_SCHUR with an explicit Schur complement

`block_random_access_diagonal_matrix.cc`, `schur_jacobi_preconditioner.cc`, and the part of
`schur_complement_solver.cc` and `block_random_access_sparse_matrix.cc` that ITERATIVE_SCHUR uses if
`use_explicit_schur_complement` is set.  The Schur complement is computed by the elimination of `Verif.SchurThreads`
into flat arrays, as in `Verif.SchurDirect`; loops over blocks run on any number of threads as in
`Verif.PartitionedView`; conjugate gradients are those of `Verif.CG`.  Rounding is not modelled.
-/

noncomputable section

namespace Ceres.SchurJacobi

open Ceres.Tasks Ceres.BlockSparse Ceres.Direct Ceres.SchurThreads Ceres.SchurDirect
open Ceres.PartitionedView (Does layout diagPos invertTask mulBlocks onY)

/-! ## Block diagonal matrices -/

/-- The blocks and `layout_` of a `BlockRandomAccessDiagonalMatrix` (block_random_access_diagonal_matrix.cc:50-60): one
square cell after the other, as in `CreateBlockDiagonalMatrixLayout` of the partitioned view. -/
def diagonal (blocks : List Block) : BS := layout ⟨blocks, []⟩ 0 blocks.length

/-- `BlockRandomAccessDiagonalMatrix(blocks)` with `GetCell` (block_random_access_diagonal_matrix.cc:50-83) for the
blocks that are not eliminated. -/
def diagonalStorage (bs : BS) (ne : ℕ) : Storage where
  blocks := tail bs.cols ne
  cols := ((tail bs.cols ne).map Block.size).sum
  cell := fun x y =>
    if x = y then some ⟨diagPos (diagonal (tail bs.cols ne)) x, 0, 0, (blockAt (tail bs.cols ne) x).size,
      (blockAt (tail bs.cols ne) x).size⟩
    else none

/-- `Invert` (block_random_access_diagonal_matrix.cc:92-102): the values it leaves.  `llt` stands for
`b.selfadjointView<Upper>().llt().solve(I)`.  The loop is that of `AddDiagonalAndInvert` without `D`. -/
def invert (llt : (n : ℕ) → Matrix (Fin n) (Fin n) ℝ → Matrix (Fin n) (Fin n) ℝ) (threads : ℕ) (blocks : List Block)
    (v : Vec) : Does Vec :=
  onY (ForRun (invertTask llt (diagonal blocks) false) 0 blocks.length threads (PartitionedView.mem 0 v v))

/-- `RightMultiplyAndAccumulate` (block_random_access_diagonal_matrix.cc:104-119): for every block, on any thread,
`y += b x`: what is done for the rows of a `BlockSparseMatrix` with one cell per row block. -/
def rightMultiply (threads : ℕ) (blocks : List Block) (v x y : Vec) : Does Vec :=
  mulBlocks threads (BMat.ofStructure (diagonal blocks) v) x y

/-! ## SCHUR_JACOBI -/

/-- `SchurJacobiPreconditioner::UpdateImpl` (schur_jacobi_preconditioner.cc:88-99): the values of `m_`; `none`: it does
not return.  It returns true whenever it returns.  The eliminator is the general one and gets no right hand side. -/
def Update (llt : (n : ℕ) → Matrix (Fin n) (Fin n) ℝ → Matrix (Fin n) (Fin n) ℝ) (inv : Schur.Inverter) (ne : ℕ)
    (A : BMat ℝ) (D : Option Vec) (threads : ℕ) (o : Option Vec) : Prop :=
  if (diagonalStorage A.bs ne).cols = 0 then o = none
  else ∃ m e, EliminateRun inv ne A.bs.cols.length ((diagonalStorage A.bs ne).has ne)
      (rowsOf A.bs A.values fun _ => 0) (D.map (blocksOf A.bs)) false threads m e ∧
    match e with
    | none => o = none
    | some m' => ∃ v, (diagonalStorage A.bs ne).Holds ne (szOf A.bs) v m' ∧
        invert llt threads (tail A.bs.cols ne) v o

/-! ## The explicit Schur complement -/

/-- `c += A b` for a block `A` with these sizes, stored by rows from `values + pos` (`MatrixVectorMultiply`,
small_blas.h; block_random_access_sparse_matrix.cc:142-147). -/
def addProduct (values : Vec) (pos rows cols xPos yPos : ℕ) (x y : Vec) : Vec := fun p =>
  if yPos ≤ p ∧ p < yPos + rows then
    y p + ∑ j ∈ Finset.range cols, values (pos + (p - yPos) * cols + j) * x (xPos + j)
  else y p

/-- `c += A' b` (`MatrixTransposeVectorMultiply`; block_random_access_sparse_matrix.cc:156-161). -/
def addProductTranspose (values : Vec) (pos rows cols xPos yPos : ℕ) (x y : Vec) : Vec := fun p =>
  if yPos ≤ p ∧ p < yPos + cols then
    y p + ∑ i ∈ Finset.range rows, values (pos + i * cols + (p - yPos)) * x (xPos + i)
  else y p

/-- One cell (block_random_access_sparse_matrix.cc:137-161) of row block `id`. -/
def symmetricCell (blocks : List Block) (values x : Vec) (id : ℕ) (row : Block) (y : Vec) (c : Cell) : Vec :=
  let col := blockAt blocks c.blockId
  let y := addProduct values c.position row.size col.size col.position row.position x y
  if c.blockId = id then y
  else addProductTranspose values c.position row.size col.size row.position col.position x y

/-- `SymmetricRightMultiplyAndAccumulate` (block_random_access_sparse_matrix.cc:125-163). -/
def symmetricMultiply (blocks : List Block) (R : BS) (values x y : Vec) : Vec :=
  (R.rows.zipIdx).foldl (fun y r => r.1.cells.foldl (symmetricCell blocks values x r.2 r.1.block) y) y

/-- `pre_m.block(...) = sc_m.block(...)`: `n * n` numbers, by rows (schur_complement_solver.cc:386-387). -/
def copyBlock (n source target : ℕ) (v pre : Vec) : Vec := fun p =>
  if target ≤ p ∧ p < target + n * n then v (source + (p - target)) else pre p

/-- The block diagonal is copied (schur_complement_solver.cc:370-388); `none`: a `CHECK` fails. -/
def copyDiagonal (S : Storage) (v pre : Vec) : Option Vec :=
  (List.range S.blocks.length).foldlM (fun pre i =>
    (S.cell i i).map fun c => copyBlock (blockAt S.blocks i).size c.values (diagPos (diagonal S.blocks) i) v pre) pre

/-- The first `n` elements. -/
def front (n : ℕ) (x : Vec) : CG.Vec n := fun i => x i

/-- A vector with these first elements, and zeros beyond, which are never read. -/
def extend {n : ℕ} (x : CG.Vec n) : Vec := fun i => if h : i < n then x ⟨i, h⟩ else 0

/-- `SolveReducedLinearSystemUsingConjugateGradients` (schur_complement_solver.cc:340-421): how it terminates and the
reduced solution; `none`: it does not return.  `pre` is what the array of the preconditioner holds from the last
call.  The preconditioner type is SCHUR_JACOBI.  `prec` is what the calls of the preconditioner leave. -/
def Reduced (llt : (n : ℕ) → Matrix (Fin n) (Fin n) ℝ → Matrix (Fin n) (Fin n) ℝ) (o : CG.Options) (threads : ℕ)
    (S : Storage) (R : BS) (v r : Vec) (out : Option (Bool × Vec × CG.Term)) : Prop :=
  if S.cols = 0 then out = some (true, fun _ => 0, .success)
  else ∃ pre, match copyDiagonal S v pre with
    | none => out = none
    | some d => ∃ e, invert llt threads S.blocks d e ∧
      match e with
      | none => out = none
      | some w =>
        (∃ x y, rightMultiply threads S.blocks w x y none ∧ out = none) ∨
        ∃ prec : CG.Op S.cols,
          (∀ x y, ∃ z, rightMultiply threads S.blocks w (extend x) (extend y) (some z) ∧ prec x y = front S.cols z) ∧
          let s := CG.solver o (fun x y => front S.cols (symmetricMultiply S.blocks R v (extend x) (extend y))) prec
            (front S.cols r) 0
          out = some (decide (s.termination = .success), extend s.x, s.termination)

/-- A call of ITERATIVE_SCHUR with `use_explicit_schur_complement` (`SchurComplementSolver::SolveImpl`): success, `x` and
the termination type. -/
def ExplicitSolve (llt : (n : ℕ) → Matrix (Fin n) (Fin n) ℝ → Matrix (Fin n) (Fin n) ℝ) (o : CG.Options)
    (inv : Schur.Inverter) (ne : ℕ) (call : Call) (threads : ℕ) (out : Option (Bool × Vec × CG.Term)) : Prop :=
  ∃ reduced : Vec → Vec → Option (Bool × Vec × CG.Term),
    (∀ v r, Reduced llt o threads (sparseStorage call.A.bs ne) (reducedStructure call.A.bs ne) v r (reduced v r)) ∧
      Solve inv ne (sparseStorage call.A.bs ne) reduced call threads out

end Ceres.SchurJacobi
