import Verif.CudaCgnr.Model
import Verif.Cgnr.Spec

/-!
# Specification of CGNR with CUDA (C93)
-/

noncomputable section

namespace Ceres.CudaCgnr

open Ceres.BlockSparse Ceres.Direct Ceres.InnerProduct

/-- Block `id`. -/
def blk (cols : List Block) (id : ℕ) : Block := cols.getD id ⟨0, 0⟩

/-- The columns of these column blocks. -/
def columnsOf (cols : List Block) (ids : List ℕ) : List ℕ :=
  ids.flatMap fun id => List.range' (blk cols id).position (blk cols id).size

/-- A Jacobian with column blocks `cols` and, for every row block, the column blocks that its rows store: every row of
the row block stores all columns of these, in order. -/
structure IsJacobian (cols : List Block) (S : List (Block × List ℕ)) (A : Crs) : Prop where
  wf : A.mat.WF
  storage : A.mat.storage = .unsymmetric
  colBlocks : A.colBlocks = cols
  rowBlocks : A.rowBlocks = S.map Prod.fst
  colsLaid : Laid 0 cols
  rowsLaid : Laid 0 (S.map Prod.fst)
  colsPos : ∀ b ∈ cols, 0 < b.size
  rowsPos : ∀ s ∈ S, 0 < s.1.size
  numCols : A.mat.numCols = (cols.map Block.size).sum
  numRows : A.mat.numRows = ((S.map Prod.fst).map Block.size).sum
  ids : ∀ s ∈ S, ∀ id ∈ s.2, id < cols.length
  nodup : ∀ s ∈ S, s.2.Nodup
  columns : ∀ s ∈ S, ∀ k < s.1.size, (A.mat.row (s.1.position + k)).map Prod.fst = columnsOf cols s.2

/-- The matrix the preconditioner stands for: the identity, or the blocks on the diagonal of `A'A + D'D`. -/
def standsFor (p : Prec) (A : Crs) (D : Vec) : Buf := fun i j =>
  match p with
  | .identity => if i = j then 1 else 0
  | .jacobi => if blockOf A.colBlocks i = blockOf A.colBlocks j then
      ∑ k ∈ Finset.range A.mat.numRows, A.mat.entry k i * A.mat.entry k j + (if i = j then D i ^ 2 else 0) else 0

/-- What the calls of a history have in common: the arrays of the structure; and there is a diagonal. -/
structure Fits (rows : ℕ → ℕ) (colIdx : ℕ → ℕ) (cols : List Block) (S : List (Block × List ℕ)) (call : Call) : Prop where
  jacobian : IsJacobian cols S call.A
  rows : ∀ r ≤ call.A.mat.numRows, call.A.mat.rows r = rows r
  cols : ∀ i < call.A.mat.nnz, call.A.mat.cols i = colIdx i
  diagonal : call.D.isSome

/-- What a call returns. -/
structure Good (llt : (n : ℕ) → Matrix (Fin n) (Fin n) ℝ → Matrix (Fin n) (Fin n) ℝ) (o : CG.Options) (p : Prec)
    (call : Call) (r : Result) : Prop where
  /-- The step is not worse than none, whatever the preconditioner does. -/
  descends : lsq call.A.mat.numRows call.A.mat.numCols call.A.mat.entry call.b call.D r.x ≤
    lsq call.A.mat.numRows call.A.mat.numCols call.A.mat.entry call.b call.D 0
  /-- A step that is not zero is better than none. -/
  strict : (∃ j < call.A.mat.numCols, r.x j ≠ 0) →
    lsq call.A.mat.numRows call.A.mat.numCols call.A.mat.entry call.b call.D r.x <
      lsq call.A.mat.numRows call.A.mat.numCols call.A.mat.entry call.b call.D 0
  /-- Run to the end it minimises. -/
  solves : PartitionedView.LltOk llt → Regular call.A.mat.numRows call.A.mat.numCols call.A.mat.entry call.D →
    SchurJacobi.Exact o call.A.mat.numCols →
    r.termination = .success ∧ Minimises call.A.mat.numRows call.A.mat.numCols call.A.mat.entry call.b call.D r.x
  /-- What the preconditioner adds is the solution of the system of the matrix it stands for. -/
  preconditions : PartitionedView.LltOk llt →
    Regular call.A.mat.numRows call.A.mat.numCols call.A.mat.entry call.D → ∀ x y,
    Eqs call.A.mat.numCols (standsFor p call.A (call.D.getD 0)) (fun i => apply r.kept x y i - y i) x

end Ceres.CudaCgnr
