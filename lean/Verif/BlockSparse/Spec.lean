import Verif.BlockSparse.Model
import Verif.Sparse.Spec

/-!
# What a block sparse matrix stands for
-/
namespace Ceres.BlockSparse

variable {K : Type}

/-- The entry `(r, c)` of the matrix that is zero but for one cell: the rows of `row` and the columns of `col`,
stored row by row from `pos`. -/
def cellAt [Zero K] (row col : Block) (pos : ℕ) (v : ℕ → K) (r c : ℕ) : K :=
  if row.position ≤ r ∧ r < row.position + row.size ∧ col.position ≤ c ∧ c < col.position + col.size then
    v (pos + (r - row.position) * col.size + (c - col.position))
  else 0

/-- The entry of a block structure with values `v`: the sum of the cells. -/
def BS.entry [AddMonoid K] (bs : BS) (v : ℕ → K) (r c : ℕ) : K :=
  (bs.rows.map fun row => (row.cells.map fun cell =>
    cellAt row.block (bs.col cell.blockId) cell.position v r c).sum).sum

/-- The entry of a block sparse matrix. -/
def BMat.entry [AddMonoid K] (M : BMat K) (r c : ℕ) : K := M.bs.entry M.values r c

/-- Blocks follow each other from position `p` without gaps. -/
def Laid : ℕ → List Block → Prop
  | _, [] => True
  | p, b :: bs => b.position = p ∧ Laid (p + b.size) bs

/-- The positions of the values of the cells, in order. -/
def BS.slots (bs : BS) : List ℕ :=
  bs.rows.flatMap fun row => row.cells.flatMap fun cell =>
    List.range' cell.position (row.block.size * (bs.col cell.blockId).size)

/-- The cells are stored one after the other, in order (as opposed to E and F cells apart). -/
def BS.Sequential (bs : BS) (nnz : ℕ) : Prop := bs.slots = List.range nnz

/-- A block structure: row and column blocks are laid out from zero, cells are in existing columns and every
position below `nnz` belongs to one cell, once. -/
structure BS.Ok (bs : BS) (nnz : ℕ) : Prop where
  cols : Laid 0 bs.cols
  rows : Laid 0 (bs.rows.map BRow.block)
  ids : ∀ row ∈ bs.rows, ∀ cell ∈ row.cells, cell.blockId < bs.cols.length
  slots : bs.slots.Perm (List.range nnz)

/-- At most one cell per row block and column block. -/
def BS.Simple (bs : BS) : Prop := ∀ row ∈ bs.rows, (row.cells.map Cell.blockId).Nodup

/-- A block sparse matrix as the constructor leaves it. -/
structure BMat.Ok (M : BMat K) : Prop where
  bs : M.bs.Ok M.nnz
  tbs : M.tbs = createTranspose M.bs
  numRows : M.numRows = (M.bs.rows.map fun r => r.block.size).sum
  numCols : M.numCols = (M.bs.cols.map Block.size).sum
  capacity : M.nnz ≤ M.maxNnz

end Ceres.BlockSparse
