import Verif.PartitionedView.Model
import Verif.BlockSparse.Spec
import Mathlib.Algebra.BigOperators.Group.Finset.Basic

/-!
# What a partitioned view is for
-/
namespace Ceres.PartitionedView

open Ceres.BlockSparse

variable {K : Type}

/-- The row block has an e-block: its first cell is in one of the first `ne` column blocks. -/
def HasE (ne : ℕ) (r : BRow) : Prop := ∃ c, r.cells.head? = some c ∧ c.blockId < ne

/-- The structure is ordered for elimination of the first `ne` column blocks: every row block has a cell, at
most its first cell is in one of them, and the row blocks that have such a cell come first. -/
structure Ordered (bs : BS) (ne : ℕ) : Prop where
  le : ne ≤ bs.cols.length
  cells : ∀ r ∈ bs.rows, r.cells ≠ []
  one : ∀ r ∈ bs.rows, ∀ c ∈ r.cells.drop 1, ne ≤ c.blockId
  first : bs.rows.Pairwise fun r r' => HasE ne r' → HasE ne r

/-- The number of columns of the first `ne` column blocks. -/
def colsE (bs : BS) (ne : ℕ) : ℕ := ((bs.cols.take ne).map Block.size).sum

/-- The number of the other columns. -/
def colsF (bs : BS) (ne : ℕ) : ℕ := ((bs.cols.drop ne).map Block.size).sum

section
variable [AddMonoid K]

/-- The entries of `E`: the first columns. -/
def entryE (M : BMat K) (r c : ℕ) : K := M.entry r c

/-- The entries of `F`: the columns from `colsE` on. -/
def entryF (M : BMat K) (ne r c : ℕ) : K := M.entry r (colsE M.bs ne + c)

end

/-- Columns `i` and `j`, counted from the first column of block `first`, are in the same column block of the
blocks `first, ..., last - 1`. -/
def SameBlock (bs : BS) (first last i j : ℕ) : Prop :=
  ∃ b, first ≤ b ∧ b < last ∧ ∃ blk, bs.cols[b]? = some blk ∧
    blk.position ≤ colsE bs first + i ∧ colsE bs first + i < blk.position + blk.size ∧
    blk.position ≤ colsE bs first + j ∧ colsE bs first + j < blk.position + blk.size

open Classical in
/-- The values `v` are those of the block diagonal of `AᵀA`, for `A` the columns of the blocks
`first, ..., last - 1`: products of columns of the same block, and nothing else. -/
def IsGram [CommRing K] (M : BMat K) (first last : ℕ) (v : ℕ → K) : Prop := ∀ i j,
  (BMat.ofStructure (layout M.bs first last) v).entry i j =
    if SameBlock M.bs first last i j then
      ∑ r ∈ Finset.range M.numRows, M.entry r (colsE M.bs first + i) * M.entry r (colsE M.bs first + j)
    else 0

end Ceres.PartitionedView
