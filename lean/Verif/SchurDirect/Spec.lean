import Verif.SchurDirect.Model
import Verif.Direct.Spec
import Verif.BlockSparse.Spec
import Verif.InnerProduct.Algebra

/-!
# What DENSE_SCHUR and SPARSE_SCHUR are asked for

The least squares problem is the one of `Verif.Direct.Spec`, on flat arrays.
-/

namespace Ceres.SchurDirect

open Ceres.BlockSparse Ceres.InnerProduct Ceres.Direct

/-- A Jacobian in the order the Schur solvers need: the first `ne` column blocks are to be eliminated. -/
structure SchurOrdered (ne : ℕ) (bs : BS) : Prop where
  /-- The cells of a row block are in the order of their columns. -/
  sorted : CellsSorted bs
  /-- No row block is empty. -/
  nonempty : ∀ r ∈ bs.rows, r.cells ≠ []
  /-- No row block depends on two e blocks. -/
  independent : ∀ r ∈ bs.rows, ∀ c ∈ r.cells, ∀ d ∈ r.cells, c.blockId < ne → d.blockId < ne →
    c.blockId = d.blockId
  /-- Row blocks with e blocks come first. -/
  eFirst : bs.rows.Pairwise fun r s => (∃ c ∈ s.cells, c.blockId < ne) → ∃ c ∈ r.cells, c.blockId < ne
  /-- The row blocks of an e block are contiguous. -/
  grouped : ∀ r s t, [r, s, t].Sublist bs.rows → ∀ e < ne, (∃ c ∈ r.cells, c.blockId = e) →
    (∃ c ∈ t.cells, c.blockId = e) → ∃ c ∈ s.cells, c.blockId = e

/-- The columns of the e blocks that occur are linearly independent in `[A; D]`.  With a diagonal without zeros they
always are. -/
def RegularE (ne : ℕ) (A : BMat ℝ) (D : Option Vec) : Prop :=
  ∀ x : Vec, (∀ b, ne ≤ b → ∀ i < (A.bs.col b).size, x ((A.bs.col b).position + i) = 0) →
    (∀ k < A.numRows, ∑ j ∈ Finset.range A.numCols, A.entry k j * x j = 0) → Annihilates D A.numCols x →
    ∀ r ∈ A.bs.rows, ∀ c ∈ r.cells, c.blockId < ne →
      ∀ i < (A.bs.col c.blockId).size, x ((A.bs.col c.blockId).position + i) = 0

/-- What is asked of the calls: they have the block structure `bs`, ordered for the elimination of the first `ne`
column blocks; blocks are not empty and the first row block has an e block. -/
structure Fits (ne : ℕ) (bs : BS) (call : Call) : Prop where
  ok : call.A.Ok
  structure_ : call.A.bs = bs
  ordered : SchurOrdered ne bs
  blocks : ne ≤ bs.cols.length
  cols : ∀ b ∈ bs.cols, 0 < b.size
  rows : ∀ r ∈ bs.rows, 0 < r.block.size
  first : ∃ r ∈ bs.rows.head?, ∃ c ∈ r.cells, c.blockId < ne
  regular : RegularE ne call.A call.D

/-- What a call returns: success means that `x` minimises, and there is success if the minimiser is unique. -/
structure Good (call : Call) (success : Bool) (x : Vec) : Prop where
  solves : success = true → Minimises call.A.numRows call.A.numCols call.A.entry call.b call.D x
  unique : Regular call.A.numRows call.A.numCols call.A.entry call.D → success = true

end Ceres.SchurDirect
