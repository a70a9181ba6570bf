import Verif.PartitionedView.Spec
import Verif.SchurMatrix.Spec

/-!
# What SCHUR_JACOBI is asked for
-/

noncomputable section

namespace Ceres.SchurJacobi

open Ceres.BlockSparse Ceres.Direct

open Classical in
/-- The diagonal blocks of a matrix `S` whose columns are those of the column blocks from `ne` on, and zeros. -/
def diagonalBlocks (bs : BS) (ne : ℕ) (S : Buf) : Buf :=
  fun p q => if PartitionedView.SameBlock bs ne bs.cols.length p q then S p q else 0

end Ceres.SchurJacobi
