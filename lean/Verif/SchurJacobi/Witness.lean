import Verif.SchurJacobi.Props
import Verif.PartitionedView.ImplicitWitness
import Verif.Visibility.Witness

/-!
# C88: a case
-/

noncomputable section

namespace Ceres.SchurJacobi

open Ceres.BlockSparse Ceres.InnerProduct Ceres.Direct Ceres.SchurDirect Ceres.SchurMatrix
open Ceres.Visibility (asCall)

/-- A diagonal without zeros makes the problem regular. -/
theorem regular_diagonal {m n : ℕ} {A : Buf} {d : Vec} (hd : ∀ j < n, d j ≠ 0) : Regular m n A (some d) :=
  fun _ _ hy j hj => (mul_eq_zero.1 (hy j hj)).resolve_left (hd j hj)

/-- Two points, three cameras, any values, three threads: an update returns, and what the preconditioner adds is the
solution of the block diagonal system. -/
example (v d : Vec) (hd : ∀ j < 6, d j ≠ 0) :
    ∃ S, IsSchur 4 2 4 (BMat.ofStructure Visibility.row v).entry (some d) S ∧
      PosDef 4 (diagonalBlocks Visibility.row 2 S) ∧
      ∃ w, Update PartitionedView.goodLlt Schur.exactInv 2 (BMat.ofStructure Visibility.row v) (some d) 3 (some w) ∧
        ∀ x y, ∃ z, (∀ o, rightMultiply 3 (tail Visibility.row.cols 2) w x y o ↔ o = some z) ∧
          Eqs 4 (diagonalBlocks Visibility.row 2 S) (fun p => z p - y p) x := by
  have hf := Visibility.row_fits v d hd
  obtain ⟨S, hS⟩ := isSchur_exists hf
  obtain ⟨h1, ⟨o, ho⟩, h2⟩ := schur_jacobi PartitionedView.goodLlt_ok Schur.exactInv_fullRank (by decide : 0 < 3)
    (by decide : 2 < Visibility.row.cols.length) hf (regular_diagonal hd) hS
  obtain ⟨w, rfl, hw⟩ := h2 o ho
  refine ⟨S, hS, h1, w, ho, fun x y => ?_⟩
  obtain ⟨z, k1, k2, -⟩ := hw x y
  exact ⟨z, k1, k2⟩

end Ceres.SchurJacobi
