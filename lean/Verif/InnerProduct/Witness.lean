import Verif.InnerProduct.Product
import Verif.BlockSparse.Witness

/-!
# C79: a concrete product, and why the order of the cells matters
-/
namespace Ceres.InnerProduct

open Ceres.BlockSparse

theorem mixed_sorted : CellsSorted mixed.bs := by unfold CellsSorted; decide

/-- The upper triangle of `A' * A` for the matrix of C78, after an earlier product with other values. -/
example (oc : ℕ → ℕ) (ov : ℕ → ℤ) : ∃ C C' C'', create mixed 0 3 true oc ov = some C ∧
    [{ mixed with values := fun _ => 7 }].foldlM Computer.compute C = some C' ∧ C'.compute mixed = some C'' ∧
    C''.result.entry 0 1 = 1 * 2 + 3 * 4 + 5 * 6 ∧ C''.result.entry 2 0 = 0 ∧
    C''.result.entry 2 2 = 7 * 7 + 8 * 8 + 9 * 9 + 10 * 10 := by
  obtain ⟨C, C', C'', h1, h2, h3, h4, -⟩ := inner_product mixed_ok mixed_sorted (by decide) (Nat.zero_le 3) le_rfl true
    oc ov [{ mixed with values := fun _ => 7 }] (by simp) mixed rfl rfl
  refine ⟨C, C', C'', h1, h2, h3, ?_, ?_, ?_⟩
  · rw [h4.entry 0 (by decide) 1 (by decide)]; decide
  · rw [h4.entry 2 (by decide) 0 (by decide)]; decide
  · rw [h4.entry 2 (by decide) 2 (by decide)]; decide

/-- The lower triangle for the last two row blocks. -/
example (oc : ℕ → ℕ) (ov : ℕ → ℤ) : ∃ C C' C'', create mixed 1 3 false oc ov = some C ∧
    [].foldlM Computer.compute C = some C' ∧ C'.compute mixed = some C'' ∧
    C''.result.entry 2 0 = 8 * 3 + 9 * 5 ∧ C''.result.entry 0 2 = 0 := by
  obtain ⟨C, C', C'', h1, h2, h3, h4, -⟩ := inner_product mixed_ok mixed_sorted (by decide) (s := 1) (e := 3) (by decide)
    le_rfl false oc ov [] (by simp) mixed rfl rfl
  refine ⟨C, C', C'', h1, h2, h3, ?_, ?_⟩
  · rw [h4.entry 2 (by decide) 0 (by decide)]; decide
  · rw [h4.entry 0 (by decide) 2 (by decide)]; decide

/-- One row with its two cells the wrong way round. -/
def swapped : BMat ℤ := BMat.ofStructure ⟨[⟨1, 0⟩, ⟨1, 1⟩], [⟨⟨1, 0⟩, [⟨1, 0⟩, ⟨0, 1⟩], 0, 0⟩]⟩ fun _ => 1

/-- **The cells must be in order**: otherwise the "upper triangle" has its off-diagonal element below the
diagonal.  (The writer of the Jacobian sorts the cells, block_jacobian_writer.cc:258.) -/
theorem swapped_wrong : swapped.Ok ∧ ¬ CellsSorted swapped.bs ∧
    ∃ C C', create swapped 0 1 true (fun _ => 0) (fun _ => 0) = some C ∧ C.compute swapped = some C' ∧
      C'.result.entry 0 1 = 0 ∧ C'.result.entry 1 0 = 1 := by
  refine ⟨ofStructure_ok ⟨rfl, rfl, trivial⟩ ⟨rfl, trivial⟩ (by decide) (by decide),
    by unfold CellsSorted; decide, ?_⟩
  have h0 : terms true (rowRange swapped.bs.rows 0 1) = [⟨1, 1, 0⟩, ⟨1, 0, 1⟩, ⟨0, 0, 2⟩] := by decide
  have ht : (terms true (rowRange swapped.bs.rows 0 1)).mergeSort Term.le = [⟨0, 0, 2⟩, ⟨1, 0, 1⟩, ⟨1, 1, 0⟩] := by
    rw [h0]
    simp [List.mergeSort, Term.le]
  have hc : create swapped 0 1 true (fun _ => 0) (fun _ => 0) = _ := if_pos (by decide)
  rw [ht] at hc
  refine ⟨_, _, hc, rfl, by decide +kernel, by decide +kernel⟩

end Ceres.InnerProduct
