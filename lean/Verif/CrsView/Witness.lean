import Verif.CrsView.Empty

/-!
# C94: a matrix, and two the view gets wrong
-/
namespace Ceres.CrsView

open Ceres.BlockSparse

/-- Row blocks of 2, 1 and 3 rows, column blocks of 2 and 1 columns, the cells in order. -/
def steps : BS where
  cols := [⟨2, 0⟩, ⟨1, 2⟩]
  rows := [⟨⟨2, 0⟩, [⟨0, 0⟩, ⟨1, 4⟩], 0, 0⟩, ⟨⟨1, 2⟩, [⟨1, 6⟩], 0, 0⟩, ⟨⟨3, 3⟩, [⟨0, 7⟩, ⟨1, 13⟩], 0, 0⟩]

/-- With the values `1, 2, 3, ...`. -/
def first : BMat ℤ := BMat.ofStructure steps fun i => i + 1

/-- With the values `0, 1, 4, ...`. -/
def second : BMat ℤ := BMat.ofStructure steps fun i => i * i

theorem first_ok : first.Ok :=
  ofStructure_ok ⟨rfl, rfl, trivial⟩ ⟨rfl, rfl, rfl, trivial⟩ (by decide) (by decide)

theorem second_ok : second.Ok :=
  ofStructure_ok ⟨rfl, rfl, trivial⟩ ⟨rfl, rfl, rfl, trivial⟩ (by decide) (by decide)

theorem steps_full : Full steps := by unfold Full; decide

theorem steps_inOrder : InOrder steps := by
  unfold InOrder
  simp [RowsFollow, CellsFollow, steps, BS.col]

/-- The values are not in the order of compressed rows. -/
example : (flatOf steps).compatible = false := by decide

/-- The matrix. -/
theorem second_entries : (List.range 6).map (fun r => (List.range 3).map fun c => second.entry r c) =
    [[0, 1, 16], [4, 9, 25], [0, 0, 36], [49, 64, 169], [81, 100, 196], [121, 144, 225]] := by decide

/-- A view made for the first matrix and updated with the second one holds the second one. -/
example : ∃ v : View ℤ, After [first, second] (some v) ∧ v.mat.WF ∧ v.mat.entry 4 1 = 100 := by
  have hall : ∀ N ∈ [first, second], N.Ok ∧ N.bs = steps := by
    intro N hN
    simp at hN
    rcases hN with rfl | rfl
    · exact ⟨first_ok, rfl⟩
    · exact ⟨second_ok, rfl⟩
  obtain ⟨o, ho⟩ := view_exists (M := first) (l := [second]) hall steps_full steps_inOrder
  obtain ⟨v, rfl, h1, -, -, -, h2⟩ := view_is_matrix (l := [first]) (M := second) ho hall steps_full steps_inOrder
  exact ⟨v, ho, h1, (h2 4 (by decide) 1).trans (by decide)⟩

/-- A matrix whose E and F cells are stored apart is refused. -/
example {o : Option (View ℤ)} (h : BuildRun (BMat.ofStructure
    ⟨[⟨2, 0⟩, ⟨1, 2⟩], [⟨⟨1, 0⟩, [⟨0, 0⟩, ⟨1, 4⟩], 0, 0⟩, ⟨⟨1, 1⟩, [⟨0, 2⟩, ⟨1, 5⟩], 0, 0⟩]⟩ fun _ => 1) o) :
    o = none :=
  view_refuses (by unfold Full; decide) (by simp [InOrder, RowsFollow, CellsFollow, BMat.ofStructure, BS.col]) h

/-- The last row block has no cells. -/
def tail : BMat ℤ :=
  BMat.ofStructure ⟨[⟨1, 0⟩, ⟨1, 1⟩], [⟨⟨2, 0⟩, [⟨0, 0⟩, ⟨1, 2⟩], 0, 0⟩, ⟨⟨1, 2⟩, [], 0, 0⟩]⟩ fun i => i + 1

/-- Its structure, as the code copies it to the device. -/
def tailFlat : Flat :=
  ⟨2, [0, 2, 2], [⟨0, 0⟩, ⟨1, 2⟩], [⟨2, 0⟩, ⟨1, 2⟩], [⟨1, 0⟩, ⟨1, 1⟩], false⟩

/-- **With a last row block without cells the permutation of the values reads past the cells**: the
constructor accepts the matrix, whose cells are in order, and its kernel reads out of range. -/
theorem trailing_empty_undefined : tail.Ok ∧ InOrder tail.bs ∧ flatten tail.bs = some tailFlat ∧
    BuildRun tail none := by
  have hf : flatten tail.bs = some tailFlat := by decide +kernel
  refine ⟨ofStructure_ok ⟨rfl, rfl, trivial⟩ ⟨rfl, rfl, trivial⟩ (by decide) (by decide), ?_, hf, ?_⟩
  · simp [InOrder, RowsFollow, CellsFollow, tail, BMat.ofStructure, BS.col]
  obtain ⟨a, ha⟩ := kernel_exists tailFlat.nnzStores 0
  obtain ⟨b, hb⟩ := kernel_exists tailFlat.idStores 0
  obtain ⟨d, hd⟩ := kernel_exists (tailFlat.columnStores tail.numRows b (inclusiveScan tail.numRows a)) 0
  let v : View ℤ := ⟨tailFlat, tail.numRows, tail.numCols, inclusiveScan tail.numRows a, d, 0⟩
  have hp : (v.call tail false).dest 3 = none := by
    show tailFlat.permute _ 3 = none
    have h1 : tailFlat.before 3 0 = some true := by decide
    have h2 : tailFlat.before 3 1 = none := by decide
    have h3 : partitionPoint (tailFlat.before 3) 0 2 = none := by
      unfold partitionPoint
      rw [h1]
      show bisect _ 0 2 = none
      rw [bisect, if_pos (by decide)]
      have h2' : tailFlat.before 3 (0 + (2 - 0) / 2) = none := h2
      rw [h2']
    show (partitionPoint (tailFlat.before 3) 0 2).bind _ = none
    rw [h3]
    rfl
  obtain ⟨s, h1, h2⟩ := copy_undefined (c := v.call tail false) rfl (id := 3) (by show 3 < tail.nnz; decide)
    (by show 3 < maxTemporaryArraySize / numBatches; decide) hp 0 0 v.values
  exact .built hf ha hb hd (.undefined rfl h1 h2)

/-- The second of three row blocks has no cells. -/
def middle : BMat ℤ :=
  BMat.ofStructure ⟨[⟨1, 0⟩], [⟨⟨1, 0⟩, [⟨0, 0⟩], 0, 0⟩, ⟨⟨1, 1⟩, [], 0, 0⟩, ⟨⟨1, 2⟩, [⟨0, 1⟩], 0, 0⟩]⟩ fun i => i

/-- **Its cells are in order, and the constructor is undefined.** -/
theorem middle_empty_undefined : middle.Ok ∧ InOrder middle.bs ∧ ∀ o, BuildRun middle o → o = none :=
  ⟨ofStructure_ok ⟨rfl, trivial⟩ ⟨rfl, rfl, rfl, trivial⟩ (by decide) (by decide),
    by simp [InOrder, RowsFollow, CellsFollow, middle, BMat.ofStructure, BS.col],
    fun _ h => gap_no_view (a := [⟨⟨1, 0⟩, [⟨0, 0⟩], 0, 0⟩]) (b := []) rfl rfl (by decide) h⟩

end Ceres.CrsView
