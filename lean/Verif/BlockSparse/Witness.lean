import Verif.BlockSparse.Crs

/-!
# C78: a matrix with E and F cells apart, and where the operations go wrong
-/
namespace Ceres.BlockSparse

/-- Row blocks of 1, 2 and 1 rows, column blocks of 2 and 1 columns; the cells of the first column block are
stored before the cells of the second one, as for the Schur complement solvers. -/
def apart : BS where
  cols := [⟨2, 0⟩, ⟨1, 2⟩]
  rows := [⟨⟨1, 0⟩, [⟨0, 0⟩, ⟨1, 6⟩], 0, 0⟩, ⟨⟨2, 1⟩, [⟨0, 2⟩, ⟨1, 7⟩], 0, 0⟩, ⟨⟨1, 3⟩, [⟨1, 9⟩], 0, 0⟩]

/-- With the values `1, 2, 3, ...`. -/
def mixed : BMat ℤ := BMat.ofStructure apart fun i => i + 1

theorem mixed_ok : mixed.Ok :=
  ofStructure_ok ⟨rfl, rfl, trivial⟩ ⟨rfl, rfl, rfl, trivial⟩ (by decide) (by decide)

theorem mixed_simple : mixed.bs.Simple := by unfold BS.Simple; decide

/-- The matrix. -/
theorem mixed_entries : (List.range 4).map (fun r => (List.range 3).map fun c => mixed.entry r c) =
    [[1, 2, 7], [3, 4, 8], [5, 6, 9], [0, 0, 10]] := by decide

/-- On three threads, `y += A x` has one outcome. -/
example (x y : ℕ → ℤ) (o : Option (Mem ℤ)) : RightRun mixed 3 (memOf mixed x y) o ↔
    o = some (memOf mixed x fun r => y r + ∑ c ∈ Finset.range mixed.numCols, mixed.entry r c * x c) :=
  right_product mixed_ok (by omega) x y o

/-- And the other way. -/
example (x y : ℕ → ℤ) (o : Option (Mem ℤ)) : LeftRun mixed 3 (memOf mixed x y) o ↔
    o = some (memOf mixed x fun c => y c + ∑ r ∈ Finset.range mixed.numRows, mixed.entry r c * x r) :=
  left_product mixed_ok (by omega) x y o

/-- Squared column norms and scaling, on three threads. -/
example (x y : ℕ → ℤ) (o : Option (Mem ℤ)) : NormRun mixed 3 (memOf mixed x y) o ↔ o = some (memOf mixed x
    fun c => if c < mixed.numCols then ∑ r ∈ Finset.range mixed.numRows, mixed.entry r c ^ 2 else y c) :=
  squared_column_norm mixed_ok mixed_simple (by omega) x y o

/-- A diagonal for its columns. -/
def damping : BMat ℤ := diagonalMatrix (fun i => 100 + i) mixed.bs.cols

theorem damping_ok : damping.Ok ∧ damping.bs.Sequential damping.nnz ∧ damping.bs.cols = mixed.bs.cols :=
  diagonal_ok mixed_ok.bs.cols _

/-- Appending the diagonal and taking it away again. -/
example : ∃ R, mixed.appendRows damping = some R ∧ R.Ok ∧
    (∀ r c, R.entry r c = if r < 4 then mixed.entry r c else damping.entry (r - 4) c) ∧
    R.entry 5 1 = 101 ∧ (R.deleteRowBlocks damping.bs.rows.length).bs = mixed.bs := by
  obtain ⟨h1, h2, h3⟩ := damping_ok
  refine ⟨_, appendRows_eq mixed_ok h1 h3, append_ok mixed_ok h1 h3 (appendRows_eq mixed_ok h1 h3),
    append_entry mixed_ok h1 h3 h2 (appendRows_eq mixed_ok h1 h3), ?_,
    (append_delete mixed_ok h1 h3 (appendRows_eq mixed_ok h1 h3)).1⟩
  rw [append_entry mixed_ok h1 h3 h2 (appendRows_eq mixed_ok h1 h3)]
  decide

/-- The conversions. -/
example (old : ℕ → ℤ) : (mixed.toCrs old).entry 2 0 = 5 :=
  ((toCrs_eq mixed_ok old).2.2.2.2 2 (by decide) 0).trans (by decide)

example (old : ℕ → ℤ) : ∃ A, mixed.toCrsTranspose old = some A ∧ A.entry 0 2 = 5 := by
  obtain ⟨A, h, -, -, -, -, he⟩ := toCrsTranspose_eq mixed_ok (by decide) old
  exact ⟨A, h, (he 0 (by decide) 2).trans (by decide)⟩

/-- **The rows that are appended must be stored in order**: otherwise `AppendRows` copies the values to the
wrong cells.  Appending a matrix with E and F cells apart to itself does not repeat it. -/
theorem append_apart_wrong : ∃ R, mixed.appendRows mixed = some R ∧ mixed.Ok ∧ R.Ok ∧
    R.entry (4 + 0) 2 ≠ mixed.entry 0 2 := by
  refine ⟨_, appendRows_eq mixed_ok mixed_ok rfl, mixed_ok, append_ok mixed_ok mixed_ok rfl
    (appendRows_eq mixed_ok mixed_ok rfl), ?_⟩
  decide

/-- **Deleting rows that are not last in the values breaks later appends**: the first values are not those of
the rows that are left, and what is appended overwrites them.  Here the last two row blocks are deleted, a
diagonal is appended, and the first row has changed. -/
theorem delete_append_wrong : ∃ R, (mixed.deleteRowBlocks 2).appendRows damping = some R ∧
    (mixed.deleteRowBlocks 2).entry 0 2 = mixed.entry 0 2 ∧ R.entry 0 2 ≠ mixed.entry 0 2 := by
  refine ⟨_, rfl, by decide, ?_⟩
  decide

/-- **A cell in a column block of size zero**: the transposed conversion divides by zero.  (A matrix in order
otherwise.) -/
def thin : BMat ℤ := BMat.ofStructure ⟨[⟨0, 0⟩, ⟨1, 0⟩], [⟨⟨1, 0⟩, [⟨0, 0⟩, ⟨1, 0⟩], 0, 0⟩]⟩ fun _ => 5

theorem thin_divides_by_zero : thin.Ok ∧ thin.entry 0 0 = 5 ∧ ∀ old, thin.toCrsTranspose old = none := by
  refine ⟨ofStructure_ok ⟨rfl, rfl, trivial⟩ ⟨rfl, trivial⟩ (by decide) (by decide), by decide, fun old => ?_⟩
  exact if_pos ⟨⟨⟨0, 0⟩, [⟨0, 0⟩], 0, 0⟩, by decide, by decide, rfl⟩

end Ceres.BlockSparse
