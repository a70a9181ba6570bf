import Verif.Sparse.Dynamic

/-!
# Agreement of the two formats; concrete matrices meeting the hypotheses
-/
namespace Ceres.Sparse

variable {K : Type}

/-- **C33.** Products with the converted matrix are those with the triplets. -/
theorem fromTriplet_products [CommSemiring K] {T : Triplet K} (hT : T.WF) {index : List ℕ}
    (hi : Sorted T.rows T.cols T.num index) {M : Mat K}
    (hM : fromTriplet T false index = some M) (x y : ℕ → K) :
    (∀ k < T.numRows, M.rightMul x y k = T.rightMul x y k) ∧
    ∀ k < T.numCols, M.leftMul x y k = T.leftMul x y k := by
  obtain ⟨M', hM', hwf, hst, hnr, hnc, _, _, _⟩ := fromTriplet_spec hT false (by simpa using hi)
  rw [hM] at hM'
  have hMM := Option.some.inj hM'
  subst hMM
  simp only [Bool.false_eq_true, if_false] at hnr hnc
  have hent : ∀ r < M.numRows, ∀ c, M.entry r c = T.entry r c := by
    intro r hr c
    have := fromTriplet_entry hT false (by simpa using hi) hM (c := c) hr
    simpa using this
  constructor
  · intro k hk
    rw [rightMul_unsymmetric hwf hst, if_pos (by omega), Triplet.rightMul_spec hT x y hk, hnc]
    congr 1
    exact Finset.sum_congr rfl fun c _ => by rw [hent k (by omega)]
  · intro k hk
    rw [leftMul_unsymmetric hwf hst x y (by omega), Triplet.leftMul_spec hT x y hk, hnr]
    congr 1
    exact Finset.sum_congr rfl fun r hr => by rw [hent r (by have := Finset.mem_range.mp hr; omega)]

/-- `[[1, 2], [0, 3]]` with an entry below the diagonal that is stored but ignored. -/
def exUpperSym : Mat ℤ :=
  ⟨2, 2, fun r => [0, 2, 4].getD r 4, fun i => [0, 1, 0, 1].getD i 0,
    fun i => [1, 2, 9, 3].getD i 0, .upper, []⟩

example : exUpperSym.WF ∧ exUpperSym.RowsSorted ∧ exUpperSym.NoDup ∧
    exUpperSym.numCols = exUpperSym.numRows ∧ exUpperSym.storage ≠ .unsymmetric := by
  refine ⟨⟨?_, ?_, ?_⟩, ?_, ?_, ?_, ?_⟩
  · decide +kernel
  · decide +kernel
  · decide +kernel
  · unfold Mat.RowsSorted; decide +kernel
  · unfold Mat.NoDup; decide +kernel
  · decide +kernel
  · decide +kernel

/-- The product uses the upper triangle twice and not the stored nine. -/
example : exUpperSym.rightMul (fun i => if i = 0 then 1 else 10) (fun _ => 0) 0 = 21 ∧
    exUpperSym.rightMul (fun i => if i = 0 then 1 else 10) (fun _ => 0) 1 = 32 := by
  decide +kernel

/-- A general matrix with an unsorted row and an empty row. -/
def exGeneral : Mat ℤ :=
  ⟨3, 3, fun r => [0, 2, 2, 4].getD r 4, fun i => [2, 0, 1, 2].getD i 0,
    fun i => [5, 6, 7, 8].getD i 0, .unsymmetric, []⟩

example : exGeneral.WF ∧ exGeneral.NoDup ∧ ¬ exGeneral.RowsSorted := by
  refine ⟨⟨?_, ?_, ?_⟩, ?_, ?_⟩
  · decide +kernel
  · decide +kernel
  · decide +kernel
  · unfold Mat.NoDup; decide +kernel
  · unfold Mat.RowsSorted; decide +kernel

example : (exGeneral.transpose []).row 2 = [(0, 5), (2, 8)] ∧
    (exGeneral.transpose []).row 1 = [(2, 7)] := by decide +kernel

/-- Triplets out of order. -/
def exTriplet : Triplet ℤ :=
  ⟨2, 2, 3, fun i => [1, 0, 1].getD i 0, fun i => [1, 0, 0].getD i 0, fun i => [4, 5, 6].getD i 0⟩

example : exTriplet.WF ∧ Sorted exTriplet.rows exTriplet.cols exTriplet.num [1, 2, 0] := by
  refine ⟨?_, ?_, ?_⟩
  · unfold Triplet.WF; decide +kernel
  · decide +kernel
  · unfold rowColLess; decide +kernel

example : (exTriplet.resize 2 1).triples = [(0, 0, 5), (1, 0, 6)] := by decide +kernel

example : ∃ A, exGeneral.appendRows (diagonal (fun i => (i : ℤ) + 1) 3) = some A ∧
    A.row 3 = [(0, 1)] ∧ A.row 5 = [(2, 3)] ∧ A.row 0 = [(2, 5), (0, 6)] := by
  refine ⟨_, rfl, ?_⟩
  decide +kernel

end Ceres.Sparse
