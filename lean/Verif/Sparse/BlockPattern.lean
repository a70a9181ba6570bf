import Verif.Sparse.Spec

/-!
# Block pattern of a scalar matrix (C67)
-/
namespace Ceres.Sparse

variable {K : Type}

/-- `std::lower_bound` on the sorted block positions: the first that is not below the value. -/
def lowerBound (pos : List ℕ) (v : ℕ) : ℕ := pos.findIdx fun p => !decide (p < v)

/-- The row block that starts at a row, if one does (compressed_col_sparse_matrix_utils.cc:65-83). -/
def blockAt (pos : List ℕ) (v : ℕ) : Option ℕ :=
  if pos[lowerBound pos v]? = some v then some (lowerBound pos v) else none

/-- `CompressedColumnScalarMatrixToBlockMatrix` (compressed_col_sparse_matrix_utils.cc:41-89):
`M.rows` are the column pointers and `M.cols` the row indices; `c` is the first column of the
current block; the results are the two vectors. -/
def toBlockPattern (M : Mat K) (pos : List ℕ) : List ℕ → ℕ → List ℕ → List ℕ → List ℕ × List ℕ
  | [], _, blockRows, blockCols => (blockRows, blockCols)
  | size :: sizes, c, blockRows, blockCols =>
    let new := ((M.idxs c).map M.cols).filterMap (blockAt pos)
    toBlockPattern M pos sizes (c + size) (blockRows ++ new)
      (blockCols ++ [blockCols.getLastD 0 + new.length])

/-- In increasing positions the block found is the one that starts there. -/
theorem blockAt_eq_some {pos : List ℕ} (hp : pos.Pairwise (· < ·)) (v i : ℕ) :
    blockAt pos v = some i ↔ pos[i]? = some v := by
  unfold blockAt
  have hlb : ∀ i, pos[i]? = some v → lowerBound pos v = i := by
    intro i hi
    obtain ⟨hlt, hget⟩ := List.getElem?_eq_some_iff.mp hi
    unfold lowerBound
    rw [List.findIdx_eq hlt]
    refine ⟨by simp [hget], ?_⟩
    intro j hj
    have := List.pairwise_iff_getElem.mp hp j i (by omega) hlt hj
    simp only [Bool.not_eq_eq_eq_not, Bool.not_false, decide_eq_true_eq]
    omega
  constructor
  · intro h
    split_ifs at h with hc
    rw [← Option.some.inj h]; exact hc
  · intro h
    have := hlb i h
    rw [this, if_pos h]

/-- First column of block `j`. -/
def firstCol (sizes : List ℕ) (j : ℕ) : ℕ := (sizes.take j).sum

theorem toBlockPattern_aux (M : Mat K) (pos : List ℕ) (sizes : List ℕ) (c : ℕ)
    (br bc : List ℕ) (hbc : bc ≠ []) (hlast : bc.getLastD 0 = br.length) :
    let out := toBlockPattern M pos sizes c br bc
    (∃ t, out.1 = br ++ t) ∧ (∃ t, out.2 = bc ++ t ∧ t.length = sizes.length) ∧
    out.2.getLastD 0 = out.1.length ∧
    ∀ j < sizes.length, ∃ a b, out.2[bc.length - 1 + j]? = some a ∧
      out.2[bc.length + j]? = some b ∧ a ≤ b ∧
      (out.1.drop a).take (b - a)
        = ((M.idxs (c + firstCol sizes j)).map M.cols).filterMap (blockAt pos) := by
  induction sizes generalizing c br bc with
  | nil => exact ⟨⟨[], by simp [toBlockPattern]⟩, ⟨[], by simp [toBlockPattern]⟩, hlast,
      fun j hj => absurd hj (Nat.not_lt_zero _)⟩
  | cons size sizes ih =>
    simp only [toBlockPattern]
    set new := ((M.idxs c).map M.cols).filterMap (blockAt pos) with hnew
    have hlast' : (bc ++ [bc.getLastD 0 + new.length]).getLastD 0 = (br ++ new).length := by
      have h' := hlast
      rw [List.getLastD_eq_getLast?] at h'
      simp [h']
    obtain ⟨⟨t1, h1⟩, ⟨t2, h2, h2l⟩, h3, h4⟩ := ih (c + size) (br ++ new)
      (bc ++ [bc.getLastD 0 + new.length]) (by simp) hlast'
    have hpos : 0 < bc.length := List.length_pos_iff.mpr hbc
    refine ⟨⟨new ++ t1, by rw [h1, List.append_assoc]⟩,
      ⟨[bc.getLastD 0 + new.length] ++ t2, by rw [h2, List.append_assoc], by simp [h2l]⟩, h3, ?_⟩
    intro j hj
    cases j with
    | zero =>
      refine ⟨br.length, br.length + new.length, ?_, ?_, by omega, ?_⟩
      · rw [h2, List.append_assoc, List.getElem?_append_left (by omega), ← hlast]
        rw [List.getLastD_eq_getLast?, List.getLast?_eq_getElem?]
        simp only [Nat.add_zero]
        rw [List.getElem?_eq_getElem (by omega)]
        rfl
      · rw [h2, List.append_assoc, List.getElem?_append_right (by omega), hlast]
        simp
      · rw [h1, List.append_assoc, List.drop_left]
        simp [firstCol, hnew]
    | succ j =>
      obtain ⟨a, b, ha, hb, hab, hs⟩ := h4 j (by simpa using hj)
      refine ⟨a, b, ?_, ?_, hab, ?_⟩
      · rw [← ha]; congr 1; simp; omega
      · rw [← hb]; congr 1; simp; omega
      · rw [hs]
        simp only [firstCol, List.take_succ_cons, List.sum_cons, Nat.add_assoc]

/-- **C67.** The block pattern lists, for every column block, exactly the row blocks whose first
scalar entry is stored in the first column of the column block: the block `(i, j)` is in the
pattern if and only if the entry at its top left corner is stored. -/
theorem block_pattern_iff (M : Mat K) {pos : List ℕ} (hp : pos.Pairwise (· < ·)) (sizes : List ℕ)
    (i j : ℕ) (hj : j < sizes.length) :
    let out := toBlockPattern M pos sizes 0 [] [0]
    out.2.length = sizes.length + 1 ∧ out.2[0]? = some 0 ∧
    out.2.getLastD 0 = out.1.length ∧
    ∃ a b, out.2[j]? = some a ∧ out.2[j + 1]? = some b ∧ a ≤ b ∧
      (i ∈ (out.1.drop a).take (b - a) ↔
        ∃ row, pos[i]? = some row ∧ ∃ idx ∈ M.idxs (firstCol sizes j), M.cols idx = row) := by
  obtain ⟨_, ⟨t, h2, h2l⟩, h3, h4⟩ := toBlockPattern_aux M pos sizes 0 [] [0] (by simp) rfl
  refine ⟨by rw [h2]; simp [h2l], by rw [h2]; rfl, h3, ?_⟩
  obtain ⟨a, b, ha, hb, hab, hs⟩ := h4 j hj
  refine ⟨a, b, by simpa using ha, by rw [← hb]; congr 1; simp; omega, hab, ?_⟩
  rw [hs, List.mem_filterMap]
  simp only [Nat.zero_add]
  constructor
  · rintro ⟨row, hrow, hba⟩
    obtain ⟨idx, hidx, rfl⟩ := List.mem_map.mp hrow
    exact ⟨M.cols idx, (blockAt_eq_some hp _ _).mp hba, idx, hidx, rfl⟩
  · rintro ⟨row, hrow, idx, hidx, rfl⟩
    exact ⟨M.cols idx, List.mem_map.mpr ⟨idx, hidx, rfl⟩, (blockAt_eq_some hp _ _).mpr hrow⟩

/-- A concrete matrix with row blocks of sizes 2 and 1 and column blocks of sizes 1 and 2. -/
example : toBlockPattern (⟨3, 3, fun c => [0, 2, 3, 4].getD c 4, fun i => [0, 1, 2, 2].getD i 0,
      fun _ => (1 : ℤ), .unsymmetric, []⟩ : Mat ℤ) [0, 2] [1, 2] 0 [] [0]
    = ([0, 1], [0, 1, 2]) := by decide +kernel

end Ceres.Sparse
