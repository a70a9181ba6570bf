import Verif.CrsView.Model
import Verif.BlockSparse.Crs

/-!
# The flat arrays of a block structure
-/
namespace Ceres.CrsView

open Ceres.BlockSparse

/-- Every row block has cells. -/
def Full (bs : BS) : Prop := ∀ r ∈ bs.rows, r.cells ≠ []

theorem scanCells (bs : BS) (size o : ℕ) (cells : List Cell) (s : Scan) (hs : s.offset = some o) :
    (cells.foldl (scanCell bs size) s).offset = some o ∧
    (cells.foldl (scanCell bs size) s).nnz = s.nnz + width bs cells * size ∧
    ((cells.foldl (scanCell bs size) s).sequential = true ↔
      s.sequential = true ∧ CellsFollow bs size s.nnz cells) ∧
    (cells.foldl (scanCell bs size) s).cells = s.cells ++ cells ∧
    (cells.foldl (scanCell bs size) s).compatible = s.compatible ∧
    (cells.foldl (scanCell bs size) s).gap = s.gap ∧
    (cells.foldl (scanCell bs size) s).undefined = s.undefined ∧
    (cells.foldl (scanCell bs size) s).rowBlocks = s.rowBlocks ∧
    (cells.foldl (scanCell bs size) s).firstCell = s.firstCell := by
  induction cells generalizing s with
  | nil => simp [width, CellsFollow, hs]
  | cons c cells ih =>
    rw [List.foldl_cons]
    have h1 : (scanCell bs size s c).offset = some o := by simp [scanCell, hs]
    have h2 : (scanCell bs size s c).nnz = s.nnz + (bs.col c.blockId).size * size := by simp [scanCell, hs]
    have h3 : (scanCell bs size s c).sequential = (s.sequential && decide (c.position = s.nnz)) := by
      simp [scanCell, hs]
    obtain ⟨k1, k2, k3, k4, k5, k6, k7, k8, k9⟩ := ih _ h1
    refine ⟨k1, ?_, ?_, ?_, k5, k6, k7, k8, k9⟩
    · rw [k2, h2]
      simp only [width, List.map_cons, List.sum_cons, Nat.add_mul]
      omega
    · rw [k3, h2, h3]
      simp only [CellsFollow, Bool.and_eq_true, decide_eq_true_eq]
      tauto
    · rw [k4]
      simp [scanCell]

/-- The index of the first cell of each row block, when `n` cells come before. -/
def firsts (n : ℕ) : List BRow → List ℕ
  | [] => []
  | r :: rs => n :: firsts (n + r.cells.length) rs

/-- A row block of one row or with one cell. -/
def fits (r : BRow) : Bool := !(decide (1 < r.cells.length) && decide (1 < r.block.size))

theorem scanRows (bs : BS) (o : ℕ) (rows : List BRow) (hf : ∀ r ∈ rows, r.cells ≠ []) (s : Scan)
    (hs : s.offset = some o) (hg : s.gap = false) :
    (rows.foldl (scanRow bs) s).offset = some o ∧
    ((rows.foldl (scanRow bs) s).sequential = true ↔ s.sequential = true ∧ RowsFollow bs s.nnz rows) ∧
    (rows.foldl (scanRow bs) s).cells = s.cells ++ rows.flatMap BRow.cells ∧
    (rows.foldl (scanRow bs) s).compatible = (s.compatible && rows.all fits) ∧
    (rows.foldl (scanRow bs) s).undefined = s.undefined ∧
    (rows.foldl (scanRow bs) s).rowBlocks = s.rowBlocks ++ rows.map BRow.block ∧
    (rows.foldl (scanRow bs) s).firstCell = s.firstCell ++ firsts s.cells.length rows := by
  induction rows generalizing s with
  | nil => simp [RowsFollow, hs, firsts]
  | cons r rs ih =>
    rw [List.foldl_cons]
    have hr : r.cells.isEmpty = false := by
      rw [List.isEmpty_eq_false_iff]
      exact hf r (by simp)
    obtain ⟨k1, k2, k3, k4, k5, k6, k7, k8, k9⟩ := scanCells bs r.block.size o r.cells
      { s with
        compatible := if 1 < r.cells.length ∧ 1 < r.block.size then false else s.compatible
        rowBlocks := s.rowBlocks ++ [r.block]
        firstCell := s.firstCell ++ [s.cells.length]
        gap := r.cells.isEmpty
        undefined := s.undefined || (s.gap && !r.cells.isEmpty) } hs
    change (scanRow bs s r).offset = _ at k1
    change (scanRow bs s r).nnz = _ at k2
    change (scanRow bs s r).sequential = true ↔ _ at k3
    change (scanRow bs s r).cells = _ at k4
    change (scanRow bs s r).compatible = _ at k5
    change (scanRow bs s r).gap = _ at k6
    change (scanRow bs s r).undefined = _ at k7
    change (scanRow bs s r).rowBlocks = _ at k8
    change (scanRow bs s r).firstCell = _ at k9
    simp only at k2 k3 k4 k5 k6 k7 k8 k9
    obtain ⟨m1, m2, m3, m4, m5, m6, m7⟩ := ih (fun r' h => hf r' (by simp [h])) (scanRow bs s r) k1 (k6.trans hr)
    refine ⟨m1, ?_, ?_, ?_, ?_, ?_, ?_⟩
    · rw [m2, k3, k2]
      simp only [RowsFollow, width]
      tauto
    · rw [m3, k4]
      simp
    · rw [m4, k5, List.all_cons]
      unfold fits
      by_cases h1 : 1 < r.cells.length <;> by_cases h2 : 1 < r.block.size <;> simp [h1, h2]
    · rw [m5, k7, hg]
      simp
    · rw [m6, k8]
      simp
    · rw [m7, k9, k4]
      simp [firsts]

/-- The flat arrays. -/
def flatOf (bs : BS) : Flat where
  numRowBlocks := bs.rows.length
  firstCell := firsts 0 bs.rows ++ [(bs.rows.flatMap BRow.cells).length]
  cells := bs.rows.flatMap BRow.cells
  rowBlocks := bs.rows.map BRow.block
  colBlocks := bs.cols
  compatible := bs.rows.all fits

/-- **The structure is accepted exactly if the cells are stored in order**, and then the arrays are those of
the block structure. -/
theorem flatten_some {bs : BS} (hf : Full bs) (hi : InOrder bs) : flatten bs = some (flatOf bs) := by
  unfold flatten
  cases hrows : bs.rows with
  | nil =>
    simp [flatOf, hrows, firsts]
  | cons r rs =>
    obtain ⟨c, cs, hc⟩ := List.exists_cons_of_ne_nil (hf r (by rw [hrows]; simp))
    have hpos : c.position = 0 := by
      unfold InOrder at hi
      rw [hrows] at hi
      have := hi.1
      rw [hc] at this
      exact this.1
    have hstart : (r :: rs).foldl (scanRow bs) ⟨none, 0, true, true, false, false, [], [], []⟩ =
        (r :: rs).foldl (scanRow bs) ⟨some 0, 0, true, true, false, false, [], [], []⟩ := by
      rw [List.foldl_cons, List.foldl_cons]
      congr 1
      unfold scanRow
      rw [hc, List.foldl_cons, List.foldl_cons]
      congr 1
      simp [scanCell, hpos]
    rw [hstart]
    obtain ⟨m1, m2, m3, m4, m5, m6, m7⟩ := scanRows bs 0 (r :: rs) (by rw [← hrows]; exact hf)
      ⟨some 0, 0, true, true, false, false, [], [], []⟩ rfl rfl
    have hseq := m2.2 ⟨rfl, by unfold InOrder at hi; rw [hrows] at hi; exact hi⟩
    rw [if_pos ⟨m5, by rw [m1]; rfl, hseq⟩, m3, m4, m6, m7]
    simp [flatOf, hrows]

theorem flatten_none {bs : BS} (hf : Full bs) (hi : ¬ InOrder bs) : flatten bs = none := by
  unfold flatten
  unfold InOrder at hi
  cases hrows : bs.rows with
  | nil => exact absurd (by rw [hrows]; trivial) hi
  | cons r rs =>
    rw [hrows] at hi
    obtain ⟨c, cs, hc⟩ := List.exists_cons_of_ne_nil (hf r (by rw [hrows]; simp))
    have hstart : (r :: rs).foldl (scanRow bs) ⟨none, 0, true, true, false, false, [], [], []⟩ =
        (r :: rs).foldl (scanRow bs) ⟨some c.position, c.position, true, true, false, false, [], [], []⟩ := by
      rw [List.foldl_cons, List.foldl_cons]
      congr 1
      unfold scanRow
      rw [hc, List.foldl_cons, List.foldl_cons]
      congr 1
    rw [hstart]
    obtain ⟨m1, m2, m3, m4, m5, m6, m7⟩ := scanRows bs c.position (r :: rs) (by rw [← hrows]; exact hf)
      ⟨some c.position, c.position, true, true, false, false, [], [], []⟩ rfl rfl
    rw [if_neg]
    rintro ⟨-, h1, h2⟩
    rw [m1] at h1
    change c.position = 0 at h1
    have := (m2.1 h2).2
    simp only [h1] at this
    exact hi this

/-! ## Reading the arrays -/

theorem firsts_length (n : ℕ) (rows : List BRow) : (firsts n rows).length = rows.length := by
  induction rows generalizing n with
  | nil => rfl
  | cons r rs ih => simp [firsts, ih]

/-- The number of cells before row block `i`. -/
def cellsBefore (rows : List BRow) (i : ℕ) : ℕ := ((rows.take i).map fun r => r.cells.length).sum

theorem firsts_get (n : ℕ) (rows : List BRow) (i : ℕ) (hi : i < rows.length) :
    (firsts n rows)[i]? = some (n + cellsBefore rows i) := by
  induction rows generalizing n i with
  | nil => exact absurd hi (by simp)
  | cons r rs ih =>
    cases i with
    | zero => simp [firsts, cellsBefore]
    | succ i =>
      have := ih (n + r.cells.length) i (by simpa using hi)
      rw [firsts, List.getElem?_cons_succ, this]
      simp [cellsBefore, Nat.add_assoc]

theorem firstCell_get (bs : BS) {i : ℕ} (hi : i ≤ bs.rows.length) :
    (flatOf bs).firstCell[i]? = some (cellsBefore bs.rows i) := by
  show (firsts 0 bs.rows ++ [_])[i]? = _
  rcases Nat.lt_or_eq_of_le hi with hi | rfl
  · rw [List.getElem?_append_left (by rw [firsts_length]; exact hi), firsts_get 0 _ _ hi, Nat.zero_add]
  · rw [List.getElem?_append_right (by rw [firsts_length]), firsts_length, Nat.sub_self]
    simp [cellsBefore, List.length_flatMap]

theorem flatMap_split (rows : List BRow) {i : ℕ} {r : BRow} (h : rows[i]? = some r) :
    rows.flatMap BRow.cells =
      (rows.take i).flatMap BRow.cells ++ (r.cells ++ (rows.drop (i + 1)).flatMap BRow.cells) := by
  obtain ⟨hi, hr⟩ := List.getElem?_eq_some_iff.1 h
  conv_lhs => rw [← List.take_append_drop i rows, List.drop_eq_getElem_cons hi, hr]
  rw [List.flatMap_append, List.flatMap_cons]

theorem cellsBefore_length (rows : List BRow) (i : ℕ) :
    ((rows.take i).flatMap BRow.cells).length = cellsBefore rows i := by
  rw [List.length_flatMap]
  rfl

theorem cellsBefore_succ {rows : List BRow} {i : ℕ} {r : BRow} (h : rows[i]? = some r) :
    cellsBefore rows (i + 1) = cellsBefore rows i + r.cells.length := by
  unfold cellsBefore
  rw [List.take_succ, h]
  simp

theorem cellsOf_eq {bs : BS} {i : ℕ} {r : BRow} (h : bs.rows[i]? = some r) : (flatOf bs).cellsOf i = r.cells := by
  obtain ⟨hi, -⟩ := List.getElem?_eq_some_iff.1 h
  unfold Flat.cellsOf
  rw [List.getD_eq_getElem?_getD, List.getD_eq_getElem?_getD, firstCell_get bs (by omega : i ≤ _),
    firstCell_get bs (by omega : i + 1 ≤ _)]
  show ((bs.rows.flatMap BRow.cells).drop (cellsBefore bs.rows i)).take
    (cellsBefore bs.rows (i + 1) - cellsBefore bs.rows i) = _
  rw [cellsBefore_succ h, Nat.add_sub_cancel_left, flatMap_split _ h, ← cellsBefore_length, List.drop_left',
    List.take_left']
  · rfl
  · rfl

theorem row_eq {bs : BS} {i : ℕ} {r : BRow} (h : bs.rows[i]? = some r) : (flatOf bs).row i = r.block := by
  show (bs.rows.map BRow.block).getD i _ = _
  rw [List.getD_eq_getElem?_getD, List.getElem?_map, h]
  rfl

theorem firstCell_cell {bs : BS} {i : ℕ} {r : BRow} {c : Cell} {cs : List Cell} (h : bs.rows[i]? = some r)
    (hc : r.cells = c :: cs) : (flatOf bs).cells[cellsBefore bs.rows i]? = some c := by
  show (bs.rows.flatMap BRow.cells)[_]? = _
  rw [flatMap_split _ h, List.getElem?_append_right (by rw [cellsBefore_length]), cellsBefore_length,
    Nat.sub_self, hc]
  rfl

end Ceres.CrsView
