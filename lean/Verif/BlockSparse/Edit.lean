import Verif.BlockSparse.Products
import Verif.BlockSparse.Scale

/-!
# Appending and deleting row blocks
-/
namespace Ceres.BlockSparse

variable {K : Type}

/-! ## The loops of `AppendRows` -/

/-- The cells of an appended row block. -/
def newCells (cols : List Block) (size z : ℕ) : List Cell → List Cell
  | [] => []
  | c :: cs => ⟨c.blockId, z⟩ :: newCells cols size (z + size * (cols.getD c.blockId ⟨0, 0⟩).size) cs

/-- The number of values of some cells. -/
def cellsNnz (cols : List Block) (size : ℕ) (cells : List Cell) : ℕ :=
  (cells.map fun c => size * (cols.getD c.blockId ⟨0, 0⟩).size).sum

/-- The appended row blocks. -/
def newRows (cols : List Block) (p z : ℕ) : List BRow → List BRow
  | [] => []
  | r :: rs => ⟨⟨r.block.size, p⟩, newCells cols r.block.size z r.cells, 0, 0⟩ ::
      newRows cols (p + r.block.size) (z + cellsNnz cols r.block.size r.cells) rs

/-- The number of values of some row blocks. -/
def rowsNnz (cols : List Block) (rows : List BRow) : ℕ :=
  (rows.map fun r => cellsNnz cols r.block.size r.cells).sum

/-- The columns have the sizes of the blocks. -/
def SameSizes (cols : List Block) (rows : List BRow) : Prop :=
  ∀ j t, rows[j]? = some t → (cols.getD j ⟨0, 0⟩).size = t.block.size

theorem sameSizes_addLinks {cols : List Block} {rows : List BRow} (h : SameSizes cols rows)
    (L : List (ℕ × ℕ × Cell)) : SameSizes cols (addLinks L rows) := by
  intro j t ht
  simp only [addLinks, List.getElem?_mapIdx] at ht
  cases hr : rows[j]? with
  | none => rw [hr] at ht; cases ht
  | some t' =>
    rw [hr] at ht
    simp only [Option.map_some, Option.some.injEq] at ht
    rw [h j t' hr, ← ht]
    rfl

theorem pushCell_addLinks {cols : List Block} {rows : List BRow} (h : SameSizes cols rows) (i size : ℕ) (c : Cell)
    (z : ℕ) : pushCell rows c.blockId i z (size * (cols.getD c.blockId ⟨0, 0⟩).size) =
      addLinks [(i, size, ⟨c.blockId, z⟩)] rows := by
  have := pushCell_eq rows i size ⟨c.blockId, z⟩
  rw [← this]
  unfold pushCell
  refine List.ext_getElem? fun j => ?_
  simp only [List.getElem?_modify]
  by_cases hj : c.blockId = j
  · subst hj
    cases hr : rows[c.blockId]? with
    | none => rfl
    | some t => simp only [h _ _ hr, if_true, Option.map_some, Option.getD_some]
  · simp [hj]

theorem appendCells_eq {cols : List Block} (id size : ℕ) (cells done : List Cell) (trows : List BRow) (z : ℕ)
    (h : SameSizes cols trows) : cells.foldl (appendCell cols id size) (done, trows, z) =
      (done ++ newCells cols size z cells,
        addLinks ((newCells cols size z cells).map fun c => (id, size, c)) trows,
        z + cellsNnz cols size cells) := by
  induction cells generalizing done trows z with
  | nil => simp [newCells, cellsNnz, addLinks_nil]
  | cons c cs ih =>
    rw [List.foldl_cons]
    simp only [appendCell]
    rw [pushCell_addLinks h, ih _ _ _ (sameSizes_addLinks h _), addLinks_append]
    simp only [newCells, cellsNnz, List.map_cons, List.sum_cons, List.append_assoc, List.singleton_append,
      Nat.add_assoc]

theorem appendRows_fold {cols : List Block} (rows : List BRow) (s : Append) (h : SameSizes cols s.tbs.rows) :
    rows.foldl (appendRow cols) s =
      ⟨s.rows ++ newRows cols s.numRows s.nnz rows,
        ⟨s.tbs.cols ++ (newRows cols s.numRows s.nnz rows).map BRow.block,
          addLinks (linksFrom s.rows.length (newRows cols s.numRows s.nnz rows)) s.tbs.rows⟩,
        s.numRows + (rows.map fun r => r.block.size).sum, s.nnz + rowsNnz cols rows⟩ := by
  induction rows generalizing s with
  | nil => simp [newRows, linksFrom, addLinks_nil, rowsNnz]
  | cons r rs ih =>
    rw [List.foldl_cons]
    have hstep : appendRow cols s r =
        ⟨s.rows ++ [⟨⟨r.block.size, s.numRows⟩, newCells cols r.block.size s.nnz r.cells, 0, 0⟩],
          ⟨s.tbs.cols ++ [⟨r.block.size, s.numRows⟩],
            addLinks ((newCells cols r.block.size s.nnz r.cells).map fun c => (s.rows.length, r.block.size, c))
              s.tbs.rows⟩,
          s.numRows + r.block.size, s.nnz + cellsNnz cols r.block.size r.cells⟩ := by
      simp only [appendRow]
      rw [appendCells_eq _ _ _ _ _ _ h]
      simp
    rw [hstep, ih _ (sameSizes_addLinks h _)]
    simp only [newRows, linksFrom, rowsNnz, List.map_cons, List.sum_cons, List.append_assoc, List.singleton_append,
      addLinks_append, List.length_append, List.length_singleton, Nat.add_assoc]

theorem linksFrom_append (n : ℕ) (a b : List BRow) :
    linksFrom n (a ++ b) = linksFrom n a ++ linksFrom (n + a.length) b := by
  induction a generalizing n with
  | nil => simp [linksFrom]
  | cons r a ih =>
    simp only [List.cons_append, linksFrom, ih, List.append_assoc, List.length_cons]
    rw [Nat.add_assoc, Nat.add_comm 1]

theorem sameSizes_tbs {M : BMat K} (h : M.Ok) : SameSizes M.bs.cols M.tbs.rows := by
  rw [h.tbs, createTranspose_eq]
  intro j t ht
  simp only [cumulate, cumulateFrom_getElem?, addLinks, emptyCols, List.getElem?_mapIdx, List.getElem?_map] at ht
  rw [List.getD_eq_getElem?_getD]
  cases hc : M.bs.cols[j]? with
  | none => rw [hc] at ht; cases ht
  | some b =>
    rw [hc] at ht
    simp only [Option.map_some, Option.some.injEq] at ht
    rw [← ht]
    rfl

/-- What `AppendRows` makes of a matrix with the same column blocks. -/
theorem appendRows_eq {M m : BMat K} (h : M.Ok) (hm : m.Ok) (hc : m.bs.cols = M.bs.cols) :
    M.appendRows m = some
      { bs := ⟨M.bs.cols, M.bs.rows ++ newRows M.bs.cols M.numRows M.nnz m.bs.rows⟩
        tbs := createTranspose ⟨M.bs.cols, M.bs.rows ++ newRows M.bs.cols M.numRows M.nnz m.bs.rows⟩
        values := Sparse.copyTo m.values m.nnz M.values M.nnz
        numRows := M.numRows + m.numRows
        numCols := M.numCols
        nnz := M.nnz + rowsNnz M.bs.cols m.bs.rows
        maxNnz := max (M.nnz + rowsNnz M.bs.cols m.bs.rows) M.maxNnz } := by
  unfold BMat.appendRows
  rw [if_pos ⟨by rw [h.numCols, hm.numCols, hc], by rw [hc]⟩]
  simp only [hc]
  rw [appendRows_fold _ _ (sameSizes_tbs h)]
  simp only [Option.some.injEq]
  rw [← hm.numRows, createTranspose_eq, h.tbs, createTranspose_eq]
  simp only
  rw [cumulate_addLinks, addLinks_append]
  congr 1
  simp only [BS.links, linksFrom_append, Nat.zero_add, List.map_append]

/-! ## Storage -/

theorem newCells_slots (cols : List Block) (size z : ℕ) (cells : List Cell) :
    ((newCells cols size z cells).flatMap fun c =>
      List.range' c.position (size * (cols.getD c.blockId ⟨0, 0⟩).size)) =
      List.range' z (cellsNnz cols size cells) := by
  induction cells generalizing z with
  | nil => rfl
  | cons c cs ih =>
    simp only [newCells, List.flatMap_cons, ih, cellsNnz, List.map_cons, List.sum_cons]
    rw [← List.range'_append_1]

theorem newRows_slots (cols : List Block) (p z : ℕ) (rows : List BRow) :
    ((newRows cols p z rows).flatMap fun r => r.cells.flatMap fun c =>
      List.range' c.position (r.block.size * (cols.getD c.blockId ⟨0, 0⟩).size)) =
      List.range' z (rowsNnz cols rows) := by
  induction rows generalizing p z with
  | nil => rfl
  | cons r rs ih =>
    simp only [newRows, List.flatMap_cons, ih, rowsNnz, List.map_cons, List.sum_cons]
    rw [newCells_slots, ← List.range'_append_1]

theorem slots_length (bs : BS) : bs.slots.length = rowsNnz bs.cols bs.rows := by
  unfold BS.slots rowsNnz cellsNnz
  rw [List.length_flatMap]
  congr 1
  refine List.map_congr_left fun r _ => ?_
  rw [List.length_flatMap]
  congr 1
  refine List.map_congr_left fun c _ => ?_
  rw [List.length_range']
  rfl

theorem nnz_eq {M : BMat K} (h : M.Ok) : M.nnz = rowsNnz M.bs.cols M.bs.rows := by
  rw [← slots_length, h.bs.slots.length_eq, List.length_range]

theorem laid_newRows (cols : List Block) (p z : ℕ) (rows : List BRow) :
    Laid p ((newRows cols p z rows).map BRow.block) := by
  induction rows generalizing p z with
  | nil => trivial
  | cons r rs ih => exact ⟨rfl, ih _ _⟩

theorem laid_append {p : ℕ} {a b : List Block} (ha : Laid p a) (hb : Laid (p + (a.map Block.size).sum) b) :
    Laid p (a ++ b) := by
  induction a generalizing p with
  | nil => simpa using hb
  | cons c a ih =>
    refine ⟨ha.1, ih ha.2 ?_⟩
    rwa [List.map_cons, List.sum_cons, ← Nat.add_assoc] at hb

theorem newRows_ids {cols : List Block} {p z : ℕ} {rows : List BRow}
    (h : ∀ row ∈ rows, ∀ cell ∈ row.cells, cell.blockId < cols.length) :
    ∀ row ∈ newRows cols p z rows, ∀ cell ∈ row.cells, cell.blockId < cols.length := by
  have hcells : ∀ (size z : ℕ) (cells : List Cell), (∀ c ∈ cells, c.blockId < cols.length) →
      ∀ c ∈ newCells cols size z cells, c.blockId < cols.length := by
    intro size z cells
    induction cells generalizing z with
    | nil => intro _ c hc; cases hc
    | cons a cells ih =>
      intro ha c hc
      rcases List.mem_cons.1 hc with rfl | hc
      · exact ha a (by simp)
      · exact ih _ (fun c' hc' => ha c' (by simp [hc'])) c hc
  induction rows generalizing p z with
  | nil => intro _ hrow; cases hrow
  | cons r rs ih =>
    intro row hrow
    rcases List.mem_cons.1 hrow with rfl | hrow
    · exact hcells _ _ _ (h r (by simp))
    · exact ih (fun r' hr => h r' (by simp [hr])) row hrow

theorem newRows_sizes (cols : List Block) (p z : ℕ) (rows : List BRow) :
    (newRows cols p z rows).map (fun r => r.block.size) = rows.map fun r => r.block.size := by
  induction rows generalizing p z with
  | nil => rfl
  | cons r rs ih => simp [newRows, ih]

/-- Appending leaves a matrix in order. -/
theorem append_ok {M m R : BMat K} (h : M.Ok) (hm : m.Ok) (hc : m.bs.cols = M.bs.cols)
    (hR : M.appendRows m = some R) : R.Ok := by
  rw [appendRows_eq h hm hc] at hR
  injection hR with hR
  subst hR
  refine ⟨⟨h.bs.cols, ?_, ?_, ?_⟩, rfl, ?_, h.numCols, Nat.le_max_left _ _⟩
  · simp only [List.map_append]
    refine laid_append h.bs.rows ?_
    have : 0 + ((M.bs.rows.map BRow.block).map Block.size).sum = M.numRows := by
      rw [h.numRows, List.map_map, Nat.zero_add]; rfl
    rw [this]
    exact laid_newRows _ _ _ _
  · intro row hrow
    rcases List.mem_append.1 hrow with hrow | hrow
    · exact h.bs.ids row hrow
    · exact newRows_ids (by rw [← hc]; exact hm.bs.ids) row hrow
  · unfold BS.slots
    rw [List.flatMap_append]
    have h1 := newRows_slots M.bs.cols M.numRows M.nnz m.bs.rows
    simp only [BS.col]
    rw [h1, List.range_eq_range', ← List.range'_append_1, ← List.range_eq_range', Nat.zero_add]
    exact List.Perm.append_right _ h.bs.slots
  · simp only [List.map_append, List.sum_append, newRows_sizes]
    rw [h.numRows, hm.numRows]

theorem copyTo_eq {α : Type} (src dst : ℕ → α) (n pos k : ℕ) : Sparse.copyTo src n dst pos k =
    if pos ≤ k ∧ k < pos + n then src (k - pos) else dst k := by
  unfold Sparse.copyTo
  induction n with
  | zero => simp only [List.range_zero, List.foldl_nil]; rw [if_neg (by omega)]
  | succ n ih =>
    rw [List.range_succ, List.foldl_append, List.foldl_cons, List.foldl_nil]
    by_cases hk : k = pos + n
    · subst hk
      rw [Function.update_self, if_pos ⟨by omega, by omega⟩]
      congr 1
      omega
    · rw [Function.update_of_ne hk, ih]
      by_cases h1 : pos ≤ k ∧ k < pos + n
      · rw [if_pos h1, if_pos ⟨h1.1, by omega⟩]
      · rw [if_neg h1, if_neg (by omega)]

/-! ## Entries -/

section
variable [CommRing K]

/-- Entries depend on the values of the cells only. -/
theorem rows_entry_congr {M : BMat K} (h : M.Ok) {v : ℕ → K} (hv : ∀ p < M.nnz, v p = M.values p) (r c : ℕ) :
    M.bs.entry v r c = M.entry r c := by
  unfold BMat.entry
  rw [entry_triples, entry_triples]
  congr 1
  refine List.map_congr_left fun t ht => ?_
  unfold cellAt
  by_cases hin : t.1.position ≤ r ∧ r < t.1.position + t.1.size ∧ t.2.1.position ≤ c ∧
      c < t.2.1.position + t.2.1.size
  · rw [if_pos hin, if_pos hin]
    exact hv _ ((cell_ok h ht).val _ _ (by omega) (by omega))
  · rw [if_neg hin, if_neg hin]

theorem range'_split {pos n z k : ℕ} {rest : List ℕ} (h : List.range' pos n ++ rest = List.range' z k) :
    (n = 0 ∨ pos = z) ∧ rest = List.range' (z + n) (k - n) ∧ n ≤ k := by
  have hlen := congrArg List.length h
  rw [List.length_append, List.length_range', List.length_range'] at hlen
  have hk : k = n + (k - n) := by omega
  rw [hk, ← List.range'_append_1] at h
  obtain ⟨h1, h2⟩ := List.append_inj h (by simp)
  refine ⟨?_, h2, by omega⟩
  cases n with
  | zero => exact Or.inl rfl
  | succ n =>
    right
    simp only [List.range'_succ, List.cons.injEq] at h1
    exact h1.1

/-- An appended cell is the cell, further down. -/
theorem cellAt_shift {row col : Block} {pos P Z n : ℕ} {v v' : ℕ → K}
    (hv : ∀ k < n, v' (Z + k) = v k) (hn : pos + row.size * col.size ≤ n) (r c : ℕ) :
    cellAt ⟨row.size, P + row.position⟩ col (Z + pos) v' r c =
      if P ≤ r then cellAt row col pos v (r - P) c else 0 := by
  unfold cellAt
  simp only
  by_cases hP : P ≤ r
  · rw [if_pos hP]
    by_cases hin : row.position ≤ r - P ∧ r - P < row.position + row.size ∧ col.position ≤ c ∧
        c < col.position + col.size
    · rw [if_pos hin, if_pos ⟨by omega, by omega, hin.2.2⟩]
      have e1 : r - (P + row.position) = r - P - row.position := by omega
      rw [e1]
      have h2 : (r - P - row.position + 1) * col.size ≤ row.size * col.size := Nat.mul_le_mul_right _ (by omega)
      rw [Nat.add_mul] at h2
      rw [← hv _ (by omega : pos + (r - P - row.position) * col.size + (c - col.position) < n)]
      congr 1
      omega
    · rw [if_neg hin, if_neg (by omega)]
  · rw [if_neg hP, if_neg (by omega)]

theorem newCells_entry {cols : List Block} {row : Block} {P Z n z k : ℕ} {v v' : ℕ → K}
    (hv : ∀ k < n, v' (Z + k) = v k) (cells : List Cell) (rest : List ℕ)
    (hs : (cells.flatMap fun c => List.range' c.position (row.size * (cols.getD c.blockId ⟨0, 0⟩).size)) ++ rest =
      List.range' z k) (hn : z + k ≤ n) (r c : ℕ) :
    ((newCells cols row.size (Z + z) cells).map fun cell =>
      cellAt ⟨row.size, P + row.position⟩ (cols.getD cell.blockId ⟨0, 0⟩) cell.position v' r c).sum =
      if P ≤ r then (cells.map fun cell =>
        cellAt row (cols.getD cell.blockId ⟨0, 0⟩) cell.position v (r - P) c).sum else 0 := by
  induction cells generalizing z k with
  | nil => simp [newCells]
  | cons a cells ih =>
    rw [List.flatMap_cons, List.append_assoc] at hs
    obtain ⟨h1, h2, h3⟩ := range'_split hs
    simp only [newCells, List.map_cons, List.sum_cons]
    have hrec := ih (z := z + row.size * (cols.getD a.blockId ⟨0, 0⟩).size) h2 (by omega)
    rw [Nat.add_assoc, hrec]
    have hcell : cellAt ⟨row.size, P + row.position⟩ (cols.getD a.blockId ⟨0, 0⟩) (Z + z) v' r c =
        if P ≤ r then cellAt row (cols.getD a.blockId ⟨0, 0⟩) a.position v (r - P) c else 0 := by
      rcases h1 with h1 | h1
      · have hz : ∀ (b : Block) (q : ℕ) (w : ℕ → K) (r' : ℕ), b.size = row.size →
            cellAt b (cols.getD a.blockId ⟨0, 0⟩) q w r' c = 0 := by
          intro b q w r' hb
          refine if_neg ?_
          rcases Nat.mul_eq_zero.1 h1 with h1 | h1 <;> omega
        rw [hz ⟨row.size, P + row.position⟩ _ _ _ rfl, hz row _ _ _ rfl, ite_self]
      · rw [← h1]
        exact cellAt_shift hv (by omega) r c
    rw [hcell]
    by_cases hP : P ≤ r
    · simp only [if_pos hP]
    · simp only [if_neg hP, add_zero]

theorem newRows_entry {cols : List Block} {P Z n : ℕ} {v v' : ℕ → K} (hv : ∀ k < n, v' (Z + k) = v k)
    (rows : List BRow) (p z : ℕ) (hl : Laid p (rows.map BRow.block))
    (hs : (rows.flatMap fun row => row.cells.flatMap fun c =>
      List.range' c.position (row.block.size * (cols.getD c.blockId ⟨0, 0⟩).size)) =
      List.range' z (n - z)) (hz : z ≤ n) (r c : ℕ) :
    ((newRows cols (P + p) (Z + z) rows).map fun row => (row.cells.map fun cell =>
      cellAt row.block (cols.getD cell.blockId ⟨0, 0⟩) cell.position v' r c).sum).sum =
      if P ≤ r then (rows.map fun row => (row.cells.map fun cell =>
        cellAt row.block (cols.getD cell.blockId ⟨0, 0⟩) cell.position v (r - P) c).sum).sum else 0 := by
  induction rows generalizing p z with
  | nil => simp [newRows]
  | cons a rows ih =>
    rw [List.flatMap_cons] at hs
    simp only [newRows, List.map_cons, List.sum_cons]
    have hcells := newCells_entry (P := P) (row := a.block) hv a.cells _ hs (by omega) r c
    have hpos : a.block.position = p := hl.1
    rw [hpos] at hcells
    rw [hcells]
    have hlen : (a.cells.flatMap fun c =>
        List.range' c.position (a.block.size * (cols.getD c.blockId ⟨0, 0⟩).size)).length =
        cellsNnz cols a.block.size a.cells := by
      rw [List.length_flatMap]
      unfold cellsNnz
      congr 1
      refine List.map_congr_left fun c _ => ?_
      rw [List.length_range']
    have htot := congrArg List.length hs
    rw [List.length_append, hlen, List.length_range'] at htot
    have hk : n - z = cellsNnz cols a.block.size a.cells + (n - (z + cellsNnz cols a.block.size a.cells)) := by omega
    rw [hk, ← List.range'_append_1] at hs
    obtain ⟨-, h2⟩ := List.append_inj hs (by rw [hlen, List.length_range'])
    have hrec := ih (p + a.block.size) (z + cellsNnz cols a.block.size a.cells) hl.2 h2 (by omega)
    rw [Nat.add_assoc, Nat.add_assoc, hrec]
    by_cases hP : P ≤ r
    · simp only [if_pos hP]
    · simp only [if_neg hP, add_zero]

theorem entry_append (cols : List Block) (a b : List BRow) (v : ℕ → K) (r c : ℕ) :
    BS.entry ⟨cols, a ++ b⟩ v r c = BS.entry ⟨cols, a⟩ v r c + BS.entry ⟨cols, b⟩ v r c := by
  unfold BS.entry
  simp only [List.map_append, List.sum_append, BS.col]

/-- **Appending rows**: the rows of a matrix with the same column blocks, stored in order, come after the
rows that were there. -/
theorem append_entry {M m R : BMat K} (h : M.Ok) (hm : m.Ok) (hc : m.bs.cols = M.bs.cols)
    (hseq : m.bs.Sequential m.nnz) (hR : M.appendRows m = some R) (r c : ℕ) :
    R.entry r c = if r < M.numRows then M.entry r c else m.entry (r - M.numRows) c := by
  rw [appendRows_eq h hm hc] at hR
  injection hR with hR
  subst hR
  unfold BMat.entry
  simp only
  rw [entry_append]
  have h1 : BS.entry ⟨M.bs.cols, M.bs.rows⟩ (Sparse.copyTo m.values m.nnz M.values M.nnz) r c = M.entry r c :=
    rows_entry_congr h (fun p hp => by rw [copyTo_eq, if_neg (by omega)]) r c
  have h2 : BS.entry ⟨M.bs.cols, newRows M.bs.cols M.numRows M.nnz m.bs.rows⟩
      (Sparse.copyTo m.values m.nnz M.values M.nnz) r c =
      if M.numRows ≤ r then m.entry (r - M.numRows) c else 0 := by
    have := newRows_entry (cols := M.bs.cols) (P := M.numRows) (Z := M.nnz) (n := m.nnz)
      (v := m.values) (v' := Sparse.copyTo m.values m.nnz M.values M.nnz)
      (fun k hk => by rw [copyTo_eq, if_pos ⟨by omega, by omega⟩, Nat.add_sub_cancel_left])
      m.bs.rows 0 0 hm.bs.rows (by
        rw [Nat.sub_zero, ← List.range_eq_range', ← hseq, ← hc]
        rfl) (Nat.zero_le _) r c
    rw [Nat.add_zero, Nat.add_zero] at this
    unfold BMat.entry BS.entry
    unfold BS.col
    rw [hc]
    exact this
  rw [h1, h2]
  by_cases hr : r < M.numRows
  · rw [if_neg (by omega), if_pos hr, add_zero]; rfl
  · rw [if_pos (by omega), if_neg hr, entry_row_ge h (by omega), zero_add]; rfl

end

end Ceres.BlockSparse
