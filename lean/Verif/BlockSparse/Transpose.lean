import Verif.BlockSparse.Spec

/-!
# The structure of the transpose
-/
namespace Ceres.BlockSparse

/-- The cells with the index and the size of their row block, in order. -/
def linksFrom (n : ℕ) : List BRow → List (ℕ × ℕ × Cell)
  | [] => []
  | r :: rs => r.cells.map (fun c => (n, r.block.size, c)) ++ linksFrom (n + 1) rs

def BS.links (bs : BS) : List (ℕ × ℕ × Cell) := linksFrom 0 bs.rows

/-- The cells of a column among `L`. -/
def inCol (j : ℕ) (L : List (ℕ × ℕ × Cell)) : List (ℕ × ℕ × Cell) := L.filter fun l => l.2.2.blockId = j

/-- A column with more cells. -/
def addTo1 (L : List (ℕ × ℕ × Cell)) (j : ℕ) (t : BRow) : BRow :=
  { t with
    cells := t.cells ++ (inCol j L).map fun l => ⟨l.1, l.2.2.position⟩
    nnz := t.nnz + ((inCol j L).map fun l => l.2.1 * t.block.size).sum }

def addLinks (L : List (ℕ × ℕ × Cell)) (rows : List BRow) : List BRow := rows.mapIdx (addTo1 L)

theorem addTo1_append (L L' : List (ℕ × ℕ × Cell)) (j : ℕ) (t : BRow) :
    addTo1 L' j (addTo1 L j t) = addTo1 (L ++ L') j t := by
  simp [addTo1, inCol, List.filter_append, Nat.add_assoc]

theorem addLinks_append (L L' : List (ℕ × ℕ × Cell)) (rows : List BRow) :
    addLinks L' (addLinks L rows) = addLinks (L ++ L') rows := by
  simp only [addLinks, List.mapIdx_mapIdx]
  congr 1
  funext j t
  exact addTo1_append L L' j t

theorem addTo1_nil (j : ℕ) (t : BRow) : addTo1 [] j t = t := by simp [addTo1, inCol]

theorem addLinks_nil (rows : List BRow) : addLinks [] rows = rows := by
  refine List.ext_getElem? fun j => ?_
  simp only [addLinks, List.getElem?_mapIdx]
  cases rows[j]? with
  | none => rfl
  | some t => simp [addTo1_nil]

/-- One cell is appended to its column. -/
theorem pushCell_eq (rows : List BRow) (i size : ℕ) (c : Cell) :
    pushCell rows c.blockId i c.position (size * ((rows[c.blockId]?.map fun t => t.block.size).getD 0)) =
      addLinks [(i, size, c)] rows := by
  refine List.ext_getElem? fun j => ?_
  simp only [pushCell, addLinks, List.getElem?_modify, List.getElem?_mapIdx]
  by_cases h : c.blockId = j
  · subst h
    cases hr : rows[c.blockId]? with
    | none => rfl
    | some t => simp [addTo1, inCol]
  · cases hr : rows[j]? with
    | none => simp
    | some t => simp [addTo1, inCol, h]

theorem foldl_pushCell (L : List (ℕ × ℕ × Cell)) (rows : List BRow) :
    L.foldl (fun rows l => pushCell rows l.2.2.blockId l.1 l.2.2.position
      (l.2.1 * ((rows[l.2.2.blockId]?.map fun t => t.block.size).getD 0))) rows = addLinks L rows := by
  induction L generalizing rows with
  | nil => exact (addLinks_nil rows).symm
  | cons l L ih => rw [List.foldl_cons, pushCell_eq, ih, addLinks_append]; rfl

theorem links_flatMap (n : ℕ) (rows : List BRow) :
    (rows.zipIdx n).flatMap (fun ri => ri.1.cells.map fun c => (ri.2, ri.1.block.size, c)) = linksFrom n rows := by
  induction rows generalizing n with
  | nil => rfl
  | cons r rs ih => rw [List.zipIdx_cons, List.flatMap_cons, ih]; rfl

/-- The columns before any cell. -/
def emptyCols (cols : List Block) : List BRow := cols.map fun b => ⟨b, [], 0, 0⟩

theorem createTranspose_eq (bs : BS) :
    createTranspose bs = ⟨bs.rows.map BRow.block, cumulate (addLinks bs.links (emptyCols bs.cols))⟩ := by
  unfold createTranspose
  rw [← foldl_pushCell, BS.links, ← links_flatMap, List.foldl_flatMap]
  simp only [List.foldl_map]
  rfl

/-! ## Cumulative counts -/

theorem cumulateFrom_map (s : ℕ) (rows : List BRow) :
    (cumulateFrom s rows).map (fun r => { r with cum := 0 }) = rows.map fun r => { r with cum := 0 } := by
  induction rows generalizing s with
  | nil => rfl
  | cons r rs ih => simp [cumulateFrom, ih]

theorem cumulateFrom_uncum (s : ℕ) (rows : List BRow) :
    cumulateFrom s (rows.map fun r => { r with cum := 0 }) = cumulateFrom s rows := by
  induction rows generalizing s with
  | nil => rfl
  | cons r rs ih => simp [cumulateFrom, ih]

/-- Two lists of rows that differ in the cumulative counts only get the same counts. -/
theorem cumulate_congr {rows rows' : List BRow}
    (h : rows.map (fun r => { r with cum := 0 }) = rows'.map fun r => { r with cum := 0 }) :
    cumulate rows = cumulate rows' := by
  rw [cumulate, ← cumulateFrom_uncum, h, cumulateFrom_uncum]; rfl

theorem addLinks_uncum (L : List (ℕ × ℕ × Cell)) (rows : List BRow) :
    (addLinks L rows).map (fun r => { r with cum := 0 }) =
      addLinks L (rows.map fun r => { r with cum := 0 }) := by
  refine List.ext_getElem? fun j => ?_
  simp only [addLinks, List.getElem?_map, List.getElem?_mapIdx]
  cases rows[j]? <;> simp [addTo1]

theorem cumulate_addLinks (L : List (ℕ × ℕ × Cell)) (rows : List BRow) :
    cumulate (addLinks L (cumulate rows)) = cumulate (addLinks L rows) := by
  refine cumulate_congr ?_
  rw [addLinks_uncum, addLinks_uncum, cumulate, cumulateFrom_map]

theorem cumulateFrom_length (s : ℕ) (rows : List BRow) : (cumulateFrom s rows).length = rows.length := by
  induction rows generalizing s with
  | nil => rfl
  | cons r rs ih => simp [cumulateFrom, ih]

theorem cumulateFrom_getElem? (s : ℕ) (rows : List BRow) (j : ℕ) :
    (cumulateFrom s rows)[j]? = rows[j]?.map fun r =>
      { r with cum := s + ((rows.take (j + 1)).map BRow.nnz).sum } := by
  induction rows generalizing s j with
  | nil => rfl
  | cons r rs ih =>
    cases j with
    | zero => simp [cumulateFrom, Nat.add_comm]
    | succ j =>
      simp only [cumulateFrom, List.getElem?_cons_succ, ih, List.take_succ_cons, List.map_cons, List.sum_cons]
      congr 1
      funext r'
      congr 1
      omega

/-- The cumulative counts do not decrease. -/
theorem cumOf_ok (cols : List Block) (rows : List BRow) (stop : ℕ) (hs : stop ≤ rows.length) :
    Tasks.CostsOk (cumOf ⟨cols, cumulate rows⟩) stop := by
  have key : ∀ j, j < rows.length →
      cumOf ⟨cols, cumulate rows⟩ j = ((((rows.take (j + 1)).map BRow.nnz).sum : ℕ) : ℤ) := by
    intro j hj
    simp only [cumOf, cumulate, cumulateFrom_getElem?, List.getElem?_eq_getElem hj, Option.map_some,
      Option.getD_some, Nat.zero_add]
  refine ⟨Int.natCast_nonneg _, fun i j hij hj => ?_⟩
  rw [key i (by omega), key j (by omega)]
  have : rows.take (i + 1) = (rows.take (j + 1)).take (i + 1) := by
    rw [List.take_take, Nat.min_eq_left (by omega)]
  rw [this]
  have h2 := List.take_append_drop (i + 1) (rows.take (j + 1))
  conv_rhs => rw [← h2, List.map_append, List.sum_append]
  exact Int.ofNat_le.2 (Nat.le_add_right _ _)

/-! ## The same cells -/

/-- The cells: row block, column block, position of the values. -/
def BS.triples (bs : BS) : List (Block × Block × ℕ) :=
  bs.rows.flatMap fun r => r.cells.map fun c => (r.block, bs.col c.blockId, c.position)

theorem perm_cols (L : List (ℕ × ℕ × Cell)) (n : ℕ) :
    ((List.range n).flatMap fun j => inCol j L).Perm (L.filter fun l => l.2.2.blockId < n) := by
  induction n with
  | zero => simp
  | succ n ih =>
    rw [List.range_succ, List.flatMap_append]
    refine (List.Perm.append_right _ ih).trans ?_
    have h := List.filter_append_perm (fun l : ℕ × ℕ × Cell => decide (l.2.2.blockId < n))
      (L.filter fun l => l.2.2.blockId < n + 1)
    refine List.Perm.trans (List.Perm.of_eq ?_) h
    congr 1
    · rw [List.filter_filter]
      refine List.filter_congr fun l _ => ?_
      by_cases h : l.2.2.blockId < n
      · simp [h]; omega
      · simp [h]
    · simp only [List.flatMap_cons, List.flatMap_nil, List.append_nil, inCol]
      rw [List.filter_filter]
      refine List.filter_congr fun l _ => ?_
      by_cases h : l.2.2.blockId = n
      · simp [h]
      · simp [h]; omega

theorem mem_linksFrom {n : ℕ} {rows : List BRow} {l : ℕ × ℕ × Cell} (h : l ∈ linksFrom n rows) :
    n ≤ l.1 ∧ ∃ r, rows[l.1 - n]? = some r ∧ l.2.1 = r.block.size ∧ l.2.2 ∈ r.cells := by
  induction rows generalizing n with
  | nil => cases h
  | cons r rs ih =>
    rcases List.mem_append.1 h with h | h
    · obtain ⟨c, hc, rfl⟩ := List.mem_map.1 h
      exact ⟨le_rfl, r, by simp, rfl, hc⟩
    · obtain ⟨h1, r', h2, h3⟩ := ih h
      refine ⟨by omega, r', ?_, h3⟩
      have : l.1 - n = l.1 - (n + 1) + 1 := by omega
      rw [this, List.getElem?_cons_succ, h2]

theorem triples_links (bs : BS) : bs.triples =
    bs.links.map fun l => ((bs.rows.map BRow.block).getD l.1 ⟨0, 0⟩, bs.col l.2.2.blockId, l.2.2.position) := by
  have key : ∀ (done rows : List BRow), bs.rows = done ++ rows →
      rows.flatMap (fun r => r.cells.map fun c => (r.block, bs.col c.blockId, c.position)) =
        (linksFrom done.length rows).map fun l =>
          ((bs.rows.map BRow.block).getD l.1 ⟨0, 0⟩, bs.col l.2.2.blockId, l.2.2.position) := by
    intro done rows
    induction rows generalizing done with
    | nil => intro _; rfl
    | cons r rs ih =>
      intro h
      have := ih (done ++ [r]) (by rw [h]; simp)
      rw [List.length_append, List.length_singleton] at this
      rw [List.flatMap_cons, this, linksFrom, List.map_append]
      congr 1
      rw [List.map_map]
      refine List.map_congr_left fun c _ => ?_
      simp [h]
  exact key [] bs.rows rfl

theorem cumulateFrom_flatMap {α : Type} (s : ℕ) (rows : List BRow) (f : Block → List Cell → List α) :
    (cumulateFrom s rows).flatMap (fun r => f r.block r.cells) = rows.flatMap fun r => f r.block r.cells := by
  induction rows generalizing s with
  | nil => rfl
  | cons r rs ih => rw [cumulateFrom, List.flatMap_cons, List.flatMap_cons, ih]

/-- The transposed structure has the same cells. -/
theorem transpose_triples {bs : BS} (h : ∀ row ∈ bs.rows, ∀ cell ∈ row.cells, cell.blockId < bs.cols.length) :
    ((createTranspose bs).triples.map fun t => (t.2.1, t.1, t.2.2)).Perm bs.triples := by
  have h1 : (createTranspose bs).triples =
      (List.range bs.cols.length).flatMap fun j => (inCol j bs.links).map fun l =>
        (bs.col j, (bs.rows.map BRow.block).getD l.1 ⟨0, 0⟩, l.2.2.position) := by
    rw [createTranspose_eq]
    unfold BS.triples
    have hrow : ∀ rows : List BRow, (cumulate rows).flatMap (fun r => r.cells.map fun c =>
        (r.block, (bs.rows.map BRow.block).getD c.blockId ⟨0, 0⟩, c.position)) =
        rows.flatMap fun r => r.cells.map fun c =>
          (r.block, (bs.rows.map BRow.block).getD c.blockId ⟨0, 0⟩, c.position) := by
      intro rows
      exact cumulateFrom_flatMap 0 rows fun b cells => cells.map fun c =>
        (b, (bs.rows.map BRow.block).getD c.blockId ⟨0, 0⟩, c.position)
    refine (hrow _).trans ?_
    have : addLinks bs.links (emptyCols bs.cols) =
        (List.range bs.cols.length).map fun j => addTo1 bs.links j ⟨bs.col j, [], 0, 0⟩ := by
      refine List.ext_getElem? fun j => ?_
      simp only [addLinks, emptyCols, List.getElem?_mapIdx, List.getElem?_map]
      by_cases hj : j < bs.cols.length
      · rw [List.getElem?_eq_getElem hj, List.getElem?_range hj]
        simp [BS.col, List.getD, List.getElem?_eq_getElem hj]
      · rw [List.getElem?_eq_none (by omega), List.getElem?_eq_none (by simp; omega)]
        rfl
    rw [this, List.flatMap_map]
    refine List.flatMap_congr fun j _ => ?_
    simp [addTo1]
  rw [h1, triples_links, List.map_flatMap]
  have h2 : ((List.range bs.cols.length).flatMap fun j => ((inCol j bs.links).map fun l =>
      (bs.col j, (bs.rows.map BRow.block).getD l.1 ⟨0, 0⟩, l.2.2.position)).map fun t => (t.2.1, t.1, t.2.2)) =
      ((List.range bs.cols.length).flatMap fun j => inCol j bs.links).map fun l =>
        ((bs.rows.map BRow.block).getD l.1 ⟨0, 0⟩, bs.col l.2.2.blockId, l.2.2.position) := by
    rw [List.map_flatMap]
    refine List.flatMap_congr fun j _ => ?_
    rw [List.map_map]
    refine List.map_congr_left fun l hl => ?_
    have := of_decide_eq_true (List.mem_filter.1 hl).2
    simp only [Function.comp, this]
  rw [h2]
  refine List.Perm.map _ ((perm_cols bs.links bs.cols.length).trans (List.Perm.of_eq ?_))
  rw [List.filter_eq_self]
  intro l hl
  obtain ⟨-, r, h3, -, h4⟩ := mem_linksFrom hl
  exact decide_eq_true (h r (List.mem_of_getElem? h3) _ h4)

end Ceres.BlockSparse
