import Verif.SchurDirect.SparseStore

/-!
# The compressed row copy of the reduced matrix
-/

noncomputable section

namespace Ceres.SchurDirect

open Ceres.BlockSparse Ceres.InnerProduct Ceres.Direct

/-! ## The transpose is in order -/

theorem filter_nodup {cells : List Cell} (h : (cells.map Cell.blockId).Nodup) (j : ℕ) :
    (cells.filter fun c => c.blockId = j).length ≤ 1 := by
  induction cells with
  | nil => simp
  | cons c cs ih =>
    rw [List.map_cons, List.nodup_cons] at h
    rw [List.filter_cons]
    split_ifs with hc
    · have hc : c.blockId = j := by simpa using hc
      rw [List.filter_eq_nil_iff.2]
      · simp
      · intro d hd he
        have he : d.blockId = j := by simpa using he
        exact h.1 (by rw [hc, ← he]; exact List.mem_map_of_mem hd)
    · exact ih h.2

theorem links_sorted (n : ℕ) (rows : List BRow) (h : ∀ r ∈ rows, (r.cells.map Cell.blockId).Nodup) (j : ℕ) :
    ((inCol j (linksFrom n rows)).map Prod.fst).Pairwise (· < ·) ∧ ∀ l ∈ linksFrom n rows, n ≤ l.1 := by
  induction rows generalizing n with
  | nil => exact ⟨by simp [linksFrom, inCol], by simp [linksFrom]⟩
  | cons r rs ih =>
    obtain ⟨h1, h2⟩ := ih (n + 1) fun r hr => h r (List.mem_cons_of_mem _ hr)
    constructor
    · unfold inCol at h1 ⊢
      rw [linksFrom, List.filter_append, List.map_append, List.pairwise_append]
      refine ⟨?_, h1, ?_⟩
      · rw [List.filter_map, List.map_map]
        have := filter_nodup (h r (by simp)) j
        generalize hL : (r.cells.filter _) = L
        have hL' : L.length ≤ 1 := by
          rw [← hL]
          exact this
        match L, hL' with
        | [], _ => simp
        | [a], _ => simp
      · intro a ha b hb
        obtain ⟨x, hx, rfl⟩ := List.mem_map.1 ha
        obtain ⟨y, hy, rfl⟩ := List.mem_map.1 hb
        have := h2 y (List.mem_of_mem_filter hy)
        obtain ⟨c, -, rfl⟩ := List.mem_map.1 (List.mem_of_mem_filter hx)
        exact this
    · intro l hl
      rw [linksFrom, List.mem_append] at hl
      rcases hl with hl | hl
      · obtain ⟨c, -, rfl⟩ := List.mem_map.1 hl
        exact le_rfl
      · have := h2 l hl
        omega

theorem transpose_sorted {R : BS} (h : CellsSorted R) : CellsSorted (createTranspose R) := by
  intro t ht
  rw [createTranspose_eq] at ht
  simp only at ht
  obtain ⟨j, hj⟩ := List.mem_iff_getElem?.1 ht
  rw [cumulate, cumulateFrom_getElem?, addLinks, List.getElem?_mapIdx, emptyCols, List.getElem?_map] at hj
  cases hc : R.cols[j]? with
  | none => rw [hc] at hj; cases hj
  | some b =>
    rw [hc] at hj
    simp only [Option.map_some, Option.some.injEq] at hj
    rw [← hj]
    simp only [addTo1, List.nil_append, List.map_map]
    exact (links_sorted 0 R.rows (fun r hr => (h r hr).imp fun hlt => Nat.ne_of_lt hlt) j).1

/-! ## Rows in order -/

theorem laid_lt {p : ℕ} {l : List Block} (h : Laid p l) {a b : ℕ} (hab : a < b) {x y : Block} (hx : l[a]? = some x)
    (hy : l[b]? = some y) : x.position + x.size ≤ y.position := by
  rw [laid_pos h hx, laid_pos h hy]
  have e : l.take (a + 1) = l.take a ++ [x] := by
    rw [List.take_add_one, hx]
    rfl
  have hle : ((l.take (a + 1)).map Block.size).sum ≤ ((l.take b).map Block.size).sum := by
    have : l.take (a + 1) = (l.take b).take (a + 1) := by
      rw [List.take_take, min_eq_left (by omega)]
    rw [this, List.map_take]
    exact (List.take_sublist _ _).sum_le_sum fun _ _ => Nat.zero_le _
  rw [e, List.map_append, List.sum_append] at hle
  simp only [List.map_cons, List.map_nil, List.sum_cons, List.sum_nil] at hle
  omega

theorem rowList_sorted {T : BS} (t : Bool) (hc : Laid 0 T.cols) (size i : ℕ) {cells : List Cell}
    (hs : (cells.map Cell.blockId).Pairwise (· < ·)) (hi : ∀ c ∈ cells, c.blockId < T.cols.length) :
    (rowList t T size i cells).Pairwise fun a b => a.1 < b.1 := by
  induction cells with
  | nil => simp [rowList]
  | cons c cs ih =>
    rw [List.map_cons, List.pairwise_cons] at hs
    unfold rowList at ih ⊢
    rw [List.flatMap_cons, List.pairwise_append]
    refine ⟨?_, ih hs.2 fun d hd => hi d (List.mem_cons_of_mem _ hd), ?_⟩
    · rw [List.pairwise_map]
      exact (List.pairwise_lt_range).imp fun h => by simpa using h
    · intro a ha b hb
      obtain ⟨k, hk, rfl⟩ := List.mem_map.1 ha
      obtain ⟨d, hd, hb⟩ := List.mem_flatMap.1 hb
      obtain ⟨k', -, rfl⟩ := List.mem_map.1 hb
      have := laid_lt hc (hs.1 d.blockId (List.mem_map_of_mem hd)) (col_getElem (hi c (by simp)))
        (col_getElem (hi d (List.mem_cons_of_mem _ hd)))
      have hk := List.mem_range.1 hk
      simp only
      omega

theorem rowLists_sorted {T : BS} (t : Bool) (hc : Laid 0 T.cols) (hs : CellsSorted T)
    (hi : ∀ r ∈ T.rows, ∀ c ∈ r.cells, c.blockId < T.cols.length) :
    ∀ l ∈ rowLists t T T.rows, l.Pairwise fun a b => a.1 < b.1 := by
  intro l hl
  unfold rowLists at hl
  obtain ⟨r, hr, hl⟩ := List.mem_flatMap.1 hl
  obtain ⟨i, -, rfl⟩ := List.mem_map.1 hl
  exact rowList_sorted t hc _ _ (hs r hr) (hi r hr)

/-! ## The copy -/

/-- The structure that is read. -/
def sideOf (upper : Bool) (R : BS) : BS := if upper then R else createTranspose R

/-- `A` is a compressed row copy of a square matrix of structure `R` with the values `v`. -/
structure CrsOf (upper : Bool) (R : BS) (n : ℕ) (A : Sparse.Mat ℝ) (v : Vec) : Prop where
  storage : A.storage = if upper then .upper else .lower
  numRows : A.numRows = n
  numCols : A.numCols = n
  stores : Stores A (rowLists (!upper) (sideOf upper R) (sideOf upper R).rows) v

/-- What is asked of a matrix to be copied. -/
structure Square (R : BS) (n : ℕ) : Prop where
  ok : ∀ v : Vec, (BMat.ofStructure R v).Ok
  rows : (R.rows.map fun r => r.block.size).sum = n
  cols : (R.cols.map Block.size).sum = n
  sorted : CellsSorted R
  sizes : ∀ row ∈ R.rows, ∀ cell ∈ row.cells, (R.col cell.blockId).size ≠ 0

variable {upper : Bool} {R : BS} {n : ℕ}

theorem update_stores {t : Bool} {T : BS} {A : Sparse.Mat ℝ} {v v' : Vec} (hs : Stores A (rowLists t T T.rows) v) :
    Stores { A with values := updateRows t T v' A.rows T.rows 0 0 A.values } (rowLists t T T.rows) v' := by
  refine ⟨hs.numRows, hs.rows, hs.cols, fun q hq => ?_⟩
  show updateRows t T v' A.rows T.rows 0 0 _ q = _
  rw [updateRows_eq _ _ _ _ _ _ _ _ _ (by
    intro k l hk
    obtain ⟨hlt, -⟩ := List.getElem?_eq_some_iff.1 hk
    rw [Nat.zero_add, hs.rows k (by omega), hs.rows (k + 1) (by omega), take_sum_succ _ _ hlt,
      List.getD_eq_getElem?_getD, hk, Option.getD_some, Nat.add_sub_cancel_left])]
  rw [if_pos ⟨Nat.zero_le _, by simpa using hq⟩, Nat.sub_zero]

theorem transpose_sum (h : Square R n) : n = ((createTranspose R).rows.map fun r => r.block.size).sum := by
  have := congrArg (fun l => (l.map Block.size).sum) (tbs_blocks (h.ok fun _ => 0))
  simp only [List.map_map] at this
  rw [← h.cols]
  exact this.symm

theorem transpose_sizes (h : Square R n) : ∀ t ∈ (createTranspose R).rows, t.cells ≠ [] → t.block.size ≠ 0 := by
  intro t ht hc
  obtain ⟨r, hr, c, hcm, e⟩ := tbs_cells_of_col (h.ok fun _ => 0) ht hc
  rw [← e]
  exact h.sizes r hr c hcm

theorem transpose_total {M : BMat ℝ} (h : M.Ok) :
    (rowLists true M.tbs M.tbs.rows).flatten.length = M.nnz := by
  rw [flatten_total, nnz_eq h, ← slots_length, slots_triples, ← slots_length M.bs, slots_triples]
  have hlen : ∀ L : List (Block × Block × ℕ),
      (slotsOf L).length = (L.map fun t => t.1.size * t.2.1.size).sum := by
    intro L
    unfold slotsOf
    rw [List.length_flatMap]
    simp
  rw [hlen, hlen, ← ((transpose_triples h.bs.ids).map fun t => t.1.size * t.2.1.size).sum_eq, List.map_map, h.tbs]
  congr 1
  refine List.map_congr_left fun t _ => ?_
  simp only [Function.comp_apply]
  exact Nat.mul_comm _ _

/-- The copy is made, or its values are replaced. -/
theorem theCrs_spec (h : Square R n) {crs : Option (Sparse.Mat ℝ)}
    (hcrs : ∀ A, crs = some A → ∃ v, CrsOf upper R n A v) (v old : Vec) :
    ∃ A, theCrs upper crs (BMat.ofStructure R v) old = some A ∧ CrsOf upper R n A v := by
  have hok := h.ok v
  have hr : (BMat.ofStructure R v).numRows = n := h.rows
  have hc : (BMat.ofStructure R v).numCols = n := h.cols
  cases crs with
  | none =>
    cases upper with
    | true =>
      have hs : Stores ((BMat.ofStructure R v).toCrs old) (rowLists false R R.rows) v :=
        toCrs_stores (counted_false _ _) hok.numRows _ _ _
      exact ⟨_, rfl, rfl, hr, hc, hs.numRows, hs.rows, hs.cols, hs.values⟩
    | false =>
      have hs : Stores (toCrs true (BMat.ofStructure R v).numCols (BMat.ofStructure R v).numRows (createTranspose R) v
          old) (rowLists true (createTranspose R) (createTranspose R).rows) v :=
        toCrs_stores (counted_true hok (transpose_sizes h)) (hc.trans (transpose_sum h)) _ _ _
      have e : (BMat.ofStructure R v).toCrsTranspose old = some (toCrs true (BMat.ofStructure R v).numCols
          (BMat.ofStructure R v).numRows (createTranspose R) v old) := by
        unfold BMat.toCrsTranspose
        refine if_neg ?_
        rintro ⟨t, ht, hc, h0⟩
        exact transpose_sizes h t ht hc h0
      refine ⟨{ toCrs true (BMat.ofStructure R v).numCols (BMat.ofStructure R v).numRows (createTranspose R) v old with
        storage := .lower }, ?_, rfl, hc, hr, hs.numRows, hs.rows, hs.cols, hs.values⟩
      unfold theCrs
      simp only [Bool.false_eq_true, if_false]
      rw [e]
      rfl
  | some A =>
    obtain ⟨v0, hA⟩ := hcrs A rfl
    have hs := update_stores (v' := v) hA.stores
    cases upper with
    | true =>
      refine ⟨_, if_pos ⟨by rw [hA.numRows, hr], by rw [hA.numCols, hc], ?_⟩, hA.storage, hA.numRows, hA.numCols, hs⟩
      rw [hA.stores.nnz, nnz_eq hok]
      exact flatten_total _ _ _
    | false =>
      refine ⟨_, if_pos ⟨by rw [hA.numRows, hc], by rw [hA.numCols, hr], ?_⟩, hA.storage, hA.numRows, hA.numCols, hs⟩
      have hn := transpose_total hok
      rw [hA.stores.nnz, ← hn]
      simp only [sideOf, Bool.not_false, Bool.false_eq_true, if_false, BMat.ofStructure]

theorem side_cols (h : Square R n) : Laid 0 (sideOf upper R).cols := by
  have hok := h.ok fun _ => 0
  cases upper with
  | true => exact hok.bs.cols
  | false =>
    have e : (createTranspose R).cols = R.rows.map BRow.block := by rw [createTranspose_eq]
    show Laid 0 (createTranspose R).cols
    rw [e]
    exact hok.bs.rows

theorem side_rows (h : Square R n) : Laid 0 ((sideOf upper R).rows.map BRow.block) := by
  have hok := h.ok fun _ => 0
  cases upper with
  | true => exact hok.bs.rows
  | false =>
    show Laid 0 ((createTranspose R).rows.map BRow.block)
    rw [show (createTranspose R).rows.map BRow.block = R.cols from tbs_blocks hok]
    exact hok.bs.cols

theorem side_sorted (h : Square R n) : CellsSorted (sideOf upper R) := by
  cases upper with
  | true => exact h.sorted
  | false => exact transpose_sorted h.sorted

theorem side_ids (h : Square R n) :
    ∀ r ∈ (sideOf upper R).rows, ∀ c ∈ r.cells, c.blockId < (sideOf upper R).cols.length := by
  have hok := h.ok fun _ => 0
  cases upper with
  | true => exact hok.bs.ids
  | false =>
    intro t ht c hc
    change t ∈ (createTranspose R).rows at ht
    show c.blockId < (createTranspose R).cols.length
    rw [createTranspose_eq] at ht ⊢
    simp only at ht ⊢
    obtain ⟨j, hj⟩ := List.mem_iff_getElem?.1 ht
    rw [cumulate, cumulateFrom_getElem?, addLinks, List.getElem?_mapIdx, emptyCols, List.getElem?_map] at hj
    cases hb : R.cols[j]? with
    | none => rw [hb] at hj; cases hj
    | some b =>
      rw [hb] at hj
      simp only [Option.map_some, Option.some.injEq] at hj
      rw [← hj] at hc
      simp only [addTo1, List.nil_append] at hc
      obtain ⟨l, hl, rfl⟩ := List.mem_map.1 hc
      obtain ⟨-, r, hr, -⟩ := mem_linksFrom (List.mem_of_mem_filter hl)
      rw [Nat.sub_zero] at hr
      obtain ⟨hlt, -⟩ := List.getElem?_eq_some_iff.1 hr
      simpa using hlt

/-- The copy may be given to the factorisation. -/
theorem crs_input (h : Square R n) {A : Sparse.Mat ℝ} {v : Vec} (hA : CrsOf upper R n A v) : Input upper A where
  wf := by
    refine hA.stores.wf fun e he => ?_
    obtain ⟨r, hr, c, hc, h1, -⟩ := mem_rowLists he
    have hm : (sideOf upper R).col c.blockId ∈ (sideOf upper R).cols := col_mem (side_ids h r hr c hc)
    have hb := (laid_bounds (side_cols h) hm).2
    rw [hA.numCols]
    have hn : ((sideOf upper R).cols.map Block.size).sum = n := by
      cases upper with
      | true => exact h.cols
      | false =>
        show ((createTranspose R).cols.map Block.size).sum = n
        rw [createTranspose_eq, List.map_map]
        exact h.rows
    omega
  square := hA.numRows.trans hA.numCols.symm
  storage := hA.storage
  sorted := by
    intro r hr
    rw [hA.stores.numRows] at hr
    rw [hA.stores.row hr, List.pairwise_map]
    have hm : (rowLists (!upper) (sideOf upper R) (sideOf upper R).rows).getD r [] ∈
        rowLists (!upper) (sideOf upper R) (sideOf upper R).rows := by
      rw [List.getD_eq_getElem?_getD, List.getElem?_eq_getElem hr]
      exact List.getElem_mem hr
    exact (rowLists_sorted _ (side_cols h) (side_sorted h) (side_ids h) _ hm).imp fun h => le_of_lt h

/-- Copies of matrices of one structure have the same sparsity. -/
theorem crs_pattern {A B : Sparse.Mat ℝ} {v w : Vec} (hA : CrsOf upper R n A v) (hB : CrsOf upper R n B w) :
    SamePattern A B := by
  refine ⟨hA.numRows.trans hB.numRows.symm, hA.numCols.trans hB.numCols.symm, fun r hr => ?_, fun i hi => ?_⟩
  · rw [hA.stores.numRows] at hr
    rw [hA.stores.rows r hr, hB.stores.rows r hr]
  · rw [hA.stores.nnz] at hi
    rw [hA.stores.cols i hi, hB.stores.cols i hi]

/-- The symmetric matrix that the copy stands for. -/
theorem crs_sym (h : Square R n) {A : Sparse.Mat ℝ} {v : Vec} (hA : CrsOf upper R n A v) {p q : ℕ} (hp : p < n)
    (hq : q < n) : A.sym p q = if p ≤ q then R.entry v p q else R.entry v q p := by
  have he : ∀ {r : ℕ}, r < n → ∀ c, A.entry r c = entryT (!upper) (sideOf upper R) (sideOf upper R).rows v r c :=
    fun hr c => hA.stores.entry (side_rows h) (by rw [hA.numRows]; exact hr) c
  unfold Sparse.Mat.sym
  rw [hA.storage]
  cases upper with
  | true =>
    simp only [if_true]
    rw [he hp, he hq]
    rfl
  | false =>
    simp only [Bool.false_eq_true, if_false]
    rw [he hp, he hq]
    have e : ∀ r c, entryT (!false) (sideOf false R) (sideOf false R).rows v c r = R.entry v r c :=
      fun r c => entryT_true (h.ok v) v r c
    rw [e, e]
    split_ifs with h1 h2 h2
    · obtain rfl : p = q := by omega
      rfl
    · rfl
    · rfl
    · omega

end Ceres.SchurDirect
