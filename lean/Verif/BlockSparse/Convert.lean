import Verif.BlockSparse.Delete
import Verif.BlockSparse.Races

/-!
# Conversion to dense, triplet and compressed row matrices
-/
namespace Ceres.BlockSparse

variable {K : Type} [CommRing K]

/-! ## Dense matrices -/

/-- **`ToDenseMatrix`**: the entries of the matrix. -/
theorem toDense_eq (M : BMat K) (r c : ℕ) : M.toDense (r, c) = M.entry r c := by
  have hcells : ∀ (row : Block) (cells : List Cell) (d : ℕ × ℕ → K),
      cells.foldl (fun d cell rc =>
        if row.position ≤ rc.1 ∧ rc.1 < row.position + row.size ∧ (M.bs.col cell.blockId).position ≤ rc.2 ∧
            rc.2 < (M.bs.col cell.blockId).position + (M.bs.col cell.blockId).size then
          d rc + M.values (cell.position + (rc.1 - row.position) * (M.bs.col cell.blockId).size +
            (rc.2 - (M.bs.col cell.blockId).position))
        else d rc) d (r, c) =
      d (r, c) + (cells.map fun cell => cellAt row (M.bs.col cell.blockId) cell.position M.values r c).sum := by
    intro row cells
    induction cells with
    | nil => intro d; simp
    | cons cell cells ih =>
      intro d
      rw [List.foldl_cons, ih, List.map_cons, List.sum_cons, ← add_assoc]
      congr 1
      unfold cellAt
      by_cases hin : row.position ≤ r ∧ r < row.position + row.size ∧ (M.bs.col cell.blockId).position ≤ c ∧
          c < (M.bs.col cell.blockId).position + (M.bs.col cell.blockId).size
      · simp only [if_pos hin]
      · simp only [if_neg hin, add_zero]
  have hrows : ∀ (rows : List BRow) (d : ℕ × ℕ → K),
      rows.foldl (fun d row => row.cells.foldl (fun d cell rc =>
        if row.block.position ≤ rc.1 ∧ rc.1 < row.block.position + row.block.size ∧
            (M.bs.col cell.blockId).position ≤ rc.2 ∧
            rc.2 < (M.bs.col cell.blockId).position + (M.bs.col cell.blockId).size then
          d rc + M.values (cell.position + (rc.1 - row.block.position) * (M.bs.col cell.blockId).size +
            (rc.2 - (M.bs.col cell.blockId).position))
        else d rc) d) d (r, c) =
      d (r, c) + (rows.map fun row => (row.cells.map fun cell =>
        cellAt row.block (M.bs.col cell.blockId) cell.position M.values r c).sum).sum := by
    intro rows
    induction rows with
    | nil => intro d; simp
    | cons row rows ih =>
      intro d
      rw [List.foldl_cons, ih, hcells, List.map_cons, List.sum_cons, add_assoc]
  refine (hrows M.bs.rows fun _ => 0).trans ?_
  rw [zero_add]
  rfl

/-! ## Triplets -/

theorem foldl_update_perm {α β : Type} (key : α → ℕ) (f : α → β) (l : List α) (hnd : (l.map key).Nodup)
    (a : ℕ → β) {e : α} (he : e ∈ l) : l.foldl (fun a e => Function.update a (key e) (f e)) a (key e) = f e := by
  induction l generalizing a with
  | nil => cases he
  | cons x l ih =>
    rw [List.map_cons, List.nodup_cons] at hnd
    rw [List.foldl_cons]
    by_cases hl : e ∈ l
    · exact ih hnd.2 _ hl
    · rcases List.mem_cons.1 he with rfl | he
      · have hout : ∀ (l : List α) (a : ℕ → β), key e ∉ l.map key →
            l.foldl (fun a e => Function.update a (key e) (f e)) a (key e) = a (key e) := by
          intro l
          induction l with
          | nil => intro a _; rfl
          | cons y l ih =>
            intro a hy
            rw [List.map_cons, List.mem_cons, not_or] at hy
            rw [List.foldl_cons, ih _ hy.2, Function.update_of_ne hy.1]
        rw [hout _ _ hnd.1, Function.update_self]
      · exact absurd he hl

theorem elements_slots (bs : BS) : bs.elements.map (fun e => e.1) = bs.slots := by
  unfold BS.elements BS.slots
  rw [List.map_flatMap]
  refine List.flatMap_congr fun r _ => ?_
  rw [List.map_flatMap]
  refine List.flatMap_congr fun c _ => ?_
  rw [← cell_positions, List.map_flatMap]
  refine List.flatMap_congr fun i _ => ?_
  rw [List.map_map]
  rfl

theorem sum_range_shift (a n r : ℕ) (f : ℕ → K) :
    ((List.range n).map fun i => if a + i = r then f i else 0).sum =
      if a ≤ r ∧ r < a + n then f (r - a) else 0 := by
  induction n with
  | zero => rw [if_neg (by omega)]; rfl
  | succ n ih =>
    rw [List.range_succ, List.map_append, List.sum_append, ih]
    simp only [List.map_cons, List.map_nil, List.sum_cons, List.sum_nil, add_zero]
    by_cases h : a + n = r
    · subst h
      rw [if_neg (by omega), if_pos rfl, if_pos ⟨by omega, by omega⟩, zero_add, Nat.add_sub_cancel_left]
    · rw [if_neg h, add_zero]
      by_cases h1 : a ≤ r ∧ r < a + n
      · rw [if_pos h1, if_pos ⟨h1.1, by omega⟩]
      · rw [if_neg h1, if_neg (by omega)]

theorem cell_sum (row col : Block) (pos : ℕ) (v : ℕ → K) (r c : ℕ) :
    ((List.range row.size).map fun i => ((List.range col.size).map fun j =>
      if row.position + i = r ∧ col.position + j = c then v (pos + i * col.size + j) else 0).sum).sum =
      cellAt row col pos v r c := by
  have h1 : ∀ i, ((List.range col.size).map fun j =>
      if row.position + i = r ∧ col.position + j = c then v (pos + i * col.size + j) else 0).sum =
      if row.position + i = r then
        (if col.position ≤ c ∧ c < col.position + col.size then v (pos + i * col.size + (c - col.position)) else 0)
      else 0 := by
    intro i
    by_cases hi : row.position + i = r
    · simp only [hi, true_and, if_true]
      exact sum_range_shift col.position col.size c fun j => v (pos + i * col.size + j)
    · simp only [hi, false_and, if_false]
      simp
  simp only [h1]
  rw [sum_range_shift row.position row.size r fun i =>
    if col.position ≤ c ∧ c < col.position + col.size then v (pos + i * col.size + (c - col.position)) else 0]
  unfold cellAt
  by_cases h2 : row.position ≤ r ∧ r < row.position + row.size
  · by_cases h3 : col.position ≤ c ∧ c < col.position + col.size
    · rw [if_pos h2, if_pos h3, if_pos ⟨h2.1, h2.2, h3⟩]
    · rw [if_pos h2, if_neg h3, if_neg fun h => h3 h.2.2]
  · rw [if_neg h2, if_neg fun h => h2 ⟨h.1, h.2.1⟩]

/-- **`ToTripletSparseMatrix`**: the same matrix, in range, whatever was in the triplets before. -/
theorem toTriplet_eq {M : BMat K} (h : M.Ok) (old : Sparse.Triplet K) :
    (M.toTriplet old).WF ∧ (M.toTriplet old).num = M.nnz ∧ (M.toTriplet old).numRows = M.numRows ∧
    (M.toTriplet old).numCols = M.numCols ∧ ∀ r c, (M.toTriplet old).entry r c = M.entry r c := by
  have hnd : (M.bs.elements.map fun e => e.1).Nodup := by
    rw [elements_slots]
    exact h.bs.slots.nodup_iff.2 List.nodup_range
  have hperm : (M.bs.elements.map fun e => e.1).Perm (List.range M.nnz) := by
    rw [elements_slots]
    exact h.bs.slots
  have hrow : ∀ e ∈ M.bs.elements, (M.toTriplet old).rows e.1 = e.2.1 :=
    fun e he => foldl_update_perm (fun e : ℕ × ℕ × ℕ => e.1) (fun e : ℕ × ℕ × ℕ => e.2.1) _ hnd _ he
  have hcol : ∀ e ∈ M.bs.elements, (M.toTriplet old).cols e.1 = e.2.2 :=
    fun e he => foldl_update_perm (fun e : ℕ × ℕ × ℕ => e.1) (fun e : ℕ × ℕ × ℕ => e.2.2) _ hnd _ he
  have hval : ∀ e ∈ M.bs.elements, (M.toTriplet old).values e.1 = M.values e.1 :=
    fun e he => foldl_update_perm (fun e : ℕ × ℕ × ℕ => e.1) (fun e : ℕ × ℕ × ℕ => M.values e.1) _ hnd _ he
  refine ⟨?_, rfl, rfl, rfl, ?_⟩
  · intro i hi
    have hi' : i ∈ M.bs.elements.map fun e => e.1 := hperm.mem_iff.2 (List.mem_range.2 hi)
    obtain ⟨e, he, rfl⟩ := List.mem_map.1 hi'
    rw [hrow e he, hcol e he]
    unfold BS.elements at he
    simp only [List.mem_flatMap, List.mem_map, List.mem_range] at he
    obtain ⟨row, hr, cell, hc, a, ha, b, hb, rfl⟩ := he
    have hok := cell_ok h (mem_triples_iff.2 ⟨row, hr, cell, hc, rfl⟩)
    have h1 := hok.row
    have h2 := hok.col
    simp only at h1 h2 ⊢
    show _ < M.numRows ∧ _ < M.numCols
    omega
  · intro r c
    unfold Sparse.Triplet.entry Sparse.tripleSum Sparse.Triplet.triples
    rw [List.map_map]
    have hp := hperm.map ((fun e : ℕ × ℕ × K => if e.1 = r ∧ e.2.1 = c then e.2.2 else 0) ∘ fun i =>
      ((M.toTriplet old).rows i, (M.toTriplet old).cols i, (M.toTriplet old).values i))
    refine hp.sum_eq.symm.trans ?_
    rw [List.map_map]
    have hel : M.bs.elements.map (((fun e : ℕ × ℕ × K => if e.1 = r ∧ e.2.1 = c then e.2.2 else 0) ∘ fun i =>
        ((M.toTriplet old).rows i, (M.toTriplet old).cols i, (M.toTriplet old).values i)) ∘ fun e => e.1) =
        M.bs.elements.map fun e => if e.2.1 = r ∧ e.2.2 = c then M.values e.1 else 0 := by
      refine List.map_congr_left fun e he => ?_
      simp only [Function.comp_apply]
      rw [hrow e he, hcol e he, hval e he]
    rw [hel]
    unfold BS.elements BMat.entry BS.entry
    rw [Sparse.sum_flatMap]
    congr 1
    refine List.map_congr_left fun row _ => ?_
    rw [Sparse.sum_flatMap]
    congr 1
    refine List.map_congr_left fun cell _ => ?_
    rw [Sparse.sum_flatMap, ← cell_sum]
    congr 1
    refine List.map_congr_left fun i _ => ?_
    rw [List.map_map]
    rfl

end Ceres.BlockSparse
