import Verif.SchurJacobi.Props

/-!
# The product with the stored upper triangle
-/

noncomputable section

namespace Ceres.SchurJacobi

open Matrix Ceres.BlockSparse Ceres.InnerProduct Ceres.Direct Ceres.Schur Ceres.SchurDirect Ceres.SchurMatrix

variable {bs : BS} {ne : ℕ}

/-! ## Cells -/

theorem window_sum {n a s : ℕ} (h : a + s ≤ n) (f : ℕ → ℝ) :
    ∑ j ∈ Finset.range s, f (a + j) = ∑ q ∈ Finset.range n, if a ≤ q ∧ q < a + s then f q else 0 := by
  rw [← Finset.sum_filter]
  have e : (Finset.range n).filter (fun q => a ≤ q ∧ q < a + s) = Finset.Ico a (a + s) := by
    ext q
    simp only [Finset.mem_filter, Finset.mem_range, Finset.mem_Ico]
    omega
  rw [e, Finset.sum_Ico_eq_sum_range]
  simp

theorem addProduct_eq (values : Vec) (pos : ℕ) (row col : Block) {n : ℕ} (h : col.position + col.size ≤ n) (x y : Vec)
    (p : ℕ) : addProduct values pos row.size col.size col.position row.position x y p =
      y p + ∑ q ∈ Finset.range n, cellAt row col pos values p q * x q := by
  unfold addProduct cellAt
  split_ifs with hp
  · have := window_sum h fun q => values (pos + (p - row.position) * col.size + (q - col.position)) * x q
    simp only [Nat.add_sub_cancel_left] at this
    rw [this]
    congr 1
    refine Finset.sum_congr rfl fun q _ => ?_
    by_cases hq : col.position ≤ q ∧ q < col.position + col.size
    · rw [if_pos hq, if_pos ⟨hp.1, hp.2, hq⟩]
    · rw [if_neg hq, if_neg fun h => hq h.2.2, zero_mul]
  · rw [Finset.sum_eq_zero, add_zero]
    intro q _
    rw [if_neg fun h => hp ⟨h.1, h.2.1⟩, zero_mul]

theorem addProductTranspose_eq (values : Vec) (pos : ℕ) (row col : Block) {n : ℕ} (h : row.position + row.size ≤ n)
    (x y : Vec) (p : ℕ) : addProductTranspose values pos row.size col.size row.position col.position x y p =
      y p + ∑ q ∈ Finset.range n, cellAt row col pos values q p * x q := by
  unfold addProductTranspose cellAt
  split_ifs with hp
  · have := window_sum h fun q => values (pos + (q - row.position) * col.size + (p - col.position)) * x q
    simp only [Nat.add_sub_cancel_left] at this
    rw [this]
    congr 1
    refine Finset.sum_congr rfl fun q _ => ?_
    by_cases hq : row.position ≤ q ∧ q < row.position + row.size
    · rw [if_pos hq, if_pos ⟨hq.1, hq.2, hp⟩]
    · rw [if_neg hq, if_neg fun h => hq ⟨h.1, h.2.1⟩, zero_mul]
  · rw [Finset.sum_eq_zero, add_zero]
    intro q _
    rw [if_neg fun h => hp ⟨h.2.2.1, h.2.2.2⟩, zero_mul]

/-- What a cell contributes. -/
def cellTerm (blocks : List Block) (values : Vec) (id : ℕ) (row : Block) (c : Cell) (p q : ℕ) : ℝ :=
  cellAt row (blockAt blocks c.blockId) c.position values p q +
    if c.blockId = id then 0 else cellAt row (blockAt blocks c.blockId) c.position values q p

theorem symmetricCell_eq (blocks : List Block) (values : Vec) (id : ℕ) (row : Block) (c : Cell) {n : ℕ}
    (hr : row.position + row.size ≤ n) (hc : (blockAt blocks c.blockId).position + (blockAt blocks c.blockId).size ≤ n)
    (x y : Vec) (p : ℕ) : symmetricCell blocks values x id row y c p =
      y p + ∑ q ∈ Finset.range n, cellTerm blocks values id row c p q * x q := by
  unfold symmetricCell cellTerm
  split_ifs with h
  · rw [addProduct_eq _ _ _ _ hc]
    simp
  · rw [addProductTranspose_eq _ _ _ _ hr, addProduct_eq _ _ _ _ hc, add_assoc, ← Finset.sum_add_distrib]
    congr 1
    refine Finset.sum_congr rfl fun q _ => ?_
    ring

theorem fold_add {α : Type} {n : ℕ} (f : Vec → α → Vec) (g : α → ℕ → ℕ → ℝ) (x : Vec) (l : List α)
    (h : ∀ a ∈ l, ∀ y p, f y a p = y p + ∑ q ∈ Finset.range n, g a p q * x q) (y : Vec) (p : ℕ) :
    l.foldl f y p = y p + ∑ q ∈ Finset.range n, (l.map fun a => g a p q).sum * x q := by
  induction l generalizing y with
  | nil => simp
  | cons a l ih =>
    rw [List.foldl_cons, ih fun b hb => h b (List.mem_cons_of_mem _ hb), h a (by simp), add_assoc,
      ← Finset.sum_add_distrib]
    congr 1
    refine Finset.sum_congr rfl fun q _ => ?_
    rw [List.map_cons, List.sum_cons]
    ring

theorem symmetricMultiply_eq (blocks : List Block) (R : BS) (values : Vec) {n : ℕ}
    (hr : ∀ r ∈ R.rows, r.block.position + r.block.size ≤ n)
    (hc : ∀ r ∈ R.rows, ∀ c ∈ r.cells, (blockAt blocks c.blockId).position + (blockAt blocks c.blockId).size ≤ n)
    (x y : Vec) (p : ℕ) : symmetricMultiply blocks R values x y p =
      y p + ∑ q ∈ Finset.range n,
        (R.rows.zipIdx.map fun r => (r.1.cells.map fun c => cellTerm blocks values r.2 r.1.block c p q).sum).sum * x q := by
  unfold symmetricMultiply
  refine fold_add _ (fun (r : BRow × ℕ) p q => (r.1.cells.map fun c => cellTerm blocks values r.2 r.1.block c p q).sum) x _ ?_ y p
  intro r hr' y p
  have hm : r.1 ∈ R.rows := by
    have := List.mem_map_of_mem (f := Prod.fst) hr'
    rwa [List.zipIdx_map_fst] at this
  refine fold_add _ (fun c p q => cellTerm blocks values r.2 r.1.block c p q) x _ ?_ y p
  intro c hc' y p
  exact symmetricCell_eq blocks values r.2 r.1.block c (hr _ hm) (hc _ hm _ hc') x y p

/-! ## The pairs are those of the upper triangle -/

theorem upperPairs_lt {l : List ℕ} (hl : l.Pairwise (· < ·)) {p : ℕ × ℕ} (h : p ∈ upperPairs l) : p.1 < p.2 := by
  induction l with
  | nil => cases h
  | cons a l ih =>
    rw [List.pairwise_cons] at hl
    rw [upperPairs, List.mem_append] at h
    rcases h with h | h
    · obtain ⟨b, hb, rfl⟩ := List.mem_map.1 h
      exact hl.1 b hb
    · exact ih hl.2 h

theorem blockPairs_le {sz : ℕ → ℕ} {nb : ℕ} {rows : List (Row sz)} {p : ℕ × ℕ} (h : p ∈ blockPairs ne nb rows) :
    p.1 ≤ p.2 := by
  unfold blockPairs at h
  rw [List.mem_append, List.mem_append] at h
  rcases h with (h | h) | h
  · obtain ⟨b, -, rfl⟩ := List.mem_map.1 h
    exact le_rfl
  · obtain ⟨ch, -, h⟩ := List.mem_flatMap.1 h
    exact (upperPairs_lt (bufferKeys_spec ch.2).1 h).le
  · obtain ⟨r, -, h⟩ := List.mem_flatMap.1 h
    obtain ⟨c, -, h⟩ := List.mem_flatMap.1 h
    obtain ⟨d, hd, rfl⟩ := List.mem_map.1 h
    simpa using (List.mem_filter.1 hd).2

theorem pairSet_le {p : ℕ × ℕ} (h : p ∈ pairSet bs ne) : p.1 ≤ p.2 := by
  obtain ⟨q, hq, rfl⟩ := mem_pairSet.1 h
  have := blockPairs_le hq
  simp only
  omega

theorem sparse_lower {x y : ℕ} (hx : ne ≤ x) (hx' : x < bs.cols.length) (hy : ne ≤ y) (h : y < x) :
    (sparseStorage bs ne).cell (x - ne) (y - ne) = none := by
  cases hc : (sparseStorage bs ne).cell (x - ne) (y - ne) with
  | none => rfl
  | some c =>
    have : (sparseStorage bs ne).has ne x y = true := by
      unfold Storage.has
      rw [hc]
      simp [hx, hy]
    have := pairSet_le ((sparse_has hx hx' hy).1 this)
    simp only at this
    omega

/-! ## The product -/

theorem zip_sum (R : BS) (g : BRow → ℕ → ℝ) (f : BRow → ℝ) (h : ∀ k r, R.rows[k]? = some r → g r k = f r) :
    (R.rows.zipIdx.map fun r => g r.1 r.2).sum = (R.rows.map f).sum := by
  have : (R.rows.zipIdx.map fun r => g r.1 r.2) = R.rows.zipIdx.map fun r => f r.1 := by
    refine List.map_congr_left fun r hr => ?_
    obtain ⟨a, k⟩ := r
    exact h k a (List.mem_zipIdx_iff_getElem?.1 hr)
  rw [this]
  have e : (R.rows.zipIdx.map fun r => f r.1) = (R.rows.zipIdx.map Prod.fst).map f := by
    rw [List.map_map]
    rfl
  rw [e, List.zipIdx_map_fst]

/-- The coefficient of `x q` in element `p`. -/
theorem coefficient {call : Call} (hf : Fits ne bs call) (v : Vec) {p q : ℕ} (hp : p < fCols bs ne) (hq : q < fCols bs ne) :
    ((reducedStructure bs ne).rows.zipIdx.map fun r =>
      (r.1.cells.map fun c => cellTerm (tail bs.cols ne) v r.2 r.1.block c p q).sum).sum =
    (reducedStructure bs ne).entry v p q +
      if blockOf (tail bs.cols ne) p = blockOf (tail bs.cols ne) q then 0 else (reducedStructure bs ne).entry v q p := by
  rw [zip_sum (reducedStructure bs ne) (fun r k => (r.cells.map fun c => cellTerm (tail bs.cols ne) v k r.block c p q).sum)
    fun r => (r.cells.map fun c => cellAt r.block (blockAt (tail bs.cols ne) c.blockId) c.position v p q +
      if blockOf (tail bs.cols ne) p = blockOf (tail bs.cols ne) q then 0 else
        cellAt r.block (blockAt (tail bs.cols ne) c.blockId) c.position v q p).sum]
  · unfold BS.entry
    split_ifs with h
    · simp only [add_zero]
      rfl
    · simp only [List.sum_map_add]
      rfl
  · intro k r hk
    congr 1
    refine List.map_congr_left fun c hc => ?_
    unfold cellTerm
    congr 1
    have hb := reduced_block hk
    have hlt : c.blockId < (tail bs.cols ne).length :=
      (reduced_ok hf v).bs.ids r (List.mem_of_getElem? hk) c hc
    have hcb : (tail bs.cols ne)[c.blockId]? = some (blockAt (tail bs.cols ne) c.blockId) := by
      unfold blockAt
      rw [List.getD_eq_getElem?_getD, List.getElem?_eq_getElem hlt]
      rfl
    have key : cellAt r.block (blockAt (tail bs.cols ne) c.blockId) c.position v q p ≠ 0 →
        blockOf (tail bs.cols ne) q = k ∧ blockOf (tail bs.cols ne) p = c.blockId := by
      intro h
      unfold cellAt at h
      split_ifs at h with h'
      · exact ⟨blockOf_eq (tail_laid bs ne) hb h'.1 h'.2.1, blockOf_eq (tail_laid bs ne) hcb h'.2.2.1 h'.2.2.2⟩
      · exact absurd rfl h
    by_cases h0 : cellAt r.block (blockAt (tail bs.cols ne) c.blockId) c.position v q p = 0
    · rw [h0]
      simp
    · obtain ⟨h1, h2⟩ := key h0
      rw [h1, h2]

/-- **The product is that of the symmetric matrix of which the upper triangle is stored.** -/
theorem symmetricMultiply_spec {call : Call} (hf : Fits ne bs call) {v : Vec} {H : Buf}
    (hs : ∀ p < fCols bs ne, ∀ q < fCols bs ne, H p q = H q p)
    (hH : ∀ x y, ne ≤ x → x ≤ y → y < bs.cols.length → ∀ i < szOf bs x, ∀ j < szOf bs y,
      H (fPos bs ne x + i) (fPos bs ne y + j) =
        ((sparseStorage bs ne).cell (x - ne) (y - ne)).elim 0 fun c => v (c.address i j)) (x y : Vec) {p : ℕ}
    (hp : p < fCols bs ne) :
    symmetricMultiply (tail bs.cols ne) (reducedStructure bs ne) v x y p =
      y p + ∑ q ∈ Finset.range (fCols bs ne), H p q * x q := by
  have hok := reduced_ok hf v
  rw [symmetricMultiply_eq (n := fCols bs ne)]
  · congr 1
    refine Finset.sum_congr rfl fun q hq => ?_
    rw [Finset.mem_range] at hq
    congr 1
    rw [coefficient hf v hp hq]
    obtain ⟨a, ha, ha', i, hi, rfl, ea⟩ := f_split hp
    obtain ⟨b, hb, hb', j, hj, rfl, eb⟩ := f_split hq
    rw [ea, eb, reduced_entry hf v ha ha' hb hb' hi hj, reduced_entry hf v hb hb' ha ha' hj hi]
    rcases lt_trichotomy a b with h | h | h
    · rw [if_neg (by omega), sparse_lower hb hb' ha h, ← hH a b ha h.le hb' i hi j hj]
      simp
    · subst h
      rw [if_pos rfl, ← hH a a ha le_rfl hb' i hi j hj, add_zero]
    · rw [if_neg (by omega), sparse_lower ha ha' hb h, ← hH b a hb h.le ha' j hj i hi, hs _ hq _ hp]
      simp
  · intro r hr
    have := (laid_bounds hok.bs.rows (List.mem_map_of_mem (f := BRow.block) hr)).2
    have e := reduced_numRows (bs := bs) (ne := ne) v
    have e2 : (((reducedStructure bs ne).rows.map BRow.block).map Block.size).sum = fCols bs ne := by
      rw [← e, List.map_map]
      rfl
    have h3 : r.block.position + r.block.size ≤ 0 + (((reducedStructure bs ne).rows.map BRow.block).map Block.size).sum :=
      this
    omega
  · intro r hr c hc
    have hlt : c.blockId < (tail bs.cols ne).length := hok.bs.ids r hr c hc
    have hmem : blockAt (tail bs.cols ne) c.blockId ∈ tail bs.cols ne := by
      unfold blockAt
      rw [List.getD_eq_getElem?_getD, List.getElem?_eq_getElem hlt]
      exact List.getElem_mem hlt
    have := (laid_bounds (tail_laid bs ne) hmem).2
    rw [tail_sum] at this
    omega

end Ceres.SchurJacobi
