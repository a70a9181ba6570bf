import Verif.BlockSparse.Edit

/-!
# Deleting row blocks, and diagonal matrices
-/
namespace Ceres.BlockSparse

variable {K : Type}

/-! ## The loop of `DeleteRowBlocks` -/

theorem popCells_append (n : ℕ) (a b : List Cell) (ha : ∀ c ∈ a, n ≤ c.blockId)
    (hb : ∀ c ∈ b, c.blockId < n) : popCells n (a ++ b) = (b, a.map Cell.blockId) := by
  induction a with
  | nil =>
    cases b with
    | nil => rfl
    | cons c b =>
      simp only [List.nil_append, popCells, List.map_nil]
      rw [if_neg (by have := hb c (by simp); omega)]
  | cons c a ih =>
    have := ih fun c' hc => ha c' (by simp [hc])
    simp only [List.cons_append, popCells, this, List.map_cons]
    rw [if_pos (ha c (by simp))]

theorem popCells_idem (n : ℕ) (a : List Cell) : popCells n (popCells n a).1 = ((popCells n a).1, []) := by
  induction a with
  | nil => rfl
  | cons c a ih =>
    simp only [popCells]
    by_cases hc : n ≤ c.blockId
    · rw [if_pos hc]; exact ih
    · rw [if_neg hc]; simp only [popCells]; rw [if_neg hc]

theorem popColumn_idem (rows : List BRow) (col : Block) (n : ℕ) (t : BRow) :
    popColumn rows col n (popColumn rows col n t) = popColumn rows col n t := by
  unfold popColumn
  simp only [List.reverse_reverse, popCells_idem, List.foldl_nil]

theorem foldl_modify {α : Type} (g : ℕ → α → α) (hg : ∀ j t, g j (g j t) = g j t) (ids : List ℕ) (rows : List α) :
    ids.foldl (fun t id => t.modify id (g id)) rows = rows.mapIdx fun j t => if j ∈ ids then g j t else t := by
  induction ids generalizing rows with
  | nil =>
    refine List.ext_getElem? fun j => ?_
    rw [List.foldl_nil, List.getElem?_mapIdx]
    cases rows[j]? <;> simp
  | cons id ids ih =>
    rw [List.foldl_cons, ih]
    refine List.ext_getElem? fun j => ?_
    rw [List.getElem?_mapIdx, List.getElem?_mapIdx, List.getElem?_modify]
    cases rows[j]? with
    | none => rfl
    | some t =>
      by_cases hj : id = j
      · subst hj
        by_cases hm : id ∈ ids <;> simp [hm, hg]
      · have hj' : ¬ j = id := fun h => hj h.symm
        simp [hj, hj']

theorem foldl_sub {α : Type} (f : α → ℕ) (l : List α) (s : ℕ) :
    l.foldl (fun z a => z - f a) (s + (l.map f).sum) = s := by
  induction l generalizing s with
  | nil => rfl
  | cons a l ih =>
    rw [List.foldl_cons, List.map_cons, List.sum_cons]
    have : s + (f a + (l.map f).sum) - f a = s + (l.map f).sum := by omega
    rw [this, ih]

theorem popColumn_links {rows : List BRow} {n : ℕ} {L L' : List (ℕ × ℕ × Cell)} (j : ℕ) (t : BRow)
    (ht : t.cells = []) (hL : ∀ l ∈ L, l.1 < n) (hL' : ∀ l ∈ L', n ≤ l.1)
    (hs : ∀ l ∈ L', (rows[l.1]?.map fun r => r.block.size).getD 0 = l.2.1) (cum : ℕ) :
    popColumn rows t.block n { addTo1 (L ++ L') j t with cum := cum } = { addTo1 L j t with cum := cum } := by
  rw [← addTo1_append]
  unfold popColumn addTo1
  simp only [ht, List.nil_append, List.reverse_append]
  rw [popCells_append n _ _
    (by
      intro c hc
      rw [List.mem_reverse, List.mem_map] at hc
      obtain ⟨l, hl, rfl⟩ := hc
      exact hL' l (List.mem_of_mem_filter hl))
    (by
      intro c hc
      rw [List.mem_reverse, List.mem_map] at hc
      obtain ⟨l, hl, rfl⟩ := hc
      exact hL l (List.mem_of_mem_filter hl))]
  simp only [List.reverse_reverse]
  congr 1
  rw [← List.map_reverse, List.map_map]
  have hsum : ((inCol j L').map fun l => l.2.1 * t.block.size).sum =
      ((((inCol j L').reverse.map (Cell.blockId ∘ fun l => ⟨l.1, l.2.2.position⟩)).map fun id =>
        (rows[id]?.map fun r => r.block.size).getD 0 * t.block.size)).sum := by
    rw [List.map_map, List.map_reverse, List.sum_reverse]
    congr 1
    refine List.map_congr_left fun l hl => ?_
    simp only [Function.comp_apply]
    rw [hs l (List.mem_of_mem_filter hl)]
  rw [hsum]
  exact foldl_sub _ _ _

theorem links_lt {n : ℕ} {rows : List BRow} {l : ℕ × ℕ × Cell} (h : l ∈ linksFrom n rows) :
    l.1 < n + rows.length := by
  obtain ⟨h1, r, h2, -⟩ := mem_linksFrom h
  obtain ⟨h3, -⟩ := List.getElem?_eq_some_iff.1 h2
  omega

theorem mem_links_of_cell {n : ℕ} {rows : List BRow} {l : ℕ × ℕ × Cell} (h : l ∈ linksFrom n rows) :
    ∃ r ∈ rows, l.2.2 ∈ r.cells := by
  obtain ⟨-, r, h2, -, h3⟩ := mem_linksFrom h
  exact ⟨r, List.mem_of_getElem? h2, h3⟩

/-- The transpose of what is left. -/
theorem delete_tbs {M : BMat K} (h : M.Ok) {delta : ℕ} (hd : delta ≤ M.bs.rows.length) :
    (M.deleteRowBlocks delta).tbs = createTranspose (M.deleteRowBlocks delta).bs := by
  unfold BMat.deleteRowBlocks
  simp only
  rw [createTranspose_eq, h.tbs, createTranspose_eq]
  simp only [List.length_map]
  congr 1
  · rw [List.map_take]
  · refine cumulate_congr ?_
    set n := M.bs.rows.length - delta with hn
    have hfold : ∀ (gone : List BRow) (t : List BRow), gone.foldl
        (fun t r => r.cells.foldl (fun t c => t.modify c.blockId (popColumn M.bs.rows (M.bs.col c.blockId) n)) t) t =
        (gone.flatMap fun r => r.cells.map Cell.blockId).foldl
          (fun t id => t.modify id (popColumn M.bs.rows (M.bs.col id) n)) t := by
      intro gone t
      rw [List.foldl_flatMap]
      simp only [List.foldl_map]
    rw [hfold, foldl_modify (fun j => popColumn M.bs.rows (M.bs.col j) n) (fun j t => popColumn_idem _ _ _ t)]
    have hlinks : M.bs.links = linksFrom 0 (M.bs.rows.take n) ++ linksFrom n (M.bs.rows.drop n) := by
      have := linksFrom_append 0 (M.bs.rows.take n) (M.bs.rows.drop n)
      rw [List.take_append_drop, Nat.zero_add, List.length_take, Nat.min_eq_left (by omega)] at this
      exact this
    rw [hlinks]
    refine List.ext_getElem? fun j => ?_
    simp only [List.getElem?_map, List.getElem?_mapIdx, cumulate, cumulateFrom_getElem?, addLinks, emptyCols]
    cases hc : M.bs.cols[j]? with
    | none => rfl
    | some b =>
      simp only [Option.map_some, Option.some.injEq]
      have hb : M.bs.col j = b := by
        unfold BS.col
        rw [List.getD_eq_getElem?_getD, hc]
        rfl
      by_cases hj : j ∈ (M.bs.rows.drop n).reverse.flatMap fun r => r.cells.map Cell.blockId
      · rw [if_pos hj, hb]
        have hpop := fun cum => popColumn_links (rows := M.bs.rows) (n := n)
          (L := linksFrom 0 (M.bs.rows.take n)) (L' := linksFrom n (M.bs.rows.drop n)) j ⟨b, [], 0, 0⟩ rfl
          (fun l hl => by
            have := links_lt hl
            rw [List.length_take] at this
            omega)
          (fun l hl => (mem_linksFrom hl).1)
          (fun l hl => by
            obtain ⟨h1, r, h2, h3, -⟩ := mem_linksFrom hl
            rw [List.getElem?_drop, Nat.add_sub_cancel' h1] at h2
            rw [h2, h3]
            rfl) cum
        rw [hpop]
        rfl
      · rw [if_neg hj]
        have hempty : inCol j (linksFrom n (M.bs.rows.drop n)) = [] := by
          unfold inCol
          rw [List.filter_eq_nil_iff]
          intro l hl hlj
          obtain ⟨r, hr, hcell⟩ := mem_links_of_cell hl
          refine hj (List.mem_flatMap.2 ⟨r, List.mem_reverse.2 hr, List.mem_map.2 ⟨l.2.2, hcell, ?_⟩⟩)
          simpa using hlj
        rw [← addTo1_append]
        simp only [addTo1, hempty, List.map_nil, List.append_nil, List.sum_nil, Nat.add_zero, BS.links]

theorem delete_bs (M : BMat K) (delta : ℕ) :
    (M.deleteRowBlocks delta).bs = ⟨M.bs.cols, M.bs.rows.take (M.bs.rows.length - delta)⟩ := rfl

theorem take_drop_sum {α : Type} (f : α → ℕ) (l : List α) (n : ℕ) :
    (l.map f).sum - (((l.drop n).reverse.map f).sum) = ((l.take n).map f).sum := by
  have h1 : (l.map f).sum = ((l.take n).map f).sum + ((l.drop n).map f).sum := by
    rw [← List.sum_append, ← List.map_append, List.take_append_drop]
  rw [List.map_reverse, List.sum_reverse, h1, Nat.add_sub_cancel]

theorem delete_numRows {M : BMat K} (h : M.Ok) (delta : ℕ) : (M.deleteRowBlocks delta).numRows =
    ((M.deleteRowBlocks delta).bs.rows.map fun r => r.block.size).sum := by
  rw [delete_bs]
  unfold BMat.deleteRowBlocks
  simp only
  rw [h.numRows]
  exact take_drop_sum (fun r : BRow => r.block.size) _ _

theorem delete_nnz {M : BMat K} (h : M.Ok) (delta : ℕ) : (M.deleteRowBlocks delta).nnz =
    rowsNnz M.bs.cols (M.deleteRowBlocks delta).bs.rows := by
  rw [delete_bs]
  unfold BMat.deleteRowBlocks
  simp only
  rw [nnz_eq h]
  exact take_drop_sum (fun r : BRow => cellsNnz M.bs.cols r.block.size r.cells) _ _

theorem laid_take {p n : ℕ} {l : List Block} (h : Laid p l) : Laid p (l.take n) := by
  induction l generalizing p n with
  | nil => simp [Laid]
  | cons b l ih =>
    cases n with
    | zero => trivial
    | succ n => exact ⟨h.1, ih h.2⟩

theorem delete_slots (M : BMat K) (delta : ℕ) : M.bs.slots = (M.deleteRowBlocks delta).bs.slots ++
    BS.slots ⟨M.bs.cols, M.bs.rows.drop (M.bs.rows.length - delta)⟩ := by
  rw [delete_bs]
  unfold BS.slots
  simp only [BS.col]
  rw [← List.flatMap_append, List.take_append_drop]

/-- Deleting leaves a matrix in order whose values are the first ones. -/
theorem delete_ok {M : BMat K} (h : M.Ok) {delta : ℕ} (hd : delta ≤ M.bs.rows.length)
    (hfirst : ∀ p ∈ (M.deleteRowBlocks delta).bs.slots, p < (M.deleteRowBlocks delta).nnz) :
    (M.deleteRowBlocks delta).Ok := by
  refine ⟨⟨h.bs.cols, ?_, ?_, ?_⟩, delete_tbs h hd, delete_numRows h delta, h.numCols, ?_⟩
  · rw [delete_bs]
    simp only [List.map_take]
    exact laid_take h.bs.rows
  · rw [delete_bs]
    intro row hrow
    exact h.bs.ids row (List.mem_of_mem_take hrow)
  · have hnd : (M.deleteRowBlocks delta).bs.slots.Nodup := by
      have : M.bs.slots.Nodup := h.bs.slots.nodup_iff.2 List.nodup_range
      rw [delete_slots M delta] at this
      exact (List.nodup_append.1 this).1
    have hsub : (M.deleteRowBlocks delta).bs.slots ⊆ List.range (M.deleteRowBlocks delta).nnz :=
      fun p hp => List.mem_range.2 (hfirst p hp)
    refine (hnd.subperm hsub).perm_of_length_le ?_
    rw [List.length_range, slots_length, delete_nnz h]
    exact le_rfl
  · exact le_trans (Nat.sub_le _ _) h.capacity

/-- The first rows of a matrix stored in order have the first values. -/
theorem delete_first_of_sequential {M : BMat K} (h : M.Ok) (hs : M.bs.Sequential M.nnz) (delta : ℕ) :
    ∀ p ∈ (M.deleteRowBlocks delta).bs.slots, p < (M.deleteRowBlocks delta).nnz := by
  have h1 := delete_slots M delta
  rw [hs] at h1
  have hlen : (M.deleteRowBlocks delta).bs.slots.length = (M.deleteRowBlocks delta).nnz := by
    rw [slots_length, delete_nnz h]
    rfl
  have h2 : (M.deleteRowBlocks delta).bs.slots = List.range (M.deleteRowBlocks delta).nnz := by
    have h3 := congrArg (List.take (M.deleteRowBlocks delta).nnz) h1
    rw [← hlen, List.take_left, List.take_range] at h3
    rw [← h3, hlen]
    congr 1
    have := congrArg List.length h1
    rw [List.length_range, List.length_append, hlen] at this
    omega
  intro p hp
  rw [h2] at hp
  exact List.mem_range.1 hp

section
variable [CommRing K]

theorem laid_drop_pos {p n : ℕ} {l : List Block} (h : Laid p l) :
    ∀ b ∈ l.drop n, p + ((l.take n).map Block.size).sum ≤ b.position := by
  induction l generalizing p n with
  | nil => intro b hb; simp at hb
  | cons c l ih =>
    cases n with
    | zero =>
      intro b hb
      simp only [List.take_zero, List.map_nil, List.sum_nil, Nat.add_zero]
      rcases List.mem_cons.1 hb with rfl | hb
      · exact h.1.ge
      · have h0 := ih (n := 0) h.2 b hb
        simp only [List.take_zero, List.map_nil, List.sum_nil, Nat.add_zero] at h0
        omega
    | succ n =>
      intro b hb
      have := ih (n := n) h.2 b hb
      rw [List.take_succ_cons, List.map_cons, List.sum_cons]
      omega

theorem laid_mem_end {p : ℕ} {l : List Block} (h : Laid p l) :
    ∀ b ∈ l, b.position + b.size ≤ p + (l.map Block.size).sum := by
  induction l generalizing p with
  | nil => intro b hb; cases hb
  | cons c l ih =>
    intro b hb
    rw [List.map_cons, List.sum_cons]
    rcases List.mem_cons.1 hb with rfl | hb
    · have := h.1
      omega
    · have := ih h.2 b hb
      omega

/-- **Deleting row blocks**: the entries of the rows that are left are unchanged, and there are no others. -/
theorem delete_entry {M : BMat K} (h : M.Ok) (delta : ℕ) (r c : ℕ) :
    (M.deleteRowBlocks delta).entry r c =
      if r < (M.deleteRowBlocks delta).numRows then M.entry r c else 0 := by
  rw [delete_numRows h, delete_bs]
  have hrows := h.bs.rows
  have hsplit : M.entry r c = BS.entry ⟨M.bs.cols, M.bs.rows.take (M.bs.rows.length - delta)⟩ M.values r c +
      BS.entry ⟨M.bs.cols, M.bs.rows.drop (M.bs.rows.length - delta)⟩ M.values r c := by
    rw [← entry_append, List.take_append_drop]
    rfl
  have hlow : ∀ n, ((M.bs.rows.take n).map fun r => r.block.size).sum =
      (((M.bs.rows.map BRow.block).take n).map Block.size).sum := by
    intro n
    rw [← List.map_take, List.map_map]
    rfl
  have hzero : ∀ rows : List BRow,
      (∀ row ∈ rows, ¬ (row.block.position ≤ r ∧ r < row.block.position + row.block.size)) →
      BS.entry ⟨M.bs.cols, rows⟩ M.values r c = 0 := by
    intro rows hr
    unfold BS.entry
    refine List.sum_eq_zero fun x hx => ?_
    obtain ⟨row, hrow, rfl⟩ := List.mem_map.1 hx
    refine List.sum_eq_zero fun y hy => ?_
    obtain ⟨cell, -, rfl⟩ := List.mem_map.1 hy
    exact if_neg fun hin => hr row hrow ⟨hin.1, hin.2.1⟩
  have hval : (M.deleteRowBlocks delta).entry r c =
      BS.entry ⟨M.bs.cols, M.bs.rows.take (M.bs.rows.length - delta)⟩ M.values r c := rfl
  rw [hval]
  simp only
  rw [hlow]
  by_cases hr : r < (((M.bs.rows.map BRow.block).take (M.bs.rows.length - delta)).map Block.size).sum
  · rw [if_pos hr, hsplit, hzero (M.bs.rows.drop (M.bs.rows.length - delta)), add_zero]
    intro row hrow hin
    have := laid_drop_pos (n := M.bs.rows.length - delta) hrows row.block
      (by rw [← List.map_drop]; exact List.mem_map_of_mem hrow)
    omega
  · rw [if_neg hr, hzero]
    intro row hrow hin
    have := laid_mem_end (laid_take (n := M.bs.rows.length - delta) hrows) row.block
      (by rw [← List.map_take]; exact List.mem_map_of_mem hrow)
    omega

/-- **Appending and deleting again**: whatever was appended, deleting as many row blocks gives back the
structure, its transpose and the values. -/
theorem append_delete {M m R : BMat K} (h : M.Ok) (hm : m.Ok) (hc : m.bs.cols = M.bs.cols)
    (hR : M.appendRows m = some R) :
    (R.deleteRowBlocks m.bs.rows.length).bs = M.bs ∧ (R.deleteRowBlocks m.bs.rows.length).tbs = M.tbs ∧
    (R.deleteRowBlocks m.bs.rows.length).numRows = M.numRows ∧
    (R.deleteRowBlocks m.bs.rows.length).numCols = M.numCols ∧
    (R.deleteRowBlocks m.bs.rows.length).nnz = M.nnz ∧
    ∀ p < M.nnz, (R.deleteRowBlocks m.bs.rows.length).values p = M.values p := by
  have hok := append_ok h hm hc hR
  have hR' := hR
  rw [appendRows_eq h hm hc] at hR'
  injection hR' with hR'
  have hlen : ∀ (cols : List Block) (p z : ℕ) (rows : List BRow), (newRows cols p z rows).length = rows.length := by
    intro cols p z rows
    have := congrArg List.length (newRows_sizes cols p z rows)
    simpa using this
  have hbs : (R.deleteRowBlocks m.bs.rows.length).bs = M.bs := by
    rw [delete_bs, ← hR']
    simp only [List.length_append, hlen, Nat.add_sub_cancel, List.take_left]
  refine ⟨hbs, ?_, ?_, ?_, ?_, ?_⟩
  · rw [delete_tbs hok (by rw [← hR', List.length_append, hlen]; omega), hbs, ← h.tbs]
  · rw [delete_numRows hok, hbs, ← h.numRows]
  · rw [← hR']; rfl
  · rw [delete_nnz hok, hbs, nnz_eq h, ← hR']
  · intro p hp
    rw [← hR']
    exact (copyTo_eq _ _ _ _ _).trans (if_neg (by omega))

/-! ## Diagonal matrices -/

theorem fillBlock_eq (d : ℕ → K) (s p q n : ℕ) (v : ℕ → K) (k : ℕ) :
    (List.range n).foldl (fun v j => Function.update v (p + j * (s + 1)) (d (q + j))) v k =
      if ∃ j < n, k = p + j * (s + 1) then d (q + (k - p) / (s + 1)) else v k := by
  induction n with
  | zero => simp
  | succ n ih =>
    rw [List.range_succ, List.foldl_append, List.foldl_cons, List.foldl_nil]
    by_cases hk : k = p + n * (s + 1)
    · subst hk
      rw [Function.update_self, if_pos ⟨n, by omega, rfl⟩, Nat.add_sub_cancel_left,
        Nat.mul_div_cancel _ (Nat.succ_pos s)]
    · rw [Function.update_of_ne hk, ih]
      by_cases h1 : ∃ j < n, k = p + j * (s + 1)
      · rw [if_pos h1, if_pos]
        obtain ⟨j, hj, e⟩ := h1
        exact ⟨j, by omega, e⟩
      · rw [if_neg h1, if_neg]
        rintro ⟨j, hj, e⟩
        rcases Nat.lt_succ_iff_lt_or_eq.1 hj with hj | rfl
        · exact h1 ⟨j, hj, e⟩
        · exact hk e

theorem fillDiag_low (d : ℕ → K) (bs : List Block) (p q : ℕ) (v : ℕ → K) {k : ℕ} (hk : k < p) :
    fillDiag d bs p q v k = v k := by
  induction bs generalizing p q v with
  | nil => rfl
  | cons b bs ih =>
    rw [fillDiag, ih _ _ _ (by omega), fillBlock_eq, if_neg]
    rintro ⟨j, -, e⟩
    omega

theorem diag_mem {s i j k : ℕ} (hi : i < s) (hj : j < s) (h : i * s + j = k * (s + 1)) (hk : k < s) : i = j := by
  have h1 : (i * s + j) / s = i := by
    rw [Nat.mul_comm, Nat.mul_add_div (by omega), Nat.div_eq_of_lt hj, Nat.add_zero]
  have h2 : (k * (s + 1)) / s = k := by
    rw [Nat.mul_add, Nat.mul_one, Nat.mul_comm, Nat.mul_add_div (by omega), Nat.div_eq_of_lt hk, Nat.add_zero]
  have h3 : i = k := by rw [← h1, ← h2, h]
  subst h3
  rw [Nat.mul_add, Nat.mul_one] at h
  omega

theorem diag_cell (d : ℕ → K) (b : Block) (p : ℕ) (v : ℕ → K)
    (hv : ∀ k < b.size * b.size, v (p + k) = 0) (r c : ℕ) {w : ℕ → K}
    (hw : ∀ k < b.size * b.size, w (p + k) = (List.range b.size).foldl
      (fun v j => Function.update v (p + j * (b.size + 1)) (d (b.position + j))) v (p + k)) :
    cellAt b b p w r c = if r = c ∧ b.position ≤ r ∧ r < b.position + b.size then d r else 0 := by
  unfold cellAt
  by_cases hin : b.position ≤ r ∧ r < b.position + b.size ∧ b.position ≤ c ∧ c < b.position + b.size
  · rw [if_pos hin]
    have hlt : (r - b.position) * b.size + (c - b.position) < b.size * b.size := by
      have h2 : (r - b.position + 1) * b.size ≤ b.size * b.size := Nat.mul_le_mul_right _ (by omega)
      rw [Nat.add_mul] at h2
      omega
    rw [Nat.add_assoc, hw _ hlt, fillBlock_eq]
    by_cases hrc : r = c
    · subst hrc
      rw [if_pos (show r = r ∧ b.position ≤ r ∧ r < b.position + b.size from ⟨rfl, hin.1, hin.2.1⟩),
        if_pos ⟨r - b.position, by omega, by rw [Nat.mul_add, Nat.mul_one]⟩]
      congr 1
      have : p + ((r - b.position) * b.size + (r - b.position)) - p = (r - b.position) * (b.size + 1) := by
        rw [Nat.add_sub_cancel_left, Nat.mul_add, Nat.mul_one]
      rw [this, Nat.mul_div_cancel _ (Nat.succ_pos _)]
      omega
    · rw [if_neg (show ¬ (r = c ∧ b.position ≤ r ∧ r < b.position + b.size) from fun h => hrc h.1), if_neg,
        hv _ hlt]
      rintro ⟨k, hk, e⟩
      have := diag_mem (s := b.size) (i := r - b.position) (j := c - b.position) (k := k) (by omega) (by omega)
        (by omega) hk
      omega
  · rw [if_neg hin, if_neg]
    rintro ⟨rfl, h1, h2⟩
    exact hin ⟨h1, h2, h1, h2⟩

theorem diag_entry (d : ℕ → K) (bs : List Block) (done : List Block) (p q : ℕ) (v : ℕ → K) (hl : Laid q bs)
    (hv : ∀ k, p ≤ k → v k = 0) (r c : ℕ) :
    BS.entry ⟨done ++ bs, diagRows p done.length bs⟩ (fillDiag d bs p q v) r c =
      if r = c ∧ q ≤ r ∧ r < q + (bs.map Block.size).sum then d r else 0 := by
  induction bs generalizing done p q v with
  | nil =>
    rw [if_neg (by simp only [List.map_nil, List.sum_nil]; omega)]
    rfl
  | cons b bs ih =>
    have hv' : ∀ k, p + b.size * b.size ≤ k → (List.range b.size).foldl
        (fun v j => Function.update v (p + j * (b.size + 1)) (d (q + j))) v k = 0 := by
      intro k hk
      rw [fillBlock_eq, if_neg, hv k (by omega)]
      rintro ⟨j, hj, e⟩
      have h2 : (j + 1) * b.size ≤ b.size * b.size := Nat.mul_le_mul_right _ (by omega)
      rw [Nat.add_mul] at h2
      rw [Nat.mul_add] at e
      omega
    have hrec := ih (done ++ [b]) (p + b.size * b.size) (q + b.size) _ hl.2 hv'
    rw [List.append_assoc, List.singleton_append, List.length_append, List.length_singleton] at hrec
    have hcell := diag_cell d b p v (fun k _ => hv _ (by omega)) r c
      (w := fillDiag d (b :: bs) p q v) (by
        intro k hk
        rw [fillDiag, fillDiag_low _ _ _ _ _ (by omega), hl.1])
    have hcol : BS.col ⟨done ++ b :: bs, diagRows p done.length (b :: bs)⟩ done.length = b := by
      simp [BS.col, List.getD_eq_getElem?_getD]
    have hsum : BS.entry ⟨done ++ b :: bs, diagRows p done.length (b :: bs)⟩ (fillDiag d (b :: bs) p q v) r c =
        cellAt b b p (fillDiag d (b :: bs) p q v) r c +
        BS.entry ⟨done ++ b :: bs, diagRows (p + b.size * b.size) (done.length + 1) bs⟩
          (fillDiag d (b :: bs) p q v) r c := by
      rw [BS.entry]
      simp only [diagRows, List.map_cons, List.map_nil, List.sum_cons, List.sum_nil, add_zero]
      congr 2
    rw [hsum, hcell]
    rw [show fillDiag d (b :: bs) p q v = _ from by rw [fillDiag], hrec]
    simp only [List.map_cons, List.sum_cons]
    have hq : b.position = q := hl.1
    by_cases hrc : r = c
    · by_cases h1 : q ≤ r ∧ r < q + b.size
      · rw [if_pos ⟨hrc, by omega, by omega⟩, if_neg (by omega), if_pos ⟨hrc, by omega, by omega⟩, add_zero]
      · rw [if_neg (by omega), zero_add]
        by_cases h2 : q + b.size ≤ r ∧ r < q + b.size + (bs.map Block.size).sum
        · rw [if_pos ⟨hrc, h2.1, h2.2⟩, if_pos ⟨hrc, by omega, by omega⟩]
        · rw [if_neg (by omega), if_neg (by omega)]
    · rw [if_neg (fun h => hrc h.1), if_neg (fun h => hrc h.1), if_neg (fun h => hrc h.1), add_zero]

theorem diagRows_blocks (p i : ℕ) (bs : List Block) : (diagRows p i bs).map BRow.block = bs := by
  induction bs generalizing p i with
  | nil => rfl
  | cons b bs ih => simp [diagRows, ih]

end

theorem diag_slots (bs : List Block) (done : List Block) (p : ℕ) :
    BS.slots ⟨done ++ bs, diagRows p done.length bs⟩ =
      List.range' p ((bs.map fun b => b.size * b.size).sum) := by
  induction bs generalizing done p with
  | nil => rfl
  | cons b bs ih =>
    have hrec := ih (done ++ [b]) (p + b.size * b.size)
    rw [List.append_assoc, List.singleton_append, List.length_append, List.length_singleton] at hrec
    unfold BS.slots at hrec ⊢
    simp only [diagRows, List.flatMap_cons, List.flatMap_nil, List.append_nil, List.map_cons, List.sum_cons]
    simp only [BS.col] at hrec ⊢
    rw [hrec]
    simp only [List.getD_eq_getElem?_getD, List.getElem?_append_right (le_refl _), Nat.sub_self,
      List.getElem?_cons_zero, Option.getD_some]
    rw [← List.range'_append_1]

theorem diag_ids (bs : List Block) (p i n : ℕ) (hn : i + bs.length ≤ n) :
    ∀ row ∈ diagRows p i bs, ∀ cell ∈ row.cells, cell.blockId < n := by
  induction bs generalizing p i with
  | nil => intro row hrow; cases hrow
  | cons b bs ih =>
    intro row hrow
    rw [List.length_cons] at hn
    rcases List.mem_cons.1 hrow with rfl | hrow
    · intro cell hcell
      rw [List.mem_singleton.1 hcell]
      show i < n
      omega
    · exact ih _ _ (by omega) row hrow

theorem ofStructure_nnz (bs : BS) (v : ℕ → K) : (BMat.ofStructure bs v).nnz = bs.slots.length := by
  rw [slots_length]
  unfold BMat.ofStructure rowsNnz cellsNnz
  simp only [Nat.mul_comm]
  rfl

/-- The constructor leaves a matrix in order. -/
theorem ofStructure_ok {bs : BS} {v : ℕ → K} (hc : Laid 0 bs.cols) (hr : Laid 0 (bs.rows.map BRow.block))
    (hi : ∀ row ∈ bs.rows, ∀ cell ∈ row.cells, cell.blockId < bs.cols.length)
    (hs : bs.slots.Perm (List.range bs.slots.length)) : (BMat.ofStructure bs v).Ok := by
  have hn : (BMat.ofStructure bs v).nnz = bs.slots.length := ofStructure_nnz bs v
  exact ⟨⟨hc, hr, hi, by rw [hn]; exact hs⟩, rfl, rfl, rfl, le_rfl⟩

theorem diagonal_ok [CommRing K] {cols : List Block} (h : Laid 0 cols) (d : ℕ → K) :
    (diagonalMatrix d cols).Ok ∧ (diagonalMatrix d cols).bs.Sequential (diagonalMatrix d cols).nnz ∧
    (diagonalMatrix d cols).bs.cols = cols := by
  have hs := diag_slots cols [] 0
  rw [List.nil_append, List.length_nil, ← List.range_eq_range'] at hs
  have hlen := congrArg List.length hs
  rw [List.length_range] at hlen
  refine ⟨ofStructure_ok h ?_ ?_ ?_, ?_, rfl⟩
  · simp only [diagRows_blocks]; exact h
  · exact diag_ids cols 0 0 cols.length (by omega)
  · rw [hlen, hs]
  · have hn : (diagonalMatrix d cols).nnz = (BS.slots ⟨cols, diagRows 0 0 cols⟩).length :=
      ofStructure_nnz _ _
    unfold BS.Sequential
    rw [hn, hlen]
    exact hs

/-- **Diagonal matrices**: the entries on the diagonal are the given ones and the others are zero. -/
theorem diagonal_entry [CommRing K] {cols : List Block} (h : Laid 0 cols) (d : ℕ → K) (r c : ℕ) :
    (diagonalMatrix d cols).entry r c =
      if r = c ∧ r < (cols.map Block.size).sum then d r else 0 := by
  have := diag_entry d cols [] 0 0 (fun _ => 0) h (fun _ _ => rfl) r c
  rw [List.nil_append, List.length_nil] at this
  refine Eq.trans this ?_
  simp

end Ceres.BlockSparse
