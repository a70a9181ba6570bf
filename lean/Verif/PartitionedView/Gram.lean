import Verif.PartitionedView.Layout

/-!
# Block diagonals of `EᵀE` and `FᵀF`
-/
namespace Ceres.PartitionedView

open Matrix Ceres.Tasks Ceres.BlockSparse

variable {K : Type} [CommRing K] {M : BMat K} {ne threads : ℕ} {V : View}

/-! ## Products of entries -/

/-- With at most one cell for each row block and column block, the product of two entries in the same column
block is a sum over the cells. -/
theorem entry_mul (h : M.Ok) (hs : M.bs.Simple) (r : ℕ) {c c' j : ℕ} {blk : Block} (hj : M.bs.cols[j]? = some blk)
    (h1 : blk.position ≤ c) (h2 : c < blk.position + blk.size) (h1' : blk.position ≤ c')
    (h2' : c' < blk.position + blk.size) :
    (M.bs.triples.map fun t => cellAt t.1 t.2.1 t.2.2 M.values r c * cellAt t.1 t.2.1 t.2.2 M.values r c').sum =
      M.entry r c * M.entry r c' := by
  have hzero : ∀ (i : ℕ) (row : BRow), M.bs.rows[i]? = some row →
      i ≠ blockOf (M.bs.rows.map BRow.block) r → r < row.block.position ∨
        row.block.position + row.block.size ≤ r := by
    intro i row hi hne
    by_contra hcon
    exact hne (blockOf_eq h.bs.rows (i := i) (b := row.block) (by simp [hi]) (by omega) (by omega)).symm
  have hcol : ∀ row ∈ M.bs.rows, ∀ cell ∈ row.cells, cell.blockId ≠ j → ∀ d, blk.position ≤ d →
      d < blk.position + blk.size → ∀ v : ℕ → K,
      cellAt row.block (M.bs.col cell.blockId) cell.position v r d = 0 := by
    intro row hrow cell hcell hne d hd1 hd2 v
    refine if_neg ?_
    rintro ⟨-, -, g3, g4⟩
    have e1 := blockOf_eq h.bs.cols (col_get (h.bs.ids row hrow cell hcell)) g3 g4
    have e2 := blockOf_eq h.bs.cols hj hd1 hd2
    exact hne (e1.symm.trans e2)
  -- the sum over the cells of a row block
  have hrow : ∀ row ∈ M.bs.rows, ∀ g : BRow → Cell → K,
      (∀ cell ∈ row.cells, cell.blockId ≠ j → g row cell = 0) →
      (∀ cell ∈ row.cells, cell.blockId ≠ j → g row cell = 0) ∧
      ((row.cells.map (g row)).sum = match row.cells.find? fun c => decide (c.blockId = j) with
        | some c => g row c
        | none => 0) := by
    intro row hr g hg
    refine ⟨hg, ?_⟩
    have hn := hs row hr
    generalize row.cells = cells at hn hg
    induction cells with
    | nil => rfl
    | cons x cells ih =>
      rw [List.map_cons, List.nodup_cons] at hn
      rw [List.map_cons, List.sum_cons]
      by_cases hx : x.blockId = j
      · rw [List.find?_cons_of_pos (by simp [hx]), List.sum_eq_zero, add_zero]
        intro z hz
        obtain ⟨c, hc, rfl⟩ := List.mem_map.1 hz
        exact hg c (by simp [hc]) fun hcj => hn.1 (List.mem_map.2 ⟨c, hc, by rw [hcj, hx]⟩)
      · rw [List.find?_cons_of_neg (by simp [hx]), hg x (by simp) hx, zero_add]
        exact ih hn.2 fun c hc => hg c (by simp [hc])
  have hsum : ∀ g : Triple → K,
      (M.bs.triples.map g).sum = (M.bs.rows.map fun row => (row.cells.map fun c => g (cellOf M.bs row c)).sum).sum := by
    intro g
    unfold BS.triples
    rw [Sparse.sum_flatMap]
    congr 1
    refine List.map_congr_left fun row _ => ?_
    rw [List.map_map]
    rfl
  unfold BMat.entry
  rw [entry_triples, entry_triples, hsum, hsum, hsum]
  by_cases hb : blockOf (M.bs.rows.map BRow.block) r < M.bs.rows.length
  · have hget := List.getElem?_eq_getElem hb
    set k := blockOf (M.bs.rows.map BRow.block) r
    have hmem := List.getElem_mem hb
    have hone : ∀ g : Triple → K, (∀ row : BRow, ∀ cell : Cell,
        (r < row.block.position ∨ row.block.position + row.block.size ≤ r) → g (cellOf M.bs row cell) = 0) →
        (M.bs.rows.map fun row => (row.cells.map fun c => g (cellOf M.bs row c)).sum).sum =
          (M.bs.rows[k].cells.map fun c => g (cellOf M.bs M.bs.rows[k] c)).sum := by
      intro g hg
      refine sum_one hget (fun row => (row.cells.map fun c => g (cellOf M.bs row c)).sum) ?_
      intro i row hi hne
      refine List.sum_eq_zero fun z hz => ?_
      obtain ⟨cell, -, rfl⟩ := List.mem_map.1 hz
      exact hg row cell (hzero i row hi hne)
    have hz : ∀ d (row : BRow) (cell : Cell), (r < row.block.position ∨ row.block.position + row.block.size ≤ r) →
        cellAt (cellOf M.bs row cell).1 (cellOf M.bs row cell).2.1 (cellOf M.bs row cell).2.2 M.values r d = 0 :=
      fun d row cell ho => if_neg (by simp only [cellOf]; omega)
    rw [hone (fun t => cellAt t.1 t.2.1 t.2.2 M.values r c * cellAt t.1 t.2.1 t.2.2 M.values r c')
        fun row cell ho => by rw [hz c row cell ho, zero_mul],
      hone (fun t => cellAt t.1 t.2.1 t.2.2 M.values r c) fun row cell ho => hz c row cell ho,
      hone (fun t => cellAt t.1 t.2.1 t.2.2 M.values r c') fun row cell ho => hz c' row cell ho]
    have hc : ∀ d, blk.position ≤ d → d < blk.position + blk.size → ∀ cell ∈ M.bs.rows[k].cells, cell.blockId ≠ j →
        cellAt (cellOf M.bs M.bs.rows[k] cell).1 (cellOf M.bs M.bs.rows[k] cell).2.1
          (cellOf M.bs M.bs.rows[k] cell).2.2 M.values r d = 0 :=
      fun d hd1 hd2 cell hcell hne => hcol _ hmem cell hcell hne d hd1 hd2 _
    rw [(hrow _ hmem (fun row cell => cellAt (cellOf M.bs row cell).1 (cellOf M.bs row cell).2.1
          (cellOf M.bs row cell).2.2 M.values r c * cellAt (cellOf M.bs row cell).1 (cellOf M.bs row cell).2.1
          (cellOf M.bs row cell).2.2 M.values r c') fun cell hcell hne => by
          rw [hc c h1 h2 cell hcell hne, zero_mul]).2,
      (hrow _ hmem (fun row cell => cellAt (cellOf M.bs row cell).1 (cellOf M.bs row cell).2.1
          (cellOf M.bs row cell).2.2 M.values r c) fun cell hcell hne => hc c h1 h2 cell hcell hne).2,
      (hrow _ hmem (fun row cell => cellAt (cellOf M.bs row cell).1 (cellOf M.bs row cell).2.1
          (cellOf M.bs row cell).2.2 M.values r c') fun cell hcell hne => hc c' h1' h2' cell hcell hne).2]
    cases M.bs.rows[k].cells.find? fun c => decide (c.blockId = j) with
    | none => simp
    | some cell => rfl
  · have hall : ∀ d, (M.bs.rows.map fun row => (row.cells.map fun c =>
        cellAt (cellOf M.bs row c).1 (cellOf M.bs row c).2.1 (cellOf M.bs row c).2.2 M.values r d).sum).sum = 0 := by
      intro d
      refine List.sum_eq_zero fun z hz => ?_
      obtain ⟨row, hr, rfl⟩ := List.mem_map.1 hz
      refine List.sum_eq_zero fun z hz => ?_
      obtain ⟨cell, hc, rfl⟩ := List.mem_map.1 hz
      obtain ⟨i, hi, rfl⟩ := List.getElem_of_mem hr
      have := hzero i _ (List.getElem?_eq_getElem hi) (by omega)
      exact if_neg (by simp only [cellOf]; omega)
    rw [hall c, zero_mul]
    refine List.sum_eq_zero fun z hz => ?_
    obtain ⟨row, hr, rfl⟩ := List.mem_map.1 hz
    refine List.sum_eq_zero fun z hz => ?_
    obtain ⟨cell, hc, rfl⟩ := List.mem_map.1 hz
    obtain ⟨i, hi, rfl⟩ := List.getElem_of_mem hr
    have := hzero i _ (List.getElem?_eq_getElem hi) (by omega)
    rw [show cellAt _ _ _ M.values r c = (0 : K) from if_neg (by simp only [cellOf]; omega), zero_mul]

/-! ## The kernel -/

/-- What the kernel adds. -/
def gramEs (m : Mem K) (row col : Block) (pos : ℕ) : List (Loc × K) :=
  matEntries ((Matrix.transpose fun (i : Fin row.size) (j : Fin col.size) => m (valLoc pos i j)) *
    (Matrix.of fun (i : Fin row.size) (j : Fin col.size) => m (valLoc pos i j)))
    fun i j => .y (col.position + i * col.size + j)

theorem gramCell_isAdd : IsAdd (K := K) gramCell gramEs readsCell where
  runs := fun h1 h2 hr => runs_readMat_fixed (fun i j => h1 _ ⟨i, j, rfl⟩)
    (runs_readMat_fixed (fun i j => h1 _ ⟨i, j, rfl⟩) (runs_adds_mine _ h2 hr))

theorem slot_inj {n i j i' j' : ℕ} (hj : j < n) (hj' : j' < n) (h : i * n + j = i' * n + j') : i = i' ∧ j = j' := by
  have hn : 0 < n := by omega
  have h1 : (i * n + j) / n = i := by rw [Nat.mul_comm, Nat.mul_add_div hn, Nat.div_eq_of_lt hj, Nat.add_zero]
  have h2 : (i' * n + j') / n = i' := by rw [Nat.mul_comm, Nat.mul_add_div hn, Nat.div_eq_of_lt hj', Nat.add_zero]
  rw [h] at h1
  have h3 : i = i' := h1.symm.trans h2
  subst h3
  exact ⟨rfl, by omega⟩

/-- The kernel on the block itself. -/
theorem gramEs_at {x y : ℕ → K} {row col : Block} {pos P : ℕ} (hrow : row.position + row.size ≤ M.numRows)
    {i j : ℕ} (hi : i < col.size) (hj : j < col.size) :
    Tasks.sumAt (gramEs (memOf M x y) row ⟨col.size, P⟩ pos) (.y (P + i * col.size + j)) =
      ∑ r ∈ Finset.range M.numRows, cellAt row col pos M.values r (col.position + i) *
        cellAt row col pos M.values r (col.position + j) := by
  have h := sumAt_matEntries
    ((Matrix.transpose fun (i : Fin row.size) (j : Fin col.size) => memOf M x y (valLoc pos i j)) *
      (Matrix.of fun (i : Fin row.size) (j : Fin col.size) => memOf M x y (valLoc pos i j)))
    (loc := fun i j => Loc.y (P + i * col.size + j)) (fun i j i' j' he => by
      injection he with he
      have := slot_inj (i := i.1) (i' := i'.1) j.2 j'.2 (by omega)
      exact ⟨Fin.ext this.1, Fin.ext this.2⟩) ⟨i, hi⟩ ⟨j, hj⟩
  refine Eq.trans h ?_
  rw [show (∑ r ∈ Finset.range M.numRows, cellAt row col pos M.values r (col.position + i) *
        cellAt row col pos M.values r (col.position + j)) =
      ∑ r ∈ Finset.range M.numRows, (if row.position ≤ r ∧ r < row.position + row.size then
        M.values (pos + (r - row.position) * col.size + i) *
          M.values (pos + (r - row.position) * col.size + j) else 0) from
    Finset.sum_congr rfl fun r _ => by
      unfold cellAt
      by_cases hr : row.position ≤ r ∧ r < row.position + row.size
      · rw [if_pos ⟨hr.1, hr.2, by omega, by omega⟩, if_pos ⟨hr.1, hr.2, by omega, by omega⟩, if_pos hr,
          Nat.add_sub_cancel_left, Nat.add_sub_cancel_left]
      · rw [if_neg (fun h => hr ⟨h.1, h.2.1⟩), if_neg hr, zero_mul]]
  rw [sum_block (fun r => M.values (pos + (r - row.position) * col.size + i) *
    M.values (pos + (r - row.position) * col.size + j)) hrow]
  simp only [Matrix.mul_apply, Matrix.transpose_apply]
  refine Finset.sum_congr rfl fun r _ => ?_
  simp only [memOf, valLoc, Nat.add_sub_cancel_left]
  rfl

/-! ## Cells with the position of their diagonal block -/

theorem chosen_map {α β : Type} (bs : BS) (p : ℕ → Bool) (φ : BRow → Cell → α) (g : α → β) :
    (chosen bs p φ).map g = chosen bs p fun r c => g (φ r c) := by
  unfold chosen
  rw [List.map_flatMap]
  refine List.flatMap_congr fun r _ => ?_
  rw [List.map_map]
  rfl

theorem chosen_congr_right {α : Type} {bs : BS} {p : ℕ → Bool} {φ ψ : BRow → Cell → α}
    (h : ∀ r ∈ bs.rows, ∀ c ∈ r.cells, p c.blockId = true → φ r c = ψ r c) : chosen bs p φ = chosen bs p ψ := by
  unfold chosen
  refine List.flatMap_congr fun r hr => ?_
  refine List.map_congr_left fun c hc => ?_
  obtain ⟨h1, h2⟩ := List.mem_filter.1 hc
  exact h r hr c h1 h2

theorem chosen_sum (bs : BS) (p : ℕ → Bool) (g : Triple → K)
    (h : ∀ r ∈ bs.rows, ∀ c ∈ r.cells, p c.blockId = false → g (cellOf bs r c) = 0) :
    (chosen bs p fun r c => g (cellOf bs r c)).sum = (bs.triples.map g).sum := by
  unfold chosen BS.triples
  generalize bs.rows = rows at h
  induction rows with
  | nil => rfl
  | cons r rs ih =>
    simp only [List.flatMap_cons, List.map_append, List.sum_append]
    rw [ih fun r' hr => h r' (by simp [hr])]
    congr 1
    have hr := h r (by simp)
    generalize r.cells = cells at hr
    induction cells with
    | nil => rfl
    | cons c cs ih' =>
      rw [List.map_cons, List.map_cons, List.sum_cons, ← ih' fun c' hc => hr c' (by simp [hc])]
      cases hp : p c.blockId with
      | true => rw [List.filter_cons_of_pos (by simp [hp]), List.map_cons, List.sum_cons]; rfl
      | false =>
        rw [List.filter_cons_of_neg (by simp [hp])]
        have := hr c (by simp) hp
        rw [show g (r.block, bs.col c.blockId, c.position) = 0 from this, zero_add]

/-- The block of a chosen cell. -/
theorem chosen_blk (hM : M.Ok) {a b : ℕ} {r : BRow} (hr : r ∈ M.bs.rows) {c : Cell} (hc : c ∈ r.cells)
    (h1 : a ≤ c.blockId) (h2 : c.blockId < b) :
    (blocksOf M.bs a b)[c.blockId - a]? = some (M.bs.col c.blockId) := by
  rw [blocksOf_get (by omega), Nat.add_sub_cancel' h1]
  exact col_get (hM.bs.ids r hr c hc)

theorem sqOffset_succ {L : List Block} {k : ℕ} {b : Block} (h : L[k]? = some b) :
    sqOffset L (k + 1) = sqOffset L k + b.size * b.size := by
  unfold sqOffset
  rw [List.take_add_one, h]
  simp

theorem sqOffset_mono (L : List Block) {i j : ℕ} (h : i ≤ j) : sqOffset L i ≤ sqOffset L j := by
  obtain ⟨k, rfl⟩ := Nat.exists_eq_add_of_le h
  unfold sqOffset
  rw [List.take_add, List.map_append, List.sum_append]
  omega

theorem slot_lt {n i j : ℕ} (hi : i < n) (hj : j < n) : i * n + j < n * n := by
  have : (i + 1) * n ≤ n * n := Nat.mul_le_mul_right _ hi
  rw [Nat.add_mul] at this
  omega

/-- **What a cell adds to a value of the block diagonal.** -/
theorem gram_cell (hM : M.Ok) (x y : ℕ → K) {a b : ℕ} {r : BRow} (hr : r ∈ M.bs.rows) {c : Cell}
    (hc : c ∈ r.cells) (h1 : a ≤ c.blockId) (h2 : c.blockId < b) {k : ℕ} {blk : Block}
    (hk : (blocksOf M.bs a b)[k]? = some blk) {i j : ℕ} (hi : i < blk.size) (hj : j < blk.size) :
    Tasks.sumAt (gramEs (memOf M x y) (gramOf M.bs (layout M.bs a b) a r c).1
        (gramOf M.bs (layout M.bs a b) a r c).2.1 (gramOf M.bs (layout M.bs a b) a r c).2.2)
        (.y (sqOffset (blocksOf M.bs a b) k + i * blk.size + j)) =
      ∑ R ∈ Finset.range M.numRows, cellAt (cellOf M.bs r c).1 (cellOf M.bs r c).2.1 (cellOf M.bs r c).2.2 M.values R
        (blk.position + i) * cellAt (cellOf M.bs r c).1 (cellOf M.bs r c).2.1 (cellOf M.bs r c).2.2 M.values R
        (blk.position + j) := by
  have hblk := chosen_blk hM hr hc h1 h2
  have hlt : c.blockId - a < (blocksOf M.bs a b).length := by
    by_contra hge
    rw [List.getElem?_eq_none (by omega)] at hblk
    cases hblk
  unfold gramOf
  rw [diagPos_eq M.bs hlt]
  by_cases he : c.blockId - a = k
  · subst he
    rw [hblk] at hk
    simp only [Option.some.injEq] at hk
    subst hk
    exact gramEs_at (cell_ok hM (mem_triples hr hc)).row hi hj
  · have hz : ∀ R, cellAt (cellOf M.bs r c).1 (cellOf M.bs r c).2.1 (cellOf M.bs r c).2.2 M.values R
        (blk.position + i) = 0 := by
      intro R
      refine if_neg ?_
      rintro ⟨-, -, g3, g4⟩
      obtain ⟨p1, p2⟩ := position_eq hM.bs.cols hk
      obtain ⟨q1, q2⟩ := position_eq hM.bs.cols hblk
      simp only [cellOf] at g3 g4
      exact he (same_unique hblk hk (i := offset (blocksOf M.bs a b) k + i) (by omega) (by omega) (by omega)
        (by omega))
    rw [Finset.sum_eq_zero fun R _ => by rw [hz R, zero_mul]]
    refine sumAt_of_not_mem fun e hmem heq => he ?_
    obtain ⟨i', j', rfl⟩ := mem_matEntries.1 hmem
    injection heq with heq
    have e1 := slot_lt i'.2 j'.2
    have e2 := slot_lt hi hj
    have s1 := sqOffset_succ hblk
    have s2 := sqOffset_succ hk
    simp only at heq e1
    rcases lt_trichotomy (c.blockId - a) k with hlt | heq' | hlt
    · have := sqOffset_mono (blocksOf M.bs a b) (i := c.blockId - a + 1) (j := k) hlt
      omega
    · exact heq'
    · have := sqOffset_mono (blocksOf M.bs a b) (i := k + 1) (j := c.blockId - a) hlt
      omega

/-- The cells of the columns from block `a` to block `b`. -/
abbrev gramCells (M : BMat K) (a b : ℕ) : List Triple :=
  chosen M.bs (fun j => decide (a ≤ j ∧ j < b)) (gramOf M.bs (layout M.bs a b) a)

/-- **What the cells add to a value of the block diagonal.** -/
theorem gram_total (hM : M.Ok) (hs : M.bs.Simple) (x y : ℕ → K) {a b : ℕ} {k : ℕ} {blk : Block}
    (hk : (blocksOf M.bs a b)[k]? = some blk) {i j : ℕ} (hi : i < blk.size) (hj : j < blk.size) :
    total gramEs (memOf M x y) (gramCells M a b) (.y (sqOffset (blocksOf M.bs a b) k + i * blk.size + j)) =
      ∑ r ∈ Finset.range M.numRows, M.entry r (blk.position + i) * M.entry r (blk.position + j) := by
  obtain ⟨hc1, -⟩ := position_eq hM.bs.cols hk
  unfold total gramCells
  rw [chosen_map]
  refine (congrArg List.sum (chosen_congr_right (ψ := fun r c =>
    ∑ R ∈ Finset.range M.numRows, cellAt (cellOf M.bs r c).1 (cellOf M.bs r c).2.1 (cellOf M.bs r c).2.2 M.values R
        (blk.position + i) * cellAt (cellOf M.bs r c).1 (cellOf M.bs r c).2.1 (cellOf M.bs r c).2.2 M.values R
        (blk.position + j)) fun r hr c hc hp => ?_)).trans ?_
  · have hp := of_decide_eq_true hp
    exact gram_cell hM x y hr hc hp.1 hp.2 hk hi hj
  · rw [chosen_sum M.bs _ (fun t => ∑ R ∈ Finset.range M.numRows, cellAt t.1 t.2.1 t.2.2 M.values R
        (blk.position + i) * cellAt t.1 t.2.1 t.2.2 M.values R (blk.position + j))]
    · rw [list_sum_comm]
      exact Finset.sum_congr rfl fun r _ => entry_mul hM hs r hc1 (by omega) (by omega) (by omega) (by omega)
    · intro r hr c hc hp
      have hp := of_decide_eq_false hp
      refine Finset.sum_eq_zero fun R _ => ?_
      rw [show cellAt (cellOf M.bs r c).1 (cellOf M.bs r c).2.1 (cellOf M.bs r c).2.2 M.values R
        (blk.position + i) = 0 from if_neg ?_, zero_mul]
      rintro ⟨-, -, g3, g4⟩
      have e1 := blockOf_eq hM.bs.cols (col_get (hM.bs.ids r hr c hc)) g3 g4
      have e2 := blockOf_eq hM.bs.cols hc1 (r := blk.position + i) (by omega) (by omega)
      have hlt : a + k < b := by
        by_contra hge
        unfold blocksOf at hk
        rw [List.getElem?_take, if_neg (by omega)] at hk
        cases hk
      exact hp ⟨by omega, by omega⟩

end Ceres.PartitionedView
