import Verif.InnerProduct.Values

/-!
# The products of cells add up to the product of the matrices
-/
namespace Ceres.InnerProduct

open Ceres.BlockSparse

variable {K : Type} [CommRing K]

/-- The cells of every row block are in the order of their column blocks. -/
def CellsSorted (bs : BS) : Prop := ∀ row ∈ bs.rows, (row.cells.map Cell.blockId).Pairwise (· < ·)

/-- The first row of row block `n`. -/
def rowStart (rows : List BRow) (n : ℕ) : ℕ := ((rows.take n).map fun r => r.block.size).sum

/-- The triangle that is computed, in terms of blocks. -/
def InTriangle (upper : Bool) (i j : ℕ) : Prop := if upper then i ≤ j else j ≤ i

instance (upper : Bool) (i j : ℕ) : Decidable (InTriangle upper i j) := by
  unfold InTriangle; infer_instance

theorem pairs_sum (upper : Bool) {cells : List Cell} (hs : (cells.map Cell.blockId).Pairwise (· < ·)) (i j : ℕ)
    (f : Cell → Cell → K) :
    ((pairs upper cells).map fun p => if p.1.blockId = i ∧ p.2.blockId = j then f p.1 p.2 else 0).sum =
      if InTriangle upper i j then
        (cells.map fun c => (cells.map fun d => if c.blockId = i ∧ d.blockId = j then f c d else 0).sum).sum
      else 0 := by
  rw [List.pairwise_map, List.pairwise_iff_getElem] at hs
  have hz : (cells.map fun c => (cells.map fun d => if c.blockId = i ∧ d.blockId = j then f c d else 0).sum) =
      cells.zipIdx.map fun c => (cells.map fun d => if c.1.blockId = i ∧ d.blockId = j then f c.1 d else 0).sum := by
    conv_lhs => arg 2; rw [← List.zipIdx_map_fst 0 cells]
    rw [List.map_map]
    rfl
  unfold pairs
  rw [Sparse.sum_flatMap, hz]
  have hpush : (if InTriangle upper i j then
      (cells.zipIdx.map fun c => (cells.map fun d =>
        if c.1.blockId = i ∧ d.blockId = j then f c.1 d else 0).sum).sum else 0) =
      (cells.zipIdx.map fun c => if InTriangle upper i j then (cells.map fun d =>
        if c.1.blockId = i ∧ d.blockId = j then f c.1 d else 0).sum else 0).sum := by
    split
    · rfl
    · symm
      refine List.sum_eq_zero fun x hx => ?_
      obtain ⟨_, _, rfl⟩ := List.mem_map.1 hx
      rfl
  rw [hpush]
  congr 1
  refine List.map_congr_left fun c hc => ?_
  rw [List.mem_zipIdx_iff_getElem?] at hc
  obtain ⟨hn, hcn⟩ := List.getElem?_eq_some_iff.1 hc
  rw [List.map_map]
  have hz0 : ∀ l : List Cell, (∀ d ∈ l, ¬ (c.1.blockId = i ∧ d.blockId = j)) →
      (l.map fun d => if c.1.blockId = i ∧ d.blockId = j then f c.1 d else 0).sum = 0 := by
    intro l hl
    refine List.sum_eq_zero fun x hx => ?_
    obtain ⟨d, hd, rfl⟩ := List.mem_map.1 hx
    rw [if_neg (hl d hd)]
  have hbelow : ∀ d ∈ cells.take c.2, d.blockId < c.1.blockId := by
    intro d hd
    obtain ⟨m, hm, rfl⟩ := List.getElem_of_mem hd
    rw [List.length_take] at hm
    rw [List.getElem_take, ← hcn]
    exact hs m c.2 (by omega) hn (by omega)
  have habove : ∀ d ∈ cells.drop (c.2 + 1), c.1.blockId < d.blockId := by
    intro d hd
    obtain ⟨m, hm, rfl⟩ := List.getElem_of_mem hd
    rw [List.length_drop] at hm
    rw [List.getElem_drop, ← hcn]
    exact hs c.2 _ hn (by omega) (by omega)
  have hcase : ∀ n, cells = cells.take n ++ cells.drop n := fun n => (List.take_append_drop n cells).symm
  show ((if upper = true then cells.drop c.2 else cells.take (c.2 + 1)).map fun d =>
    if c.1.blockId = i ∧ d.blockId = j then f c.1 d else 0).sum = _
  cases upper with
  | true =>
    simp only [InTriangle, if_true]
    by_cases hij : i ≤ j
    · rw [if_pos hij]
      conv_rhs => rw [hcase c.2, List.map_append, List.sum_append]
      rw [hz0 (cells.take c.2), zero_add]
      intro d hd h
      have := hbelow d hd
      omega
    · rw [if_neg hij]
      refine hz0 _ fun d hd h => ?_
      rw [List.drop_eq_getElem_cons hn] at hd
      rcases List.mem_cons.1 hd with rfl | hd
      · rw [hcn] at h
        omega
      · have := habove d hd
        omega
  | false =>
    simp only [InTriangle, Bool.false_eq_true, if_false]
    by_cases hij : j ≤ i
    · rw [if_pos hij]
      conv_rhs => rw [hcase (c.2 + 1), List.map_append, List.sum_append]
      rw [hz0 (cells.drop (c.2 + 1)), add_zero]
      intro d hd h
      have := habove d hd
      omega
    · rw [if_neg hij]
      refine hz0 _ fun d hd h => ?_
      rw [List.take_succ_eq_append_getElem hn] at hd
      rcases List.mem_append.1 hd with hd | hd
      · have := hbelow d hd
        omega
      · rw [List.mem_singleton] at hd
        rw [hd, hcn] at h
        omega

/-! ## Entries -/

/-- Entry `a` of column block `i` in row `k` of a row block. -/
def rowEntry (bs : BS) (v : ℕ → K) (R : BRow) (k i a : ℕ) : K :=
  (R.cells.map fun c => if c.blockId = i then v (c.position + k * (bs.col i).size + a) else 0).sum

theorem sum_only {α : Type} {p : ℕ} {rows : List α} (blk : α → Block) (hl : Laid p (rows.map blk)) {R : α}
    (hR : R ∈ rows) {r : ℕ} (h1 : (blk R).position ≤ r) (h2 : r < (blk R).position + (blk R).size) (g : α → K)
    (hg : ∀ x, ¬ ((blk x).position ≤ r ∧ r < (blk x).position + (blk x).size) → g x = 0) :
    (rows.map g).sum = g R := by
  induction rows generalizing p with
  | nil => cases hR
  | cons x rows ih =>
    rw [List.map_cons] at hl
    rw [List.map_cons, List.sum_cons]
    have hx := hl.1
    by_cases hin : (blk x).position ≤ r ∧ r < (blk x).position + (blk x).size
    · have hrest : (rows.map g).sum = 0 := by
        refine List.sum_eq_zero fun z hz => ?_
        obtain ⟨y, hy, rfl⟩ := List.mem_map.1 hz
        have := laid_bounds hl.2 (List.mem_map.2 ⟨y, hy, rfl⟩)
        exact hg y (by omega)
      rcases List.mem_cons.1 hR with rfl | hR
      · rw [hrest, add_zero]
      · exfalso
        have := laid_bounds hl.2 (List.mem_map.2 ⟨R, hR, rfl⟩)
        omega
    · rw [hg x hin, zero_add]
      rcases List.mem_cons.1 hR with rfl | hR
      · exact absurd ⟨h1, h2⟩ hin
      · exact ih hl.2 hR

theorem col_getElem {bs : BS} {i : ℕ} (hi : i < bs.cols.length) : bs.cols[i]? = some (bs.col i) := by
  unfold BS.col
  rw [List.getD_eq_getElem?_getD, List.getElem?_eq_getElem hi]
  rfl

theorem entry_row {bs : BS} (hc : Laid 0 bs.cols) (hr : Laid 0 (bs.rows.map BRow.block))
    (hids : ∀ row ∈ bs.rows, ∀ cell ∈ row.cells, cell.blockId < bs.cols.length) (v : ℕ → K) {R : BRow}
    (hR : R ∈ bs.rows) {k i a : ℕ} (hk : k < R.block.size) (hi : i < bs.cols.length) (ha : a < (bs.col i).size) :
    bs.entry v (R.block.position + k) ((bs.col i).position + a) = rowEntry bs v R k i a := by
  unfold BS.entry
  rw [sum_only BRow.block hr hR (r := R.block.position + k) (by omega) (by omega)]
  · unfold rowEntry
    congr 1
    refine List.map_congr_left fun c hcm => ?_
    unfold cellAt
    have hcl := hids R hR c hcm
    by_cases hci : c.blockId = i
    · rw [if_pos hci, hci, if_pos ⟨by omega, by omega, by omega, by omega⟩]
      congr 2
      · rw [Nat.add_sub_cancel_left]
      · omega
    · rw [if_neg hci, if_neg]
      rintro ⟨-, -, h1, h2⟩
      have e1 := blockOf_eq hc (col_getElem hcl) h1 h2
      have e2 := blockOf_eq hc (col_getElem hi) (r := (bs.col i).position + a) (by omega) (by omega)
      exact hci (e1.symm.trans e2)
  · intro x hx
    refine List.sum_eq_zero fun z hz => ?_
    obtain ⟨c, _, rfl⟩ := List.mem_map.1 hz
    unfold cellAt
    rw [if_neg]
    rintro ⟨h1, h2, -⟩
    exact hx ⟨h1, h2⟩

theorem sum_swap {α : Type} (l : List α) (n : ℕ) (f : ℕ → α → K) :
    ((List.range n).map fun k => (l.map fun x => f k x).sum).sum =
      (l.map fun x => ((List.range n).map fun k => f k x).sum).sum := by
  induction l with
  | nil => simp
  | cons x l ih =>
    simp only [List.map_cons, List.sum_cons]
    rw [List.sum_map_add, ih]

theorem sum_mul_sum {α β : Type} (l : List α) (m : List β) (f : α → K) (g : β → K) :
    (l.map f).sum * (m.map g).sum = (l.map fun x => (m.map fun y => f x * g y).sum).sum := by
  rw [← List.sum_map_mul_right]
  congr 1
  refine List.map_congr_left fun x _ => ?_
  rw [List.sum_map_mul_left]

/-- The rows of one row block. -/
theorem row_products (bs : BS) (v : ℕ → K) (upper : Bool) {R : BRow}
    (hs : (R.cells.map Cell.blockId).Pairwise (· < ·)) (i a j b : ℕ) :
    ((pairs upper R.cells).map fun p => contribution bs v i a j b (R.block.size, p)).sum =
      if InTriangle upper i j then
        ((List.range R.block.size).map fun k => rowEntry bs v R k i a * rowEntry bs v R k j b).sum
      else 0 := by
  unfold contribution
  simp only
  rw [pairs_sum upper hs i j fun c d => prodAt v R.block.size (bs.col i).size (bs.col j).size c.position d.position a b]
  split
  · unfold rowEntry
    simp only [sum_mul_sum]
    rw [sum_swap]
    congr 1
    refine List.map_congr_left fun c _ => ?_
    rw [sum_swap]
    congr 1
    refine List.map_congr_left fun d _ => ?_
    unfold prodAt
    by_cases h1 : c.blockId = i
    · by_cases h2 : d.blockId = j
      · simp [h1, h2]
      · simp [h2]
    · simp [h1]
  · rfl

theorem laid_drop {p n : ℕ} {l : List Block} (h : Laid p l) :
    Laid (p + ((l.take n).map Block.size).sum) (l.drop n) := by
  induction l generalizing p n with
  | nil => simp [Laid]
  | cons c l ih =>
    cases n with
    | zero => simpa using h
    | succ n =>
      rw [List.take_succ_cons, List.map_cons, List.sum_cons, List.drop_succ_cons, ← Nat.add_assoc]
      exact ih h.2

theorem sum_rows {p : ℕ} {rows : List BRow} (hl : Laid p (rows.map BRow.block)) (F : ℕ → K) :
    (rows.map fun R => ((List.range R.block.size).map fun k => F (R.block.position + k)).sum).sum =
      ∑ k ∈ Finset.Ico p (p + (rows.map fun R => R.block.size).sum), F k := by
  induction rows generalizing p with
  | nil => simp
  | cons R rows ih =>
    rw [List.map_cons] at hl
    rw [List.map_cons, List.sum_cons, ih hl.2, List.map_cons, List.sum_cons, ← Nat.add_assoc,
      ← Finset.sum_Ico_consecutive F (Nat.le_add_right p R.block.size) (Nat.le_add_right _ _)]
    congr 1
    rw [hl.1, Finset.sum_Ico_eq_sum_range, Nat.add_sub_cancel_left]
    generalize R.block.size = n
    induction n with
    | zero => rfl
    | succ n ih =>
      rw [List.range_succ, List.map_append, List.sum_append, ih, Finset.sum_range_succ]
      simp

theorem rowStart_add (rows : List BRow) {s e : ℕ} (h : s ≤ e) :
    rowStart rows s + ((rowRange rows s e).map fun R => R.block.size).sum = rowStart rows e := by
  unfold rowStart rowRange
  conv_rhs => rw [← List.take_append_drop s (rows.take e)]
  rw [List.map_append, List.sum_append, List.take_take, min_eq_left h]

/-- **All the contributions** to an element add up to the element of the product of the matrices. -/
theorem contributions {bs : BS} (hc : Laid 0 bs.cols) (hr : Laid 0 (bs.rows.map BRow.block))
    (hids : ∀ row ∈ bs.rows, ∀ cell ∈ row.cells, cell.blockId < bs.cols.length) (hs : CellsSorted bs) (v : ℕ → K)
    (upper : Bool) {s e : ℕ} (hse : s ≤ e) {i a j b : ℕ} (hi : i < bs.cols.length) (ha : a < (bs.col i).size)
    (hj : j < bs.cols.length) (hb : b < (bs.col j).size) :
    ((visits upper (rowRange bs.rows s e)).map (contribution bs v i a j b)).sum =
      if InTriangle upper i j then
        ∑ k ∈ Finset.Ico (rowStart bs.rows s) (rowStart bs.rows e),
          bs.entry v k ((bs.col i).position + a) * bs.entry v k ((bs.col j).position + b)
      else 0 := by
  have hsub : ∀ R ∈ rowRange bs.rows s e, R ∈ bs.rows := fun R hR =>
    List.mem_of_mem_take (List.mem_of_mem_drop hR)
  have hl : Laid (rowStart bs.rows s) ((rowRange bs.rows s e).map BRow.block) := by
    have h1 := laid_drop (n := s) (laid_take (n := e) hr)
    have h2 : rowStart bs.rows s = 0 + ((((bs.rows.map BRow.block).take e).take s).map Block.size).sum := by
      unfold rowStart
      rw [List.take_take, min_eq_left hse, Nat.zero_add, ← List.map_take, List.map_map]
      rfl
    have h3 : (rowRange bs.rows s e).map BRow.block = ((bs.rows.map BRow.block).take e).drop s := by
      unfold rowRange
      rw [List.map_drop, List.map_take]
    rw [h2, h3]
    exact h1
  have hsum : ((visits upper (rowRange bs.rows s e)).map (contribution bs v i a j b)).sum =
      ((rowRange bs.rows s e).map fun R => if InTriangle upper i j then
        ((List.range R.block.size).map fun k => rowEntry bs v R k i a * rowEntry bs v R k j b).sum else 0).sum := by
    unfold visits
    rw [Sparse.sum_flatMap]
    congr 1
    refine List.map_congr_left fun R hR => ?_
    rw [List.map_map]
    exact row_products bs v upper (hs R (hsub R hR)) i a j b
  rw [hsum]
  split
  · rw [← rowStart_add bs.rows hse, ← sum_rows hl]
    congr 1
    refine List.map_congr_left fun R hR => ?_
    congr 1
    refine List.map_congr_left fun k hk => ?_
    rw [List.mem_range] at hk
    rw [entry_row hc hr hids v (hsub R hR) hk hi ha, entry_row hc hr hids v (hsub R hR) hk hj hb]
  · refine List.sum_eq_zero fun x hx => ?_
    obtain ⟨_, _, rfl⟩ := List.mem_map.1 hx
    rfl

end Ceres.InnerProduct
