import Verif.PartitionedView.Left

/-!
# The structure of block diagonal matrices
-/
namespace Ceres.PartitionedView

open Matrix Ceres.Tasks Ceres.BlockSparse

variable {K : Type}

/-- The number of columns of the first `k` blocks. -/
def offset (L : List Block) (k : ℕ) : ℕ := ((L.take k).map Block.size).sum

/-- The number of values of the first `k` diagonal blocks. -/
def sqOffset (L : List Block) (k : ℕ) : ℕ := ((L.take k).map fun b => b.size * b.size).sum

theorem layoutFrom_get (pos cell id : ℕ) (L : List Block) (k : ℕ) :
    (layoutFrom pos cell id L)[k]? = L[k]?.map fun b =>
      ⟨⟨b.size, pos + offset L k⟩, [⟨id + k, cell + sqOffset L k⟩], 0, 0⟩ := by
  induction L generalizing pos cell id k with
  | nil => simp [layoutFrom]
  | cons b L ih =>
    cases k with
    | zero => simp [layoutFrom, offset, sqOffset]
    | succ k =>
      simp only [layoutFrom, List.getElem?_cons_succ, ih]
      congr 1
      funext b'
      simp [offset, sqOffset]
      omega

/-- The blocks that a block diagonal matrix is made for. -/
def blocksOf (bs : BS) (a b : ℕ) : List Block := (bs.cols.drop a).take (b - a)

theorem layout_row (bs : BS) (a b k : ℕ) : (layout bs a b).rows[k]? = (blocksOf bs a b)[k]?.map fun blk =>
    ⟨⟨blk.size, offset (blocksOf bs a b) k⟩, [⟨k, sqOffset (blocksOf bs a b) k⟩], 0, 0⟩ := by
  have := layoutFrom_get 0 0 0 (blocksOf bs a b) k
  simp only [Nat.zero_add] at this
  exact this

theorem layout_col (bs : BS) (a b k : ℕ) : (layout bs a b).cols[k]? = (blocksOf bs a b)[k]?.map fun blk =>
    ⟨blk.size, offset (blocksOf bs a b) k⟩ := by
  have h : (layout bs a b).cols = (layout bs a b).rows.map BRow.block := rfl
  rw [h, List.getElem?_map, layout_row]
  cases (blocksOf bs a b)[k]? <;> rfl

theorem layout_length (bs : BS) (a b : ℕ) : (layout bs a b).rows.length = (blocksOf bs a b).length := by
  have key : ∀ (L : List Block) (p c i : ℕ), (layoutFrom p c i L).length = L.length := by
    intro L
    induction L with
    | nil => intros; rfl
    | cons b L ih => intro p c i; simp [layoutFrom, ih]
  exact key _ _ _ _

theorem diagPos_eq (bs : BS) {a b k : ℕ} (h : k < (blocksOf bs a b).length) :
    diagPos (layout bs a b) k = sqOffset (blocksOf bs a b) k := by
  unfold diagPos
  rw [layout_row, List.getElem?_eq_getElem h]
  rfl

theorem laid_blocks (pos cell id : ℕ) (L : List Block) : Laid pos ((layoutFrom pos cell id L).map BRow.block) := by
  induction L generalizing pos cell id with
  | nil => trivial
  | cons b L ih => exact ⟨rfl, ih _ _ _⟩

/-- The places of the diagonal blocks among the values. -/
def cellsFrom (cell : ℕ) : List Block → List Block
  | [] => []
  | b :: L => ⟨b.size * b.size, cell⟩ :: cellsFrom (cell + b.size * b.size) L

theorem laid_cells (cell : ℕ) (L : List Block) : Laid cell (cellsFrom cell L) := by
  induction L generalizing cell with
  | nil => trivial
  | cons b L ih => exact ⟨rfl, ih _⟩

theorem cellsFrom_get (cell : ℕ) (L : List Block) (k : ℕ) :
    (cellsFrom cell L)[k]? = L[k]?.map fun b => ⟨b.size * b.size, cell + sqOffset L k⟩ := by
  induction L generalizing cell k with
  | nil => simp [cellsFrom]
  | cons b L ih =>
    cases k with
    | zero => simp [cellsFrom, sqOffset]
    | succ k =>
      simp only [cellsFrom, List.getElem?_cons_succ, ih]
      congr 1
      funext b'
      simp [sqOffset]
      omega

theorem cellsFrom_length (cell : ℕ) (L : List Block) : (cellsFrom cell L).length = L.length := by
  induction L generalizing cell with
  | nil => rfl
  | cons b L ih => simp [cellsFrom, ih]

theorem cellsFrom_sum (cell : ℕ) (L : List Block) :
    ((cellsFrom cell L).map Block.size).sum = sqOffset L L.length := by
  unfold sqOffset
  rw [List.take_length]
  induction L generalizing cell with
  | nil => rfl
  | cons b L ih => simp [cellsFrom, ih]

/-- A row block of the layout has one cell, on the diagonal. -/
theorem layout_mem {bs : BS} {a b : ℕ} {r : BRow} (h : r ∈ (layout bs a b).rows) :
    ∃ k blk, (blocksOf bs a b)[k]? = some blk ∧ r.block = ⟨blk.size, offset (blocksOf bs a b) k⟩ ∧
      r.cells = [⟨k, sqOffset (blocksOf bs a b) k⟩] ∧ (layout bs a b).col k = r.block ∧
      (layout bs a b).rows[k]? = some r := by
  obtain ⟨k, hk, rfl⟩ := List.getElem_of_mem h
  have h1 := layout_row bs a b k
  rw [List.getElem?_eq_getElem hk] at h1
  cases hb : (blocksOf bs a b)[k]? with
  | none => rw [hb] at h1; cases h1
  | some blk =>
    rw [hb] at h1
    simp only [Option.map_some, Option.some.injEq] at h1
    refine ⟨k, blk, hb, by rw [h1], by rw [h1], ?_, List.getElem?_eq_getElem hk⟩
    rw [h1]
    simp [BS.col, List.getD, layout_col, hb]

theorem layout_nnz (bs : BS) (a b : ℕ) (v : ℕ → K) :
    (BMat.ofStructure (layout bs a b) v).nnz = sqOffset (blocksOf bs a b) (blocksOf bs a b).length := by
  have h1 : (BMat.ofStructure (layout bs a b) v).nnz =
      ((layout bs a b).rows.map fun r => r.block.size * r.block.size).sum := by
    show ((layout bs a b).rows.map fun r => (r.cells.map fun c =>
      ((layout bs a b).col c.blockId).size * r.block.size).sum).sum = _
    congr 1
    refine List.map_congr_left fun r hr => ?_
    obtain ⟨k, blk, -, -, h3, h4, -⟩ := layout_mem hr
    simp [h3, h4]
  rw [h1]
  have key : ∀ (L : List Block) (p c i : ℕ), ((layoutFrom p c i L).map fun r => r.block.size * r.block.size).sum =
      (L.map fun b => b.size * b.size).sum := by
    intro L
    induction L with
    | nil => intros; rfl
    | cons b L ih => intro p c i; simp [layoutFrom, ih]
  unfold sqOffset
  rw [List.take_length]
  exact key _ _ _ _

/-- **The layout of a block diagonal matrix is a matrix.** -/
theorem layout_ok (bs : BS) (a b : ℕ) (v : ℕ → K) : (BMat.ofStructure (layout bs a b) v).Ok where
  bs :=
    { cols := laid_blocks 0 0 0 _
      rows := laid_blocks 0 0 0 _
      ids := by
        intro r hr c hc
        obtain ⟨k, blk, h1, -, h3, -, h5⟩ := layout_mem (bs := bs) (a := a) (b := b) hr
        rw [h3] at hc
        simp only [List.mem_singleton] at hc
        subst hc
        show k < ((layout bs a b).rows.map BRow.block).length
        rw [List.length_map]
        by_contra hge
        rw [List.getElem?_eq_none (by omega)] at h5
        cases h5
      slots := by
        refine List.Perm.of_eq ?_
        rw [layout_nnz]
        have h1 : (layout bs a b).slots = (layout bs a b).rows.flatMap fun r =>
            List.range' ((r.cells.head?.map Cell.position).getD 0) (r.block.size * r.block.size) := by
          unfold BS.slots
          refine List.flatMap_congr fun r hr => ?_
          obtain ⟨k, blk, -, -, h3, h4, -⟩ := layout_mem hr
          simp [h3, h4]
        show (layout bs a b).slots = _
        rw [h1]
        have key : ∀ (L : List Block) (p c i : ℕ), ((layoutFrom p c i L).flatMap fun r =>
            List.range' ((r.cells.head?.map Cell.position).getD 0) (r.block.size * r.block.size)) =
            List.range' c (L.map fun b => b.size * b.size).sum := by
          intro L
          induction L with
          | nil => intros; rfl
          | cons b L ih =>
            intro p c i
            simp only [layoutFrom, List.flatMap_cons, ih, List.map_cons, List.sum_cons]
            simp [List.range'_append_1]
        refine (key _ 0 0 0).trans ?_
        unfold sqOffset
        rw [List.take_length, List.range_eq_range']
        rfl }
  tbs := rfl
  numRows := rfl
  numCols := rfl
  capacity := le_rfl

theorem layout_numCols (bs : BS) (a b : ℕ) (v : ℕ → K) :
    (BMat.ofStructure (layout bs a b) v).numCols = offset (blocksOf bs a b) (blocksOf bs a b).length ∧
      (BMat.ofStructure (layout bs a b) v).numRows = offset (blocksOf bs a b) (blocksOf bs a b).length := by
  have key : ∀ (L : List Block) (p c i : ℕ), ((layoutFrom p c i L).map fun r => r.block.size).sum =
      (L.map Block.size).sum := by
    intro L
    induction L with
    | nil => intros; rfl
    | cons b L ih => intro p c i; simp [layoutFrom, ih]
  unfold offset
  rw [List.take_length]
  refine ⟨?_, key _ _ _ _⟩
  show (((layout bs a b).rows.map BRow.block).map Block.size).sum = _
  rw [List.map_map]
  exact key _ _ _ _

/-! ## Entries -/

theorem sum_one {α : Type} [AddCommMonoid K] {l : List α} {k : ℕ} {x : α} (h : l[k]? = some x) (g : α → K)
    (hz : ∀ j y, l[j]? = some y → j ≠ k → g y = 0) : (l.map g).sum = g x := by
  induction l generalizing k with
  | nil => cases h
  | cons z l ih =>
    cases k with
    | zero =>
      simp only [List.getElem?_cons_zero, Option.some.injEq] at h
      subst h
      rw [List.map_cons, List.sum_cons, List.sum_eq_zero, add_zero]
      intro w hw
      obtain ⟨y, hy, rfl⟩ := List.mem_map.1 hw
      obtain ⟨j, hj, rfl⟩ := List.getElem_of_mem hy
      exact hz (j + 1) _ (by simp [List.getElem?_eq_getElem hj]) (by omega)
    | succ k =>
      rw [List.getElem?_cons_succ] at h
      rw [List.map_cons, List.sum_cons, hz 0 z (by simp) (by omega), zero_add]
      exact ih h fun j y hy hj => hz (j + 1) y (by simpa using hy) (by omega)

theorem layout_entry_rows [AddCommMonoid K] (bs : BS) (a b : ℕ) (v : ℕ → K) (i j : ℕ) :
    (BMat.ofStructure (layout bs a b) v).entry i j = ((layout bs a b).rows.map fun r =>
      cellAt r.block r.block ((r.cells.head?.map Cell.position).getD 0) v i j).sum := by
  show ((layout bs a b).rows.map fun row => (row.cells.map fun cell =>
    cellAt row.block ((layout bs a b).col cell.blockId) cell.position v i j).sum).sum = _
  congr 1
  refine List.map_congr_left fun r hr => ?_
  obtain ⟨k, blk, -, -, h3, h4, -⟩ := layout_mem hr
  simp [h3, h4]

theorem offset_succ {L : List Block} {k : ℕ} {b : Block} (h : L[k]? = some b) :
    offset L (k + 1) = offset L k + b.size := sum_take_succ L h

theorem offset_mono (L : List Block) {i j : ℕ} (h : i ≤ j) : offset L i ≤ offset L j := sum_take_mono L h

/-- Two columns are in the same block of a list. -/
def Same (L : List Block) (i j : ℕ) : Prop := ∃ k blk, L[k]? = some blk ∧
  offset L k ≤ i ∧ i < offset L k + blk.size ∧ offset L k ≤ j ∧ j < offset L k + blk.size

theorem same_unique {L : List Block} {i k k' : ℕ} {b b' : Block} (h : L[k]? = some b) (h' : L[k']? = some b')
    (h1 : offset L k ≤ i) (h2 : i < offset L k + b.size) (h3 : offset L k' ≤ i) (h4 : i < offset L k' + b'.size) :
    k = k' := by
  have e1 := offset_succ h
  have e2 := offset_succ h'
  rcases lt_trichotomy k k' with hlt | rfl | hlt
  · have := offset_mono L (i := k + 1) (j := k') hlt
    omega
  · rfl
  · have := offset_mono L (i := k' + 1) (j := k) hlt
    omega

/-- The entry of a block diagonal matrix within a block. -/
theorem layout_entry [AddCommMonoid K] (bs : BS) {a b k : ℕ} {blk : Block} (v : ℕ → K)
    (h : (blocksOf bs a b)[k]? = some blk) {i j : ℕ} (hi : i < blk.size) (hj : j < blk.size) :
    (BMat.ofStructure (layout bs a b) v).entry (offset (blocksOf bs a b) k + i) (offset (blocksOf bs a b) k + j) =
      v (sqOffset (blocksOf bs a b) k + i * blk.size + j) := by
  rw [layout_entry_rows]
  have hr := layout_row bs a b k
  rw [h, Option.map_some] at hr
  rw [sum_one hr]
  · show cellAt _ _ _ v _ _ = _
    unfold cellAt
    rw [if_pos ⟨by simp, by simpa using hi, by simp, by simpa using hj⟩]
    simp
  · intro j' r hr' hne
    have hr2 := layout_row bs a b j'
    rw [hr'] at hr2
    cases hb : (blocksOf bs a b)[j']? with
    | none => rw [hb] at hr2; cases hr2
    | some blk' =>
      rw [hb] at hr2
      simp only [Option.map_some, Option.some.injEq] at hr2
      subst hr2
      refine if_neg ?_
      rintro ⟨g1, g2, -⟩
      exact hne (same_unique hb h g1 g2 (by omega) (by omega))

/-- The entry of a block diagonal matrix outside of its blocks. -/
theorem layout_entry_zero [AddCommMonoid K] (bs : BS) {a b : ℕ} (v : ℕ → K) {i j : ℕ}
    (h : ¬ Same (blocksOf bs a b) i j) : (BMat.ofStructure (layout bs a b) v).entry i j = 0 := by
  rw [layout_entry_rows]
  refine List.sum_eq_zero fun z hz => ?_
  obtain ⟨r, hr, rfl⟩ := List.mem_map.1 hz
  obtain ⟨k, blk, h1, h2, -⟩ := layout_mem hr
  refine if_neg ?_
  rw [h2]
  rintro ⟨g1, g2, g3, g4⟩
  exact h ⟨k, blk, h1, g1, g2, g3, g4⟩

/-- Every value belongs to an entry. -/
theorem layout_slot (L : List Block) {p : ℕ} (h : p < sqOffset L L.length) :
    ∃ k blk i j, L[k]? = some blk ∧ i < blk.size ∧ j < blk.size ∧ p = sqOffset L k + i * blk.size + j := by
  induction L using List.reverseRecOn with
  | nil => simp [sqOffset] at h
  | append_singleton L b ih =>
    have e1 : sqOffset (L ++ [b]) (L ++ [b]).length = sqOffset L L.length + b.size * b.size := by
      simp [sqOffset]
    have e2 : ∀ k, k ≤ L.length → sqOffset (L ++ [b]) k = sqOffset L k := by
      intro k hk
      unfold sqOffset
      rw [List.take_append_of_le_length hk]
    rw [e1] at h
    by_cases hp : p < sqOffset L L.length
    · obtain ⟨k, blk, i, j, h1, h2, h3, h4⟩ := ih hp
      have hk : k < L.length := by
        by_contra hge
        rw [List.getElem?_eq_none (by omega)] at h1
        cases h1
      refine ⟨k, blk, i, j, ?_, h2, h3, ?_⟩
      · rw [List.getElem?_append_left hk, h1]
      · rw [e2 k hk.le, h4]
    · have hb : 0 < b.size := by
        by_contra hb
        have : b.size = 0 := by omega
        rw [this] at h
        omega
      refine ⟨L.length, b, (p - sqOffset L L.length) / b.size, (p - sqOffset L L.length) % b.size, by simp,
        ?_, Nat.mod_lt _ hb, ?_⟩
      · rw [Nat.div_lt_iff_lt_mul hb]
        omega
      · rw [e2 _ le_rfl]
        have := Nat.div_add_mod' (p - sqOffset L L.length) b.size
        omega

/-! ## Blocks of the layout and blocks of the matrix -/

theorem blocksOf_get {bs : BS} {a b k : ℕ} (hk : a + k < b) : (blocksOf bs a b)[k]? = bs.cols[a + k]? := by
  unfold blocksOf
  rw [List.getElem?_take, if_pos (by omega), List.getElem?_drop]

theorem blocksOf_length {bs : BS} {a b : ℕ} (h : a ≤ b) (hb : b ≤ bs.cols.length) :
    (blocksOf bs a b).length = b - a := by
  unfold blocksOf
  rw [List.length_take, List.length_drop]
  omega

/-- The position of a column block. -/
theorem position_eq {bs : BS} (h : Laid 0 bs.cols) {a b k : ℕ} {blk : Block}
    (hb : (blocksOf bs a b)[k]? = some blk) : bs.cols[a + k]? = some blk ∧
      blk.position = colsE bs a + offset (blocksOf bs a b) k := by
  have hk : a + k < b := by
    by_contra hge
    unfold blocksOf at hb
    rw [List.getElem?_take, if_neg (by omega)] at hb
    cases hb
  rw [blocksOf_get hk] at hb
  refine ⟨hb, ?_⟩
  rw [laid_position h hb]
  unfold colsE offset blocksOf
  rw [List.take_add, List.map_append, List.sum_append, List.take_take, Nat.min_eq_left (by omega), Nat.zero_add]

theorem sameBlock_iff {bs : BS} (h : Laid 0 bs.cols) {a b : ℕ} (hab : b ≤ bs.cols.length) (i j : ℕ) :
    SameBlock bs a b i j ↔ Same (blocksOf bs a b) i j := by
  constructor
  · rintro ⟨c, h1, h2, blk, h3, h4, h5, h6, h7⟩
    obtain ⟨k, rfl⟩ := Nat.exists_eq_add_of_le h1
    have hg := blocksOf_get (bs := bs) h2
    rw [h3] at hg
    have := (position_eq h hg).2
    exact ⟨k, blk, hg, by omega, by omega, by omega, by omega⟩
  · rintro ⟨k, blk, h1, h2, h3, h4, h5⟩
    obtain ⟨g1, g2⟩ := position_eq h h1
    have hk : a + k < b := by
      by_contra hge
      unfold blocksOf at h1
      rw [List.getElem?_take, if_neg (by omega)] at h1
      cases h1
    exact ⟨a + k, by omega, hk, blk, g1, by omega, by omega, by omega, by omega⟩

end Ceres.PartitionedView
