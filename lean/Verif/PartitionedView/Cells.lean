import Verif.PartitionedView.Loops
import Verif.PartitionedView.Spec
import Mathlib.Data.List.TakeWhile

/-!
# The cells that the loops go through are the cells of `E` and of `F`
-/
namespace Ceres.PartitionedView

open Matrix Ceres.Tasks Ceres.BlockSparse

variable {K : Type}

/-! ## Counting -/

theorem countRowBlocksE_spec {ne : ℕ} {rows : List BRow} (hc : ∀ r ∈ rows, r.cells ≠ [])
    (hf : rows.Pairwise fun r r' => HasE ne r' → HasE ne r) :
    ∃ re, countRowBlocksE ne rows = some re ∧ re ≤ rows.length ∧ (∀ r ∈ rows.take re, HasE ne r) ∧
      ∀ r ∈ rows.drop re, ¬ HasE ne r := by
  induction rows with
  | nil => exact ⟨0, rfl, by simp⟩
  | cons r rs ih =>
    obtain ⟨re, h1, h2, h3, h4⟩ := ih (fun r' h => hc r' (by simp [h])) (List.pairwise_cons.1 hf).2
    cases hcells : r.cells with
    | nil => exact absurd hcells (hc r (by simp))
    | cons c cs =>
      have hE : HasE ne r ↔ c.blockId < ne := by
        unfold HasE
        rw [hcells]
        simp
      by_cases hlt : c.blockId < ne
      · refine ⟨re + 1, by simp [countRowBlocksE, hcells, h1, hlt], by simpa using h2, ?_, by simpa using h4⟩
        intro r' hr'
        rw [List.take_succ_cons] at hr'
        rcases List.mem_cons.1 hr' with rfl | hr'
        · exact hE.2 hlt
        · exact h3 r' hr'
      · have hno : ∀ r' ∈ rs, ¬ HasE ne r' := fun r' hr' h =>
          hlt (hE.1 ((List.pairwise_cons.1 hf).1 r' hr' h))
        have hre : re = 0 := by
          by_contra hne
          have h0 : 0 < (rs.take re).length := by rw [List.length_take]; omega
          exact hno _ (List.mem_of_mem_take (List.getElem_mem h0)) (h3 _ (List.getElem_mem h0))
        subst hre
        refine ⟨0, by simp [countRowBlocksE, hcells, h1, hlt], by omega, by simp, ?_⟩
        intro r' hr'
        rw [List.drop_zero] at hr'
        rcases List.mem_cons.1 hr' with rfl | hr'
        · exact fun h => hlt (hE.1 h)
        · exact hno r' hr'

theorem countCols_eq (bs : BS) (ne : ℕ) : countCols ne bs.cols = (colsE bs ne, colsF bs ne) := by
  unfold countCols colsE colsF
  have key : ∀ (cols : List Block) (k : ℕ) (s : ℕ × ℕ),
      (cols.zipIdx k).foldl (fun s b => if b.2 < ne then (s.1 + b.1.size, s.2) else (s.1, s.2 + b.1.size)) s =
        (s.1 + ((cols.take (ne - k)).map Block.size).sum, s.2 + ((cols.drop (ne - k)).map Block.size).sum) := by
    intro cols
    induction cols with
    | nil => intro k s; simp
    | cons b cols ih =>
      intro k s
      rw [List.zipIdx_cons, List.foldl_cons, ih]
      by_cases hk : k < ne
      · obtain ⟨j, hj⟩ := Nat.exists_eq_add_of_lt hk
        have e1 : ne - k = j + 1 := by omega
        have e2 : ne - (k + 1) = j := by omega
        simp only [hk, if_true, e1, e2, List.take_succ_cons, List.drop_succ_cons, List.map_cons, List.sum_cons]
        rw [Nat.add_assoc]
      · have e1 : ne - k = 0 := by omega
        have e2 : ne - (k + 1) = 0 := by omega
        simp only [hk, if_false, e1, e2, List.take_zero, List.drop_zero, List.map_cons, List.sum_cons, List.map_nil,
          List.sum_nil]
        rw [Nat.add_assoc]
  have := key bs.cols 0 (0, 0)
  simpa using this

theorem colsE_add_colsF (bs : BS) (ne : ℕ) : colsE bs ne + colsF bs ne = (bs.cols.map Block.size).sum := by
  unfold colsE colsF
  rw [← List.sum_append, ← List.map_append, List.take_append_drop]

/-! ## What the constructor makes -/

/-- The fields of a view of `M` with `ne` column blocks in `E`. -/
structure IsView (M : BMat K) (ne threads : ℕ) (V : View) : Prop where
  numThreads : V.threads = threads
  blocksE : V.numColBlocksE = ne
  blocksF : V.numColBlocksF = M.bs.cols.length - ne
  numColsE : V.numColsE = colsE M.bs ne
  numColsF : V.numColsF = colsF M.bs ne
  rowsLe : V.numRowBlocksE ≤ M.bs.rows.length
  rowsE : ∀ r ∈ M.bs.rows.take V.numRowBlocksE, HasE ne r
  rowsF : ∀ r ∈ M.bs.rows.drop V.numRowBlocksE, ¬ HasE ne r
  parts : 1 < threads → 0 < ne ∧
    V.eColsPartition = Partition.partitionRange (cumOf M.tbs) 0 ne (threads * 4) ∧
    V.fColsPartition = Partition.partitionRange (cumOf M.tbs) ne (ne + (M.bs.cols.length - ne)) (threads * 4)

theorem create_isView {M : BMat K} {ne threads : ℕ} (ho : Ordered M.bs ne) {V : View}
    (h : create M ne threads = some V) : IsView M ne threads V := by
  obtain ⟨re, h1, h2, h3, h4⟩ := countRowBlocksE_spec ho.cells ho.first
  unfold create at h
  rw [if_neg (by have := ho.le; omega), h1] at h
  simp only [countCols_eq] at h
  split_ifs at h with c1 c2 c3
  · simp only [Option.some.injEq] at h
    subst h
    exact ⟨rfl, rfl, rfl, rfl, rfl, h2, h3, h4, fun _ => ⟨by omega, rfl, rfl⟩⟩
  · simp only [Option.some.injEq] at h
    subst h
    exact ⟨rfl, rfl, rfl, rfl, rfl, h2, h3, h4, fun h => absurd h c2⟩

/-- **The constructor succeeds** on an ordered structure, but for several threads and no e-block. -/
theorem create_some {M : BMat K} {ne threads : ℕ} (hM : M.Ok) (ho : Ordered M.bs ne) (ht : threads ≤ 1 ∨ 0 < ne) :
    ∃ V, create M ne threads = some V := by
  obtain ⟨re, h1, -⟩ := countRowBlocksE_spec ho.cells ho.first
  unfold create
  rw [if_neg (by have := ho.le; omega), h1]
  simp only [countCols_eq]
  rw [if_pos (by rw [colsE_add_colsF]; exact hM.numCols.symm)]
  by_cases c : 1 < threads
  · rw [if_pos c, if_neg (by omega)]
    exact ⟨_, rfl⟩
  · rw [if_neg c]
    exact ⟨_, rfl⟩

/-! ## Row by row -/

/-- The cells whose column block satisfies `p`, row by row. -/
def chosen {α : Type} (bs : BS) (p : ℕ → Bool) (φ : BRow → Cell → α) : List α :=
  bs.rows.flatMap fun r => (r.cells.filter fun c => p c.blockId).map (φ r)

theorem flatMap_rows {α : Type} (rows : List BRow) (g : BRow → List α) (a n : ℕ) :
    (List.range' a n).flatMap (fun i => match rows[i]? with | some r => g r | none => []) =
      ((rows.drop a).take n).flatMap g := by
  induction n generalizing a with
  | zero => simp
  | succ n ih =>
    rw [List.range'_succ, List.flatMap_cons, ih]
    by_cases h : a < rows.length
    · rw [List.getElem?_eq_getElem h, List.drop_eq_getElem_cons h, List.take_succ_cons, List.flatMap_cons]
    · rw [List.getElem?_eq_none (by omega), List.drop_eq_nil_of_le (by omega), List.drop_eq_nil_of_le (by omega)]
      simp

theorem flatMap_atRow (bs : BS) (g : BRow → List Triple) (a n : ℕ) :
    (List.range' a n).flatMap (fun i => atRow bs i g) = ((bs.rows.drop a).take n).flatMap g :=
  flatMap_rows bs.rows g a n

variable {M : BMat K} {ne threads : ℕ} {V : View}

theorem filter_hasE {r : BRow} (h1 : ∀ c ∈ r.cells.drop 1, ne ≤ c.blockId) (h : HasE ne r) :
    (r.cells.filter fun c => decide (c.blockId < ne)) = r.cells.take 1 ∧
      (r.cells.filter fun c => decide (ne ≤ c.blockId)) = r.cells.drop 1 := by
  obtain ⟨c, hc, hlt⟩ := h
  cases hcells : r.cells with
  | nil => rw [hcells] at hc; cases hc
  | cons c' cs =>
    rw [hcells] at hc h1
    simp only [List.head?_cons, Option.some.injEq] at hc
    subst hc
    simp only [List.drop_succ_cons, List.drop_zero] at h1
    have e1 : cs.filter (fun c => decide (c.blockId < ne)) = [] := by
      rw [List.filter_eq_nil_iff]
      intro x hx
      have := h1 x hx
      simp; omega
    have e2 : cs.filter (fun c => decide (ne ≤ c.blockId)) = cs := by
      rw [List.filter_eq_self]
      intro x hx
      have := h1 x hx
      simpa using this
    simp [List.filter_cons, e1, e2, hlt]

theorem filter_not_hasE {r : BRow} (h0 : r.cells ≠ []) (h1 : ∀ c ∈ r.cells.drop 1, ne ≤ c.blockId) (h : ¬ HasE ne r) :
    (r.cells.filter fun c => decide (c.blockId < ne)) = [] ∧
      (r.cells.filter fun c => decide (ne ≤ c.blockId)) = r.cells := by
  have key : ∀ c ∈ r.cells, ne ≤ c.blockId := by
    cases hcells : r.cells with
    | nil => exact absurd hcells h0
    | cons c cs =>
      rw [hcells] at h1
      intro x hx
      rcases List.mem_cons.1 hx with rfl | hx
      · by_contra hlt
        exact h ⟨x, by rw [hcells]; rfl, by omega⟩
      · exact h1 x (by simpa using hx)
  constructor
  · rw [List.filter_eq_nil_iff]
    intro x hx
    have := key x hx
    simp; omega
  · rw [List.filter_eq_self]
    intro x hx
    have := key x hx
    simpa using this

/-- The first cells of the first row blocks are the cells of `E`. -/
theorem rows_e {α : Type} (ho : Ordered M.bs ne) (hV : IsView M ne threads V) (φ : BRow → Cell → α) :
    (M.bs.rows.take V.numRowBlocksE).flatMap (fun r => (r.cells.take 1).map (φ r)) =
      chosen M.bs (fun j => decide (j < ne)) φ := by
  unfold chosen
  conv_rhs => rw [← List.take_append_drop V.numRowBlocksE M.bs.rows, List.flatMap_append]
  have h2 : (M.bs.rows.drop V.numRowBlocksE).flatMap
      (fun r => (r.cells.filter fun c => decide (c.blockId < ne)).map (φ r)) = [] := by
    rw [List.flatMap_eq_nil_iff]
    intro r hr
    have hmem := List.mem_of_mem_drop hr
    rw [(filter_not_hasE (ho.cells r hmem) (ho.one r hmem) (hV.rowsF r hr)).1]
    rfl
  rw [h2, List.append_nil]
  refine List.flatMap_congr fun r hr => ?_
  simp only [(filter_hasE (ho.one r (List.mem_of_mem_take hr)) (hV.rowsE r hr)).1]

/-- The other cells of the first row blocks and all cells of the others are the cells of `F`. -/
theorem rows_f {α : Type} (ho : Ordered M.bs ne) (hV : IsView M ne threads V) (φ : BRow → Cell → α) :
    (M.bs.rows.take V.numRowBlocksE).flatMap (fun r => (r.cells.drop 1).map (φ r)) ++
        (M.bs.rows.drop V.numRowBlocksE).flatMap (fun r => r.cells.map (φ r)) =
      chosen M.bs (fun j => decide (ne ≤ j)) φ := by
  unfold chosen
  conv_rhs => rw [← List.take_append_drop V.numRowBlocksE M.bs.rows, List.flatMap_append]
  congr 1
  · refine List.flatMap_congr fun r hr => ?_
    simp only [(filter_hasE (ho.one r (List.mem_of_mem_take hr)) (hV.rowsE r hr)).2]
  · refine List.flatMap_congr fun r hr => ?_
    have hmem := List.mem_of_mem_drop hr
    simp only [(filter_not_hasE (ho.cells r hmem) (ho.one r hmem) (hV.rowsF r hr)).2]

/-! ## Column by column -/

/-- The row blocks of the transposed structure. -/
theorem tbs_row (bs : BS) (j : ℕ) : (createTranspose bs).rows[j]? = bs.cols[j]?.map fun b =>
    ⟨b, (inCol j bs.links).map fun l => ⟨l.1, l.2.2.position⟩, ((inCol j bs.links).map fun l => l.2.1 * b.size).sum,
      (((addLinks bs.links (emptyCols bs.cols)).take (j + 1)).map BRow.nnz).sum⟩ := by
  rw [createTranspose_eq]
  show (cumulate _)[j]? = _
  rw [cumulate, cumulateFrom_getElem?]
  simp only [addLinks, emptyCols, List.getElem?_map, List.getElem?_mapIdx]
  cases bs.cols[j]? with
  | none => rfl
  | some b => simp [addTo1]

theorem perm_cols' (L : List (ℕ × ℕ × Cell)) (a n : ℕ) :
    ((List.range' a n).flatMap fun j => inCol j L).Perm
      (L.filter fun l => decide (a ≤ l.2.2.blockId ∧ l.2.2.blockId < a + n)) := by
  have h := perm_cols (L.filter fun l => decide (a ≤ l.2.2.blockId)) (a + n)
  have e1 : ((List.range (a + n)).flatMap fun j => inCol j (L.filter fun l => decide (a ≤ l.2.2.blockId))) =
      (List.range' a n).flatMap fun j => inCol j L := by
    rw [List.range_eq_range', ← List.range'_append_1 (s := 0) (m := a) (n := n), List.flatMap_append]
    have h0 : (List.range' 0 a).flatMap (fun j => inCol j (L.filter fun l => decide (a ≤ l.2.2.blockId))) = [] := by
      rw [List.flatMap_eq_nil_iff]
      intro j hj
      rw [List.mem_range'_1] at hj
      unfold inCol
      rw [List.filter_eq_nil_iff]
      intro l hl
      have := (List.mem_filter.1 hl).2
      simp only [decide_eq_true_eq] at this ⊢
      omega
    rw [h0, List.nil_append, Nat.zero_add]
    refine List.flatMap_congr fun j hj => ?_
    rw [List.mem_range'_1] at hj
    unfold inCol
    rw [List.filter_filter]
    refine List.filter_congr fun l _ => ?_
    by_cases hl : l.2.2.blockId = j
    · simp [hl, hj.1]
    · simp [hl]
  rw [e1] at h
  refine h.trans ?_
  rw [List.filter_filter]
  refine List.Perm.of_eq (List.filter_congr fun l _ => ?_)
  rw [Bool.and_comm, ← Bool.decide_and]

/-- The cells, row by row, by means of their links. -/
theorem chosen_links {α : Type} (bs : BS) (p : ℕ → Bool) (φ : BRow → Cell → α) (d : BRow) :
    chosen bs p φ = (bs.links.filter fun l => p l.2.2.blockId).map fun l => φ (bs.rows.getD l.1 d) l.2.2 := by
  have key : ∀ (done rows : List BRow), bs.rows = done ++ rows →
      rows.flatMap (fun r => (r.cells.filter fun c => p c.blockId).map (φ r)) =
        ((linksFrom done.length rows).filter fun l => p l.2.2.blockId).map
          fun l => φ (bs.rows.getD l.1 d) l.2.2 := by
    intro done rows
    induction rows generalizing done with
    | nil => intro _; rfl
    | cons r rs ih =>
      intro h
      have := ih (done ++ [r]) (by simp [h])
      rw [List.length_append, List.length_singleton] at this
      rw [List.flatMap_cons, this, linksFrom, List.filter_append, List.map_append]
      congr 1
      rw [List.filter_map, List.map_map]
      refine List.map_congr_left fun c _ => ?_
      simp only [Function.comp_apply]
      congr 1
      rw [h]
      simp [List.getD]
  exact key [] bs.rows rfl

/-- The cells of the column blocks `a, ..., a + n - 1`, column by column, are the cells with these column
blocks. -/
theorem cols_perm {α : Type} (bs : BS) (a n : ℕ) (φ : BRow → Cell → α) (ψ : ℕ → BRow → Cell → α) (d : BRow)
    (h : ∀ j t l, (createTranspose bs).rows[j]? = some t → l ∈ inCol j bs.links →
      ψ j t ⟨l.1, l.2.2.position⟩ = φ (bs.rows.getD l.1 d) l.2.2)
    (hn : ∀ r ∈ bs.rows, ∀ c ∈ r.cells, c.blockId < bs.cols.length) :
    ((List.range' a n).flatMap fun j => match (createTranspose bs).rows[j]? with
        | some t => t.cells.map (ψ j t)
        | none => []).Perm
      (chosen bs (fun j => decide (a ≤ j ∧ j < a + n)) φ) := by
  rw [chosen_links bs _ φ d]
  refine List.Perm.trans (List.Perm.of_eq ?_) ((perm_cols' bs.links a n).map fun l => φ (bs.rows.getD l.1 d) l.2.2)
  rw [List.map_flatMap]
  refine List.flatMap_congr fun j _ => ?_
  cases ht : (createTranspose bs).rows[j]? with
  | none =>
    have hcol : bs.cols[j]? = none := by
      rw [tbs_row] at ht
      simpa using ht
    have : inCol j bs.links = [] := by
      unfold inCol
      rw [List.filter_eq_nil_iff]
      intro l hl
      obtain ⟨-, r, h1, -, h3⟩ := mem_linksFrom hl
      have := hn r (List.mem_of_getElem? h1) _ h3
      rw [List.getElem?_eq_none_iff] at hcol
      simp only [decide_eq_true_eq]
      omega
    rw [this]
    rfl
  | some t =>
    have hcells : t.cells = (inCol j bs.links).map fun l => ⟨l.1, l.2.2.position⟩ := by
      have := ht
      rw [tbs_row] at this
      cases hb : bs.cols[j]? with
      | none => rw [hb] at this; cases this
      | some b =>
        rw [hb] at this
        simp only [Option.map_some, Option.some.injEq] at this
        rw [← this]
    simp only
    rw [hcells, List.map_map]
    exact List.map_congr_left fun l hl => h j t l ht hl

/-- A column block of the transposed structure. -/
theorem tbs_block (bs : BS) {j : ℕ} {t : BRow} (h : (createTranspose bs).rows[j]? = some t) :
    bs.cols[j]? = some t.block ∧ t.block = bs.col j := by
  rw [tbs_row] at h
  cases hb : bs.cols[j]? with
  | none => rw [hb] at h; cases h
  | some b =>
    rw [hb] at h
    simp only [Option.map_some, Option.some.injEq] at h
    rw [← h]
    exact ⟨rfl, by simp [BS.col, List.getD, hb]⟩

theorem tbs_col (bs : BS) (i : ℕ) (d : BRow) (h : i < bs.rows.length) :
    (createTranspose bs).col i = (bs.rows.getD i d).block := by
  rw [createTranspose_eq]
  simp [BS.col, List.getD, List.getElem?_eq_getElem h]

/-- The cells of a column block of `E` are in the first row blocks. -/
theorem takeWhile_e (ho : Ordered M.bs ne) (hV : IsView M ne threads V) {j : ℕ} (hj : j < ne) {t : BRow}
    (ht : (createTranspose M.bs).rows[j]? = some t) :
    (t.cells.takeWhile fun c => decide (c.blockId < V.numRowBlocksE)) = t.cells := by
  refine List.takeWhile_eq_self_iff.2 ?_
  intro c hc
  rw [tbs_row] at ht
  cases hb : M.bs.cols[j]? with
  | none => rw [hb] at ht; cases ht
  | some b =>
    rw [hb] at ht
    simp only [Option.map_some, Option.some.injEq] at ht
    rw [← ht] at hc
    obtain ⟨l, hl, rfl⟩ := List.mem_map.1 hc
    obtain ⟨hl1, hl2⟩ := List.mem_filter.1 hl
    obtain ⟨-, r, h1, -, h3⟩ := mem_linksFrom hl1
    simp only [decide_eq_true_eq, Nat.sub_zero] at hl2 h1 ⊢
    by_contra hge
    have hr : r ∈ M.bs.rows.drop V.numRowBlocksE := by
      have : (M.bs.rows.drop V.numRowBlocksE)[l.1 - V.numRowBlocksE]? = some r := by
        rw [List.getElem?_drop]
        rw [← h1]
        congr 1
        omega
      exact List.mem_of_getElem? this
    have hmem := List.mem_of_mem_drop hr
    have := (filter_not_hasE (ho.cells r hmem) (ho.one r hmem) (hV.rowsF r hr)).1
    rw [List.filter_eq_nil_iff] at this
    have := this _ h3
    simp only [decide_eq_true_eq] at this
    omega

end Ceres.PartitionedView
