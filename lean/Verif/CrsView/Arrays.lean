import Verif.CrsView.Layout

/-!
# What the kernels leave in the arrays
-/
namespace Ceres.CrsView

open Ceres.BlockSparse
open Ceres.Evaluator (exec)

variable {K : Type}

/-! ## Kernels -/

theorem exec_other {α : Type} (ws : List (ℕ × α)) (a : ℕ → α) (k : ℕ) (h : ∀ w ∈ ws, w.1 ≠ k) :
    exec ws a k = a k := by
  induction ws generalizing a with
  | nil => rfl
  | cons w ws ih =>
    show exec ws (Function.update a w.1 w.2) k = _
    rw [ih _ fun w' hw => h w' (by simp [hw]), Function.update_of_ne fun e => h w (by simp) e.symm]

theorem exec_unique {α : Type} (ws : List (ℕ × α)) (a : ℕ → α) (k : ℕ) (v : α)
    (h1 : ∀ w ∈ ws, w.1 = k → w.2 = v) (h2 : ∃ w ∈ ws, w.1 = k) : exec ws a k = v := by
  induction ws generalizing a with
  | nil => obtain ⟨w, hw, -⟩ := h2; cases hw
  | cons w ws ih =>
    show exec ws (Function.update a w.1 w.2) k = _
    by_cases h : ∃ w ∈ ws, w.1 = k
    · exact ih _ (fun w' hw => h1 w' (by simp [hw])) h
    · rw [exec_other _ _ _ fun w' hw e => h ⟨w', hw, e⟩]
      obtain ⟨w', hw', he⟩ := h2
      rcases List.mem_cons.1 hw' with rfl | hw'
      · rw [he, Function.update_self]
        exact h1 w' (by simp) he
      · exact absurd ⟨w', hw', he⟩ h

theorem KernelRun.get {α : Type} {stores : List (ℕ × α)} {a a' : ℕ → α} (h : KernelRun stores a a') {k : ℕ}
    {v : α} (h1 : ∀ w ∈ stores, w.1 = k → w.2 = v) (h2 : ∃ w ∈ stores, w.1 = k) : a' k = v := by
  obtain ⟨ws, hp, rfl⟩ := h
  refine exec_unique ws a k v (fun w hw => h1 w (hp.subset hw)) ?_
  obtain ⟨w, hw, he⟩ := h2
  exact ⟨w, hp.symm.subset hw, he⟩

/-! ## Rows -/

theorem rowLists_get (bs : BS) (rows : List BRow) (p : ℕ) (hl : Laid p (rows.map BRow.block)) {i k : ℕ} {r : BRow}
    (hr : rows[i]? = some r) (hk : k < r.block.size) :
    p ≤ r.block.position ∧
    (rowLists false bs rows)[r.block.position - p + k]? = some (rowList false bs r.block.size k r.cells) := by
  induction rows generalizing p i with
  | nil => simp at hr
  | cons r0 rs ih =>
    have hRL : rowLists false bs (r0 :: rs) =
        ((List.range r0.block.size).map fun i => rowList false bs r0.block.size i r0.cells) ++
          rowLists false bs rs := rfl
    obtain ⟨h1, h2⟩ := hl
    cases i with
    | zero =>
      have : r0 = r := by simpa using hr
      subst this
      refine ⟨by omega, ?_⟩
      rw [hRL, h1, Nat.sub_self, Nat.zero_add, List.getElem?_append_left (by simpa using hk), List.getElem?_map,
        List.getElem?_range hk]
      rfl
    | succ i =>
      obtain ⟨k1, k2⟩ := ih (p + r0.block.size) h2 (by simpa using hr)
      refine ⟨by omega, ?_⟩
      rw [hRL, List.getElem?_append_right (by simp; omega)]
      simp only [List.length_map, List.length_range]
      rw [← k2]
      congr 1
      omega

theorem rowLists_own (bs : BS) (rows : List BRow) (p : ℕ) (hl : Laid p (rows.map BRow.block)) {t : ℕ}
    (ht : t < (rowLists false bs rows).length) :
    ∃ (i : ℕ) (r : BRow) (k : ℕ), rows[i]? = some r ∧ k < r.block.size ∧ p + t = r.block.position + k := by
  induction rows generalizing p t with
  | nil => simp [rowLists] at ht
  | cons r0 rs ih =>
    have hRL : rowLists false bs (r0 :: rs) =
        ((List.range r0.block.size).map fun i => rowList false bs r0.block.size i r0.cells) ++
          rowLists false bs rs := rfl
    obtain ⟨h1, h2⟩ := hl
    by_cases h : t < r0.block.size
    · exact ⟨0, r0, t, rfl, h, by omega⟩
    · rw [hRL, List.length_append, List.length_map, List.length_range] at ht
      obtain ⟨i, r, k, k1, k2, k3⟩ := ih (p + r0.block.size) h2 (t := t - r0.block.size) (by omega)
      exact ⟨i + 1, r, k, by simpa using k1, k2, by omega⟩

theorem laid_ge {rows : List BRow} {p : ℕ} (hl : Laid p (rows.map BRow.block)) {i : ℕ} {r : BRow}
    (h : rows[i]? = some r) : p ≤ r.block.position := by
  induction rows generalizing p i with
  | nil => simp at h
  | cons r0 rs ih =>
    obtain ⟨h1, h2⟩ := hl
    cases i with
    | zero =>
      have : r0 = r := by simpa using h
      subst this
      omega
    | succ i =>
      have := ih h2 (by simpa using h : rs[i]? = some r)
      omega

theorem laid_lt {rows : List BRow} {p : ℕ} (hl : Laid p (rows.map BRow.block)) {i j : ℕ} {r r' : BRow}
    (h : rows[i]? = some r) (h' : rows[j]? = some r') (hij : i < j) :
    r.block.position + r.block.size ≤ r'.block.position := by
  induction rows generalizing p i j with
  | nil => simp at h
  | cons r0 rs ih =>
    obtain ⟨h1, h2⟩ := hl
    cases j with
    | zero => omega
    | succ j =>
      cases i with
      | zero =>
        have : r0 = r := by simpa using h
        subst this
        have := laid_ge h2 (by simpa using h' : rs[j]? = some r')
        omega
      | succ i =>
        exact ih h2 (by simpa using h) (by simpa using h') (by omega)

theorem laid_same {rows : List BRow} {p : ℕ} (hl : Laid p (rows.map BRow.block)) {i j k k' : ℕ} {r r' : BRow}
    (h : rows[i]? = some r) (h' : rows[j]? = some r') (hk : k < r.block.size) (hk' : k' < r'.block.size)
    (he : r.block.position + k = r'.block.position + k') : i = j := by
  rcases Nat.lt_trichotomy i j with hlt | heq | hlt
  · have := laid_lt hl h h' hlt
    omega
  · exact heq
  · have := laid_lt hl h' h hlt
    omega

theorem rowNnz_eq {bs : BS} {i : ℕ} {r : BRow} (h : bs.rows[i]? = some r) :
    (flatOf bs).rowNnz i = width bs r.cells := by
  unfold Flat.rowNnz
  rw [cellsOf_eq h]
  rfl

section
variable {bs : BS} (hl : Laid 0 (bs.rows.map BRow.block))
include hl

theorem list_at {i k : ℕ} {r : BRow} (hr : bs.rows[i]? = some r) (hk : k < r.block.size) :
    (rowLists false bs bs.rows)[r.block.position + k]? = some (rowList false bs r.block.size k r.cells) := by
  have := (rowLists_get bs bs.rows 0 hl hr hk).2
  rwa [Nat.sub_zero] at this

/-- The number of entries of each row, shifted by one. -/
theorem nnz_get {old nnz : ℕ → ℕ} (h : KernelRun (flatOf bs).nnzStores old nnz) :
    nnz 0 = 0 ∧ ∀ t < (rowLists false bs bs.rows).length,
      nnz (t + 1) = ((rowLists false bs bs.rows).getD t []).length := by
  have hmem : ∀ w : ℕ × ℕ, w ∈ (flatOf bs).nnzStores → w = (0, 0) ∨ ∃ (i : ℕ) (r : BRow) (k : ℕ), bs.rows[i]? = some r ∧
      k < r.block.size ∧ w = (r.block.position + k + 1, width bs r.cells) := by
    intro w hw
    rcases List.mem_append.1 hw with hw | hw
    · obtain ⟨i, hi, hw⟩ := List.mem_flatMap.1 hw
      obtain ⟨x, hx, rfl⟩ := List.mem_map.1 hw
      have hi' : i < bs.rows.length := List.mem_range.1 hi
      have hr : bs.rows[i]? = some bs.rows[i] := List.getElem?_eq_getElem hi'
      rw [row_eq hr, List.mem_range'_1] at hx
      refine .inr ⟨i, _, x - bs.rows[i].block.position, hr, by omega, ?_⟩
      rw [rowNnz_eq hr]
      congr 1
      omega
    · exact .inl (by simpa using hw)
  refine ⟨h.get (v := 0) ?_ ⟨(0, 0), by simp [Flat.nnzStores], rfl⟩, fun t ht => ?_⟩
  · intro w hw he
    rcases hmem w hw with rfl | ⟨i, r, k, -, -, rfl⟩
    · rfl
    · simp at he
  · obtain ⟨i, r, k, k1, k2, k3⟩ := rowLists_own bs bs.rows 0 hl ht
    rw [Nat.zero_add] at k3
    subst k3
    refine h.get ?_ ⟨(r.block.position + k + 1, (flatOf bs).rowNnz i), ?_, rfl⟩
    · intro w hw he
      rcases hmem w hw with rfl | ⟨i', r', k', m1, m2, rfl⟩
      · simp at he
      · have he : r'.block.position + k' = r.block.position + k := by simpa using he
        show width bs r'.cells = _
        rw [← he, List.getD_eq_getElem?_getD, list_at hl m1 m2, Option.getD_some, rowList_length]
    · refine List.mem_append_left _ (List.mem_flatMap.2 ⟨i, ?_, List.mem_map.2 ⟨r.block.position + k, ?_, rfl⟩⟩)
      · exact List.mem_range.2 (List.getElem?_eq_some_iff.1 k1).1
      · rw [row_eq k1, List.mem_range'_1]
        omega

/-- `rows` after the scan. -/
theorem rows_get {old nnz : ℕ → ℕ} (h : KernelRun (flatOf bs).nnzStores old nnz) {n t : ℕ}
    (hn : n = (rowLists false bs bs.rows).length) (ht : t ≤ n) :
    inclusiveScan n nnz t = (((rowLists false bs bs.rows).take t).map List.length).sum := by
  obtain ⟨h0, h1⟩ := nnz_get hl h
  unfold inclusiveScan
  rw [if_pos (by omega)]
  induction t with
  | zero => simp [h0]
  | succ t ih =>
    rw [List.range_succ, List.map_append, List.sum_append, ih (by omega), take_sum_succ _ _ (by omega)]
    simp [h1 t (by omega)]

/-- `row_block_ids`. -/
theorem ids_get {old ids : ℕ → ℕ} (h : KernelRun (flatOf bs).idStores old ids) {i k : ℕ} {r : BRow}
    (hr : bs.rows[i]? = some r) (hk : k < r.block.size) : ids (r.block.position + k) = i := by
  refine h.get ?_ ⟨(r.block.position + k, i), ?_, rfl⟩
  · intro w hw he
    obtain ⟨i', hi, hw⟩ := List.mem_flatMap.1 hw
    obtain ⟨x, hx, rfl⟩ := List.mem_map.1 hw
    have hi' : i' < bs.rows.length := List.mem_range.1 hi
    have hr' : bs.rows[i']? = some bs.rows[i'] := List.getElem?_eq_getElem hi'
    rw [row_eq hr', List.mem_range'_1] at hx
    simp only at he
    exact laid_same hl (k := x - bs.rows[i'].block.position) hr' hr (by omega) hk (by omega)
  · refine List.mem_flatMap.2 ⟨i, List.mem_range.2 (List.getElem?_eq_some_iff.1 hr).1,
      List.mem_map.2 ⟨r.block.position + k, ?_, rfl⟩⟩
    rw [row_eq hr, List.mem_range'_1]
    omega

end

/-! ## Columns -/

theorem mem_colStores (bs : BS) (size i : ℕ) (cells : List Cell) (p : ℕ) (w : ℕ × ℕ) :
    w ∈ (flatOf bs).colStores 0 cells p ↔
      ∃ t e, (rowList false bs size i cells)[t]? = some e ∧ w = (p + t, e.1) := by
  induction cells generalizing p with
  | nil => simp [Flat.colStores, rowList]
  | cons c cells ih =>
    have hcol : (flatOf bs).col c.blockId = bs.col c.blockId := rfl
    have hlist : rowList false bs size i (c :: cells) =
        ((List.range (bs.col c.blockId).size).map fun j => ((bs.col c.blockId).position + j,
          c.position + slotIn false size (bs.col c.blockId).size i j)) ++ rowList false bs size i cells := rfl
    rw [Flat.colStores, List.mem_append, ih, hlist, hcol, Nat.sub_zero]
    constructor
    · rintro (h | ⟨t, e, h1, rfl⟩)
      · obtain ⟨j, hj, rfl⟩ := List.mem_map.1 h
        have hj := List.mem_range.1 hj
        refine ⟨j, ((bs.col c.blockId).position + j,
          c.position + slotIn false size (bs.col c.blockId).size i j), ?_, rfl⟩
        rw [List.getElem?_append_left (by simpa using hj), List.getElem?_map, List.getElem?_range hj]
        rfl
      · refine ⟨(bs.col c.blockId).size + t, e, ?_, by rw [Nat.add_assoc]⟩
        rw [List.getElem?_append_right (by simp)]
        simpa using h1
    · rintro ⟨t, e, h1, rfl⟩
      by_cases ht : t < (bs.col c.blockId).size
      · rw [List.getElem?_append_left (by simpa using ht), List.getElem?_map, List.getElem?_range ht] at h1
        simp only [Option.map_some, Option.some.injEq] at h1
        subst h1
        exact .inl (List.mem_map.2 ⟨t, List.mem_range.2 ht, rfl⟩)
      · rw [List.getElem?_append_right (by simp; omega)] at h1
        simp only [List.length_map, List.length_range] at h1
        refine .inr ⟨t - (bs.col c.blockId).size, e, h1, ?_⟩
        congr 1
        omega

theorem flatten_index {α : Type} (L : List (List α)) {q : ℕ} (hq : q < L.flatten.length) :
    ∃ k j, k < L.length ∧ j < (L.getD k []).length ∧ q = ((L.take k).map List.length).sum + j := by
  induction L generalizing q with
  | nil => simp at hq
  | cons l L ih =>
    by_cases h : q < l.length
    · exact ⟨0, q, by simp, by simpa using h, by simp⟩
    · rw [List.flatten_cons, List.length_append] at hq
      obtain ⟨k, j, h1, h2, h3⟩ := ih (q := q - l.length) (by omega)
      refine ⟨k + 1, j, by simpa using h1, by simpa using h2, ?_⟩
      simp only [List.take_succ_cons, List.map_cons, List.sum_cons]
      omega

/-- `cols`. -/
theorem cols_get {bs : BS} (hl : Laid 0 (bs.rows.map BRow.block)) (hc : Laid 0 bs.cols) {n : ℕ}
    (hn : n = (rowLists false bs bs.rows).length) {oldRows nnz oldIds ids oldCols cols : ℕ → ℕ}
    (h1 : KernelRun (flatOf bs).nnzStores oldRows nnz) (h2 : KernelRun (flatOf bs).idStores oldIds ids)
    (h3 : KernelRun ((flatOf bs).columnStores n ids (inclusiveScan n nnz)) oldCols cols) {q : ℕ}
    (hq : q < (rowLists false bs bs.rows).flatten.length) :
    cols q = ((rowLists false bs bs.rows).flatten.getD q (0, 0)).1 := by
  have hzero : ((flatOf bs).col 0).position = 0 := by
    show (bs.cols.getD 0 ⟨0, 0⟩).position = 0
    cases hcs : bs.cols with
    | nil => rfl
    | cons b cs =>
      rw [hcs] at hc
      exact hc.1
  have key : ∀ w : ℕ × ℕ, w ∈ (flatOf bs).columnStores n ids (inclusiveScan n nnz) ↔
      ∃ k t e, k < n ∧ ((rowLists false bs bs.rows).getD k [])[t]? = some e ∧
        w = ((((rowLists false bs bs.rows).take k).map List.length).sum + t, e.1) := by
    intro w
    unfold Flat.columnStores
    rw [List.mem_flatMap]
    have one : ∀ k < n, (w ∈ (flatOf bs).colStores ((flatOf bs).col 0).position ((flatOf bs).cellsOf (ids k))
        (inclusiveScan n nnz k) ↔ ∃ t e, ((rowLists false bs bs.rows).getD k [])[t]? = some e ∧
        w = ((((rowLists false bs bs.rows).take k).map List.length).sum + t, e.1)) := by
      intro k hk
      obtain ⟨i, r, x, m1, m2, m3⟩ := rowLists_own bs bs.rows 0 hl (t := k) (by omega)
      rw [Nat.zero_add] at m3
      rw [hzero, rows_get hl h1 hn (by omega : k ≤ n)]
      subst m3
      rw [ids_get hl h2 m1 m2, cellsOf_eq m1, mem_colStores bs r.block.size x, List.getD_eq_getElem?_getD,
        list_at hl m1 m2, Option.getD_some]
    constructor
    · rintro ⟨k, hk, hw⟩
      have hk := List.mem_range.1 hk
      obtain ⟨t, e, a, b⟩ := (one k hk).1 hw
      exact ⟨k, t, e, hk, a, b⟩
    · rintro ⟨k, t, e, hk, a, b⟩
      exact ⟨k, List.mem_range.2 hk, (one k hk).2 ⟨t, e, a, b⟩⟩
  refine h3.get ?_ ?_
  · intro w hw he
    obtain ⟨k, t, e, hk, a, rfl⟩ := (key w).1 hw
    have ht : t < ((rowLists false bs bs.rows).getD k []).length := (List.getElem?_eq_some_iff.1 a).1
    have := flatten_get (rowLists false bs bs.rows) k t (by omega) ht
    simp only at he
    rw [he, a] at this
    rw [List.getD_eq_getElem?_getD, this]
    rfl
  · obtain ⟨k, j, a, b, rfl⟩ := flatten_index _ hq
    exact ⟨_, (key _).2 ⟨k, j, _, by omega, List.getElem?_eq_getElem b, rfl⟩, rfl⟩

end Ceres.CrsView
