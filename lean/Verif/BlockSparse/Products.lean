import Verif.BlockSparse.Loops
import Mathlib.Algebra.BigOperators.Fin

/-!
# Products and column norms are those of the matrix, on any number of threads
-/
namespace Ceres.BlockSparse

open Matrix Ceres.Tasks

variable {K : Type} [CommRing K]

/-! ## Cells in range -/

theorem mem_triples_iff {bs : BS} {t : Block × Block × ℕ} : t ∈ bs.triples ↔
    ∃ r ∈ bs.rows, ∃ c ∈ r.cells, t = (r.block, bs.col c.blockId, c.position) := by
  unfold BS.triples
  simp only [List.mem_flatMap, List.mem_map]
  constructor
  · rintro ⟨r, hr, c, hc, rfl⟩; exact ⟨r, hr, c, hc, rfl⟩
  · rintro ⟨r, hr, c, hc, rfl⟩; exact ⟨r, hr, c, hc, rfl⟩

theorem col_mem {bs : BS} {j : ℕ} (h : j < bs.cols.length) : bs.col j ∈ bs.cols := by
  unfold BS.col
  rw [List.getD_eq_getElem?_getD, List.getElem?_eq_getElem h, Option.getD_some]
  exact List.getElem_mem h

/-- A cell lies within the matrix and within the values. -/
structure CellOk (M : BMat K) (t : Block × Block × ℕ) : Prop where
  row : t.1.position + t.1.size ≤ M.numRows
  col : t.2.1.position + t.2.1.size ≤ M.numCols
  val : ∀ i j, i < t.1.size → j < t.2.1.size → t.2.2 + i * t.2.1.size + j < M.nnz

theorem mem_slots {bs : BS} {t : Block × Block × ℕ} (ht : t ∈ bs.triples) {i j : ℕ} (hi : i < t.1.size)
    (hj : j < t.2.1.size) : t.2.2 + i * t.2.1.size + j ∈ bs.slots := by
  obtain ⟨r, hr, c, hc, rfl⟩ := mem_triples_iff.1 ht
  unfold BS.slots
  refine List.mem_flatMap.2 ⟨r, hr, List.mem_flatMap.2 ⟨c, hc, ?_⟩⟩
  rw [List.mem_range'_1]
  simp only at hi hj ⊢
  have : (i + 1) * (bs.col c.blockId).size ≤ r.block.size * (bs.col c.blockId).size := Nat.mul_le_mul_right _ hi
  rw [Nat.add_mul] at this
  omega

omit [CommRing K] in
theorem cell_ok {M : BMat K} (h : M.Ok) {t : Block × Block × ℕ} (ht : t ∈ M.bs.triples) : CellOk M t where
  row := by
    obtain ⟨r, hr, c, hc, rfl⟩ := mem_triples_iff.1 ht
    have := laid_bounds h.bs.rows (List.mem_map.2 ⟨r, hr, rfl⟩)
    rw [List.map_map] at this
    have h2 := h.numRows
    simp only [Function.comp_def] at this
    simp only
    omega
  col := by
    obtain ⟨r, hr, c, hc, rfl⟩ := mem_triples_iff.1 ht
    have := laid_bounds h.bs.cols (col_mem (h.bs.ids r hr c hc))
    have h2 := h.numCols
    simp only
    omega
  val := fun i j hi hj => by
    have := h.bs.slots.mem_iff.1 (mem_slots ht hi hj)
    exact List.mem_range.1 this

omit [CommRing K] in
theorem tcell_ok {M : BMat K} (h : M.Ok) {t : Block × Block × ℕ} (ht : t ∈ M.tbs.triples) :
    CellOk M (t.2.1, t.1, t.2.2) := by
  rw [h.tbs] at ht
  exact cell_ok h ((transpose_triples h.bs.ids).mem_iff.1 (List.mem_map.2 ⟨t, ht, rfl⟩))

/-! ## Sums over a block -/

theorem sum_block (g : ℕ → K) {p s n : ℕ} (h : p + s ≤ n) :
    ∑ c ∈ Finset.range n, (if p ≤ c ∧ c < p + s then g c else 0) = ∑ j : Fin s, g (p + j) := by
  obtain ⟨k, rfl⟩ := Nat.exists_eq_add_of_le h
  rw [Finset.sum_range_add, Finset.sum_range_add]
  have h1 : ∑ c ∈ Finset.range p, (if p ≤ c ∧ c < p + s then g c else 0) = 0 :=
    Finset.sum_eq_zero fun c hc => if_neg (by rw [Finset.mem_range] at hc; omega)
  have h2 : ∑ c ∈ Finset.range k, (if p ≤ p + s + c ∧ p + s + c < p + s then g (p + s + c) else 0) = 0 :=
    Finset.sum_eq_zero fun c hc => if_neg (by omega)
  rw [h1, h2, zero_add, add_zero, Finset.sum_range]
  exact Finset.sum_congr rfl fun j _ => if_pos ⟨by omega, by omega⟩

theorem sumAt_y {b : Block} (v : Fin b.size → K) (r : ℕ) :
    Tasks.sumAt (vecEntries v fun i => Loc.y (b.position + i)) (.y r) =
      if h : b.position ≤ r ∧ r < b.position + b.size then v ⟨r - b.position, by omega⟩ else 0 := by
  split_ifs with h
  · have hinj : Function.Injective fun i : Fin b.size => Loc.y (b.position + i) := by
      intro i j hij
      simp only [Loc.y.injEq] at hij
      exact Fin.ext (by omega)
    have := sumAt_vecEntries v hinj ⟨r - b.position, by omega⟩
    rw [← this]
    congr 2
    simp only
    omega
  · refine sumAt_of_not_mem fun e he heq => h ?_
    obtain ⟨i, rfl⟩ := mem_vecEntries.1 he
    injection heq with heq
    have := i.2
    omega

theorem mulEs_sum {M : BMat K} {x y : ℕ → K} {t : Block × Block × ℕ} (ht : CellOk M t) (r : ℕ) :
    Tasks.sumAt (mulEs (memOf M x y) t.1 t.2.1 t.2.2) (.y r) =
      ∑ c ∈ Finset.range M.numCols, cellAt t.1 t.2.1 t.2.2 M.values r c * x c := by
  unfold mulEs
  rw [sumAt_y]
  split_ifs with h
  · rw [show (∑ c ∈ Finset.range M.numCols, cellAt t.1 t.2.1 t.2.2 M.values r c * x c) =
        ∑ c ∈ Finset.range M.numCols, (if t.2.1.position ≤ c ∧ c < t.2.1.position + t.2.1.size then
          M.values (t.2.2 + (r - t.1.position) * t.2.1.size + (c - t.2.1.position)) * x c else 0) from
      Finset.sum_congr rfl fun c _ => by
        unfold cellAt
        by_cases hc : t.2.1.position ≤ c ∧ c < t.2.1.position + t.2.1.size
        · rw [if_pos ⟨h.1, h.2, hc⟩, if_pos hc]
        · rw [if_neg (fun h => hc h.2.2), if_neg hc, zero_mul]]
    rw [sum_block (fun c => M.values (t.2.2 + (r - t.1.position) * t.2.1.size + (c - t.2.1.position)) * x c) ht.col]
    simp only [Matrix.mulVec, dotProduct]
    refine Finset.sum_congr rfl fun j _ => ?_
    simp only [memOf, valLoc, Nat.add_sub_cancel_left]
  · refine (Finset.sum_eq_zero fun c _ => ?_).symm
    unfold cellAt
    rw [if_neg (fun h' => h ⟨h'.1, h'.2.1⟩), zero_mul]

theorem mulTransposeEs_sum {M : BMat K} {x y : ℕ → K} {t : Block × Block × ℕ} (ht : CellOk M t) (c : ℕ) :
    Tasks.sumAt (mulTransposeEs (memOf M x y) t.1 t.2.1 t.2.2) (.y c) =
      ∑ r ∈ Finset.range M.numRows, cellAt t.1 t.2.1 t.2.2 M.values r c * x r := by
  unfold mulTransposeEs
  rw [sumAt_y]
  split_ifs with h
  · rw [show (∑ r ∈ Finset.range M.numRows, cellAt t.1 t.2.1 t.2.2 M.values r c * x r) =
        ∑ r ∈ Finset.range M.numRows, (if t.1.position ≤ r ∧ r < t.1.position + t.1.size then
          M.values (t.2.2 + (r - t.1.position) * t.2.1.size + (c - t.2.1.position)) * x r else 0) from
      Finset.sum_congr rfl fun r _ => by
        unfold cellAt
        by_cases hc : t.1.position ≤ r ∧ r < t.1.position + t.1.size
        · rw [if_pos ⟨hc.1, hc.2, h⟩, if_pos hc]
        · rw [if_neg (fun h => hc ⟨h.1, h.2.1⟩), if_neg hc, zero_mul]]
    rw [sum_block (fun r => M.values (t.2.2 + (r - t.1.position) * t.2.1.size + (c - t.2.1.position)) * x r) ht.row]
    simp only [Matrix.mulVec, dotProduct]
    refine Finset.sum_congr rfl fun j _ => ?_
    simp only [memOf, valLoc, Nat.add_sub_cancel_left]
    rfl
  · refine (Finset.sum_eq_zero fun r _ => ?_).symm
    unfold cellAt
    rw [if_neg (fun h' => h h'.2.2), zero_mul]

theorem normEs_sum {M : BMat K} {m : Mem K} (hm : ∀ p, m (.val p) = M.values p) {t : Block × Block × ℕ}
    (ht : CellOk M t) (c : ℕ) :
    Tasks.sumAt (normEs m t.1 t.2.1 t.2.2) (.y c) =
      ∑ r ∈ Finset.range M.numRows, cellAt t.1 t.2.1 t.2.2 M.values r c ^ 2 := by
  unfold normEs
  rw [sumAt_y]
  split_ifs with h
  · rw [show (∑ r ∈ Finset.range M.numRows, cellAt t.1 t.2.1 t.2.2 M.values r c ^ 2) =
        ∑ r ∈ Finset.range M.numRows, (if t.1.position ≤ r ∧ r < t.1.position + t.1.size then
          M.values (t.2.2 + (r - t.1.position) * t.2.1.size + (c - t.2.1.position)) ^ 2 else 0) from
      Finset.sum_congr rfl fun r _ => by
        unfold cellAt
        by_cases hc : t.1.position ≤ r ∧ r < t.1.position + t.1.size
        · rw [if_pos ⟨hc.1, hc.2, h⟩, if_pos hc]
        · rw [if_neg (fun h => hc ⟨h.1, h.2.1⟩), if_neg hc, zero_pow (by omega)]]
    rw [sum_block (fun r => M.values (t.2.2 + (r - t.1.position) * t.2.1.size + (c - t.2.1.position)) ^ 2) ht.row]
    refine Finset.sum_congr rfl fun j _ => ?_
    simp only [hm, valLoc, Nat.add_sub_cancel_left]
  · refine (Finset.sum_eq_zero fun r _ => ?_).symm
    unfold cellAt
    rw [if_neg (fun h' => h h'.2.2), zero_pow (by omega)]

theorem entry_triples (bs : BS) (v : ℕ → K) (r c : ℕ) :
    bs.entry v r c = (bs.triples.map fun t => cellAt t.1 t.2.1 t.2.2 v r c).sum := by
  unfold BS.entry BS.triples
  rw [Sparse.sum_flatMap]
  congr 1
  refine List.map_congr_left fun row _ => ?_
  rw [List.map_map]
  rfl

theorem list_sum_comm {α : Type} (L : List α) (s : Finset ℕ) (g : α → ℕ → K) :
    (L.map fun t => ∑ c ∈ s, g t c).sum = ∑ c ∈ s, (L.map fun t => g t c).sum := by
  induction L with
  | nil => simp
  | cons t L ih => simp only [List.map_cons, List.sum_cons, ih, Finset.sum_add_distrib]

theorem list_sum_mul {α : Type} (L : List α) (g : α → K) (a : K) :
    (L.map fun t => g t * a).sum = (L.map g).sum * a := by
  induction L with
  | nil => simp
  | cons t L ih => simp only [List.map_cons, List.sum_cons, ih, add_mul]

/-! ## Right products -/

theorem reads_ok {M : BMat K} {t : Block × Block × ℕ} (ht : CellOk M t) {l : Loc}
    (hl : readsCell t.1 t.2.1 t.2.2 l) : ∃ p < M.nnz, l = .val p := by
  obtain ⟨i, j, rfl⟩ := hl
  exact ⟨_, ht.val i j i.2 j.2, rfl⟩

theorem right_fits {M : BMat K} (h : M.Ok) (m : Mem K) :
    Fits mulEs (fun row col pos l => readsCell row col pos l ∨ readsVec col l) M.bs M.numCols M.nnz m where
  laid := h.bs.rows
  reads := fun t ht l hl => by
    rcases hl with hl | ⟨i, rfl⟩
    · exact Or.inr (reads_ok (cell_ok h ht) hl)
    · exact Or.inl ⟨_, by have := (cell_ok h ht).col; omega, rfl⟩
  adds := fun t ht e he => by
    obtain ⟨i, rfl⟩ := mem_vecEntries.1 he
    exact ⟨_, by omega, by omega, rfl⟩

/-- The memory after an accumulating operation. -/
theorem afterAdds_memOf {M : BMat K} {x y : ℕ → K} {bs : BS} {es : Mem K → Block → Block → ℕ → List (Loc × K)}
    {m' : Mem K} (hes : ∀ t ∈ bs.triples, ∀ e ∈ es (memOf M x y) t.1 t.2.1 t.2.2, ∃ k, e.1 = .y k)
    (h : AfterAdds es bs (memOf M x y) m') : m' = memOf M x fun r =>
      y r + (bs.triples.map fun t => Tasks.sumAt (es (memOf M x y) t.1 t.2.1 t.2.2) (.y r)).sum := by
  have hz : ∀ l, (∀ k, l ≠ .y k) →
      (bs.triples.map fun t => Tasks.sumAt (es (memOf M x y) t.1 t.2.1 t.2.2) l).sum = 0 := by
    intro l hl
    refine List.sum_eq_zero fun z hz => ?_
    obtain ⟨t, ht, rfl⟩ := List.mem_map.1 hz
    refine sumAt_of_not_mem fun e he heq => ?_
    obtain ⟨k, k3⟩ := hes t ht e he
    exact hl k (heq ▸ k3)
  funext l
  cases l with
  | y r => exact h (.y r)
  | x i => rw [h (.x i), hz _ (fun k h => Loc.noConfusion h), add_zero]; rfl
  | val i => rw [h (.val i), hz _ (fun k h => Loc.noConfusion h), add_zero]; rfl

theorem right_sum {M : BMat K} (h : M.Ok) (x y : ℕ → K) (r : ℕ) :
    (M.bs.triples.map fun t => Tasks.sumAt (mulEs (memOf M x y) t.1 t.2.1 t.2.2) (.y r)).sum =
      ∑ c ∈ Finset.range M.numCols, M.entry r c * x c := by
  rw [List.map_congr_left fun t ht => mulEs_sum (cell_ok h ht) r, list_sum_comm]
  refine Finset.sum_congr rfl fun c _ => ?_
  rw [list_sum_mul, ← entry_triples]
  rfl

/-- **Right product**: whatever the number of threads and the schedule, `y += A x` and nothing else. -/
theorem right_product {M : BMat K} (h : M.Ok) {threads : ℕ} (ht : 0 < threads) (x y : ℕ → K)
    (o : Option (Mem K)) : RightRun M threads (memOf M x y) o ↔
      o = some (memOf M x fun r => y r + ∑ c ∈ Finset.range M.numCols, M.entry r c * x c) := by
  have hD := loop_disciplined (threads := threads) mulCell_isAdd (right_fits h (memOf M x y))
  have key : ∀ o, RightRun M threads (memOf M x y) o →
      o = some (memOf M x fun r => y r + ∑ c ∈ Finset.range M.numCols, M.entry r c * x c) := by
    intro o ho
    obtain ⟨m', rfl, h2⟩ := forRun_result hD ht ho
    rw [afterAdds_memOf (fun t ht e he => by
      obtain ⟨k, -, -, hk⟩ := (right_fits h (memOf M x y)).adds t ht e he
      exact ⟨k, hk⟩) (result_afterAdds (right_fits h (memOf M x y)) h2)]
    congr 2
    funext r
    rw [right_sum h]
  refine ⟨key o, ?_⟩
  rintro rfl
  obtain ⟨m', hm'⟩ := forRun_exists hD ht
  have := key _ hm'
  rw [← this]
  exact hm'

/-! ## Left products -/

theorem left_fits {M : BMat K} (h : M.Ok) (m : Mem K) :
    Fits (fun m row col pos => mulTransposeEs m col row pos)
      (fun row col pos l => readsCell col row pos l ∨ readsVec col l) M.tbs M.numRows M.nnz m where
  laid := by
    rw [h.tbs, createTranspose_eq]
    have : ∀ (s : ℕ) (rows : List BRow), (cumulateFrom s rows).map BRow.block = rows.map BRow.block := by
      intro s rows
      induction rows generalizing s with
      | nil => rfl
      | cons r rs ih => simp [cumulateFrom, ih]
    show Laid 0 ((cumulate _).map BRow.block)
    rw [cumulate, this]
    have h2 : (addLinks M.bs.links (emptyCols M.bs.cols)).map BRow.block = M.bs.cols := by
      refine List.ext_getElem? fun j => ?_
      simp only [addLinks, emptyCols, List.getElem?_map, List.getElem?_mapIdx]
      cases M.bs.cols[j]? <;> rfl
    rw [h2]
    exact h.bs.cols
  reads := fun t ht l hl => by
    have hc := tcell_ok h ht
    rcases hl with hl | ⟨i, rfl⟩
    · exact Or.inr (reads_ok hc hl)
    · exact Or.inl ⟨_, by have := hc.row; simp only at this; omega, rfl⟩
  adds := fun t ht e he => by
    obtain ⟨i, rfl⟩ := mem_vecEntries.1 he
    exact ⟨_, by omega, by omega, rfl⟩

/-- Sums over the cells of the transposed structure. -/
theorem tsum_eq {M : BMat K} (h : M.Ok) (g : Block → Block → ℕ → K) :
    (M.tbs.triples.map fun t => g t.2.1 t.1 t.2.2).sum = (M.bs.triples.map fun t => g t.1 t.2.1 t.2.2).sum := by
  have := ((transpose_triples h.bs.ids).map fun t => g t.1 t.2.1 t.2.2).sum_eq
  rw [List.map_map] at this
  rw [← this, h.tbs]
  rfl

theorem left_sum {M : BMat K} (h : M.Ok) (x y : ℕ → K) (c : ℕ) :
    (M.bs.triples.map fun t => Tasks.sumAt (mulTransposeEs (memOf M x y) t.1 t.2.1 t.2.2) (.y c)).sum =
      ∑ r ∈ Finset.range M.numRows, M.entry r c * x r := by
  rw [List.map_congr_left fun t ht => mulTransposeEs_sum (cell_ok h ht) c, list_sum_comm]
  refine Finset.sum_congr rfl fun r _ => ?_
  rw [list_sum_mul, ← entry_triples]
  rfl

theorem tbs_costs {M : BMat K} (h : M.Ok) : CostsOk (cumOf M.tbs) M.tbs.rows.length := by
  rw [h.tbs, createTranspose_eq]
  refine cumOf_ok _ _ _ ?_
  show (cumulate _).length ≤ _
  rw [cumulate, cumulateFrom_length]

/-- **Left product**: whatever the number of threads and the schedule, `y += Aᵀ x` and nothing else. -/
theorem left_product {M : BMat K} (h : M.Ok) {threads : ℕ} (ht : 0 < threads) (x y : ℕ → K)
    (o : Option (Mem K)) : LeftRun M threads (memOf M x y) o ↔
      o = some (memOf M x fun c => y c + ∑ r ∈ Finset.range M.numRows, M.entry r c * x r) := by
  unfold LeftRun
  split_ifs with h1 h2
  · obtain ⟨m', e1, e2⟩ := allProg_after (bs := M.bs) (m := memOf M x y) mulCellTranspose_isAdd
      (by
        rintro t - l (⟨i, j, rfl⟩ | ⟨i, rfl⟩)
        · exact Or.inr ⟨_, rfl⟩
        · exact Or.inl ⟨_, rfl⟩)
      (by
        intro t _ e he
        obtain ⟨i, rfl⟩ := mem_vecEntries.1 he
        exact ⟨_, rfl⟩)
    rw [e1, afterAdds_memOf (by
        intro t _ e he
        obtain ⟨i, rfl⟩ := mem_vecEntries.1 he
        exact ⟨_, rfl⟩) e2]
    simp only [left_sum h]
  · have hz : ∀ c, ∑ r ∈ Finset.range M.numRows, M.entry r c * x r = 0 := by
      intro c
      refine Finset.sum_eq_zero fun r _ => ?_
      have : M.entry r c = 0 := by
        unfold BMat.entry
        rw [entry_triples, ← tsum_eq h fun a b p => cellAt a b p M.values r c]
        have : M.tbs.triples = [] := by
          unfold BS.triples
          rw [List.length_eq_zero_iff.1 h2]
          rfl
        rw [this]
        rfl
      rw [this, zero_mul]
    simp only [hz, add_zero]
  · have hF := left_fits h (memOf M x y)
    have hD := loop_disciplined (threads := threads) mulCellTranspose_isAdd.flip hF
    have key : ∀ o, CostRun (cumOf M.tbs) (colTask mulCellTranspose M.tbs) 0 M.tbs.rows.length threads
        (memOf M x y) o →
        o = some (memOf M x fun c => y c + ∑ r ∈ Finset.range M.numRows, M.entry r c * x r) := by
      intro o ho
      obtain ⟨m', rfl, h2⟩ := costRun_result hD ht (tbs_costs h) ho
      rw [afterAdds_memOf (fun t ht e he => by
        obtain ⟨k, -, -, hk⟩ := hF.adds t ht e he
        exact ⟨k, hk⟩) (result_afterAdds hF h2)]
      congr 2
      funext c
      rw [tsum_eq h fun a b p => Tasks.sumAt (mulTransposeEs (memOf M x y) a b p) (.y c), left_sum h]
    refine ⟨key o, ?_⟩
    rintro rfl
    obtain ⟨m', hm'⟩ := costRun_exists hD ht (tbs_costs h)
    have := key _ hm'
    rw [← this]
    exact hm'

/-! ## Column norms -/

theorem norm_fits {M : BMat K} (h : M.Ok) (m : Mem K) :
    Fits (fun m row col pos => normEs m col row pos) (fun row col pos l => readsCell col row pos l)
      M.tbs M.numRows M.nnz m where
  laid := (left_fits h m).laid
  reads := fun t ht l hl => Or.inr (reads_ok (tcell_ok h ht) hl)
  adds := fun t ht e he => by
    obtain ⟨i, rfl⟩ := mem_vecEntries.1 he
    exact ⟨_, by omega, by omega, rfl⟩

/-- Setting the result to zero. -/
def zeroKind (n : ℕ) : Loc → Kind Empty
  | .y i => .own i
  | .x _ => .own n
  | .val _ => .own n

theorem zero_disciplined (n threads : ℕ) (m : Mem K) :
    Disciplined (zeroKind n) (zeroTask (K := K)) 0 n threads m
      (fun | .y _ => 0 | l => m l) fun _ _ => 0 := by
  refine ⟨fun i tid _ hi _ p hm => ⟨upd p (.y i) 0, [], .write (Or.inr rfl) (.ret _), ?_, ?_⟩⟩
  · intro l hl
    cases l with
    | y j =>
      have : Kind.own (M := Empty) j = .own i := hl
      injection this with this
      subst this
      simp [upd]
    | x j =>
      have : Kind.own (M := Empty) n = .own i := hl
      injection this with this
      omega
    | val j =>
      have : Kind.own (M := Empty) n = .own i := hl
      injection this with this
      omega
  · intro l x hl
    cases x

/-- **Setting to zero** on any number of threads. -/
theorem setZero_run (M : BMat K) {n threads : ℕ} (ht : 0 < threads) (x y : ℕ → K) (o : Option (Mem K)) :
    SetZeroRun n threads (memOf M x y) o ↔ o = some (memOf M x fun i => if i < n then 0 else y i) := by
  have hD := zero_disciplined n threads (memOf M x y)
  have key : ∀ o, SetZeroRun n threads (memOf M x y) o →
      o = some (memOf M x fun i => if i < n then 0 else y i) := by
    intro o ho
    obtain ⟨m', rfl, h2⟩ := forRunMin_result (by norm_num) hD ht ho
    congr 1
    funext l
    cases l with
    | y i =>
      rw [h2.own (.y i) i rfl]
      by_cases hi : i < n
      · rw [if_pos ⟨Nat.zero_le _, hi⟩]; exact (if_pos hi).symm
      · rw [if_neg (by omega)]; exact (if_neg hi).symm
    | x i => rw [h2.own (.x i) n rfl, if_neg (by omega)]; rfl
    | val i => rw [h2.own (.val i) n rfl, if_neg (by omega)]; rfl
  refine ⟨key o, ?_⟩
  rintro rfl
  obtain ⟨m', hm'⟩ := forRunMin_exists (minBlock := 2 ^ 16) (by norm_num) hD ht
  have := key _ hm'
  rw [← this]
  exact hm'

/-- With at most one cell for each row block and column block, squares of entries are sums of squares over the
cells. -/
theorem entry_sq {M : BMat K} (h : M.Ok) (hs : M.bs.Simple) (r c : ℕ) :
    (M.bs.triples.map fun t => cellAt t.1 t.2.1 t.2.2 M.values r c ^ 2).sum = M.entry r c ^ 2 := by
  have key : ∀ (bid cid : ℕ) (rows : List BRow) (k : ℕ),
      (∀ i (hi : i < rows.length), i + k ≠ bid → r < rows[i].block.position ∨
        rows[i].block.position + rows[i].block.size ≤ r) →
      (∀ row ∈ rows, (row.cells.map Cell.blockId).Nodup) →
      (∀ row ∈ rows, ∀ cell ∈ row.cells, cell.blockId ≠ cid → c < (M.bs.col cell.blockId).position ∨
        (M.bs.col cell.blockId).position + (M.bs.col cell.blockId).size ≤ c) →
      ((rows.flatMap fun r => r.cells.map fun c => (r.block, M.bs.col c.blockId, c.position)).map
        fun t => cellAt t.1 t.2.1 t.2.2 M.values r c ^ 2).sum =
      ((rows.flatMap fun r => r.cells.map fun c => (r.block, M.bs.col c.blockId, c.position)).map
        fun t => cellAt t.1 t.2.1 t.2.2 M.values r c).sum ^ 2 := by
    intro bid cid rows k h1 h2 h3
    rw [Sparse.sum_flatMap, Sparse.sum_flatMap]
    have hrow : ∀ row ∈ rows,
        ((row.cells.map fun c => (row.block, M.bs.col c.blockId, c.position)).map
          fun t => cellAt t.1 t.2.1 t.2.2 M.values r c ^ 2).sum =
        ((row.cells.map fun c => (row.block, M.bs.col c.blockId, c.position)).map
          fun t => cellAt t.1 t.2.1 t.2.2 M.values r c).sum ^ 2 := by
      intro row hrow
      have hn := h2 row hrow
      have hc := h3 row hrow
      generalize row.cells = cells at hn hc
      induction cells with
      | nil => simp
      | cons a cells ih =>
        rw [List.map_cons, List.nodup_cons] at hn
        simp only [List.map_cons, List.sum_cons]
        rw [ih hn.2 fun cell hcell => hc cell (by simp [hcell])]
        by_cases ha : a.blockId = cid
        · have : ((cells.map fun c => (row.block, M.bs.col c.blockId, c.position)).map
              fun t => cellAt t.1 t.2.1 t.2.2 M.values r c).sum = 0 := by
            rw [List.map_map]
            refine List.sum_eq_zero fun z hz => ?_
            obtain ⟨cell, hcell, rfl⟩ := List.mem_map.1 hz
            have hne : cell.blockId ≠ cid := fun he =>
              hn.1 (List.mem_map.2 ⟨cell, hcell, he.trans ha.symm⟩)
            have := hc cell (by simp [hcell]) hne
            exact if_neg (by simp only; omega)
          rw [this]; ring
        · have := hc a (by simp) ha
          have : cellAt row.block (M.bs.col a.blockId) a.position M.values r c = 0 := if_neg (by omega)
          rw [this]; ring
    rw [List.map_congr_left hrow]
    clear hrow h2 h3
    induction rows generalizing k with
    | nil => simp
    | cons row rows ih =>
      simp only [List.map_cons, List.sum_cons]
      have hzero : ∀ row' : BRow, (r < row'.block.position ∨ row'.block.position + row'.block.size ≤ r) →
          ((row'.cells.map fun c => (row'.block, M.bs.col c.blockId, c.position)).map
            fun t => cellAt t.1 t.2.1 t.2.2 M.values r c).sum = 0 := by
        intro row' h'
        rw [List.map_map]
        refine List.sum_eq_zero fun z hz => ?_
        obtain ⟨cell, hcell, rfl⟩ := List.mem_map.1 hz
        exact if_neg (by simp only; omega)
      by_cases hk : k = bid
      · have : (rows.map fun row' => ((row'.cells.map fun c => (row'.block, M.bs.col c.blockId, c.position)).map
            fun t => cellAt t.1 t.2.1 t.2.2 M.values r c).sum).sum = 0 := by
          refine List.sum_eq_zero fun z hz => ?_
          obtain ⟨row', hrow', rfl⟩ := List.mem_map.1 hz
          obtain ⟨i, hi, rfl⟩ := List.getElem_of_mem hrow'
          exact hzero _ (h1 (i + 1) (by simpa using hi) (by omega))
        have h2 : (rows.map fun row' => ((row'.cells.map fun c => (row'.block, M.bs.col c.blockId, c.position)).map
            fun t => cellAt t.1 t.2.1 t.2.2 M.values r c).sum ^ 2).sum = 0 := by
          refine List.sum_eq_zero fun z hz => ?_
          obtain ⟨row', hrow', rfl⟩ := List.mem_map.1 hz
          obtain ⟨i, hi, rfl⟩ := List.getElem_of_mem hrow'
          rw [hzero rows[i] (h1 (i + 1) (by simpa using hi) (by omega))]
          ring
        rw [this, h2]; ring
      · have h0 := h1 0 (by simp) (by omega)
        rw [List.getElem_cons_zero] at h0
        rw [hzero row h0]
        have := ih (k + 1) fun i hi hne => h1 (i + 1) (by simpa using hi) (by omega)
        rw [this]; ring
  unfold BMat.entry
  rw [entry_triples]
  refine key (blockOf (M.bs.rows.map BRow.block) r) (blockOf M.bs.cols c) M.bs.rows 0 ?_ hs ?_
  · intro i hi hne
    by_contra hcon
    refine hne (blockOf_eq h.bs.rows (i := i) (b := M.bs.rows[i].block)
      (by simp [List.getElem?_eq_getElem hi]) (by omega) (by omega)).symm
  · intro row hrow cell hcell hne
    by_contra hcon
    have hid := h.bs.ids row hrow cell hcell
    refine hne (blockOf_eq h.bs.cols (i := cell.blockId) (b := M.bs.col cell.blockId) ?_ (by omega) (by omega)).symm
    simp [BS.col, List.getD, List.getElem?_eq_getElem hid]

theorem norm_sum {M : BMat K} (h : M.Ok) (hs : M.bs.Simple) {m : Mem K} (hm : ∀ p, m (.val p) = M.values p) (c : ℕ) :
    (M.bs.triples.map fun t => Tasks.sumAt (normEs m t.1 t.2.1 t.2.2) (.y c)).sum =
      ∑ r ∈ Finset.range M.numRows, M.entry r c ^ 2 := by
  rw [List.map_congr_left fun t ht => normEs_sum hm (cell_ok h ht) c, list_sum_comm]
  exact Finset.sum_congr rfl fun r _ => entry_sq h hs r c

/-- Nothing is stored beyond the last column. -/
theorem entry_col_ge {M : BMat K} (h : M.Ok) {r c : ℕ} (hc : M.numCols ≤ c) : M.entry r c = 0 := by
  unfold BMat.entry
  rw [entry_triples]
  refine List.sum_eq_zero fun z hz => ?_
  obtain ⟨t, ht, rfl⟩ := List.mem_map.1 hz
  have := (cell_ok h ht).col
  exact if_neg (by omega)

theorem entry_row_ge {M : BMat K} (h : M.Ok) {r c : ℕ} (hr : M.numRows ≤ r) : M.entry r c = 0 := by
  unfold BMat.entry
  rw [entry_triples]
  refine List.sum_eq_zero fun z hz => ?_
  obtain ⟨t, ht, rfl⟩ := List.mem_map.1 hz
  have := (cell_ok h ht).row
  exact if_neg (by omega)

/-- **Squared column norms**: whatever the number of threads and the schedule, the squared norms of the
columns of the matrix, if no row block has two cells in a column block. -/
theorem squared_column_norm {M : BMat K} (h : M.Ok) (hs : M.bs.Simple) {threads : ℕ} (ht : 0 < threads)
    (x y : ℕ → K) (o : Option (Mem K)) : NormRun M threads (memOf M x y) o ↔
      o = some (memOf M x fun c =>
        if c < M.numCols then ∑ r ∈ Finset.range M.numRows, M.entry r c ^ 2 else y c) := by
  have hval : ∀ c, (if c < M.numCols then (0 : K) else y c) + ∑ r ∈ Finset.range M.numRows, M.entry r c ^ 2 =
      if c < M.numCols then ∑ r ∈ Finset.range M.numRows, M.entry r c ^ 2 else y c := by
    intro c
    by_cases hc : c < M.numCols
    · rw [if_pos hc, if_pos hc, zero_add]
    · rw [if_neg hc, if_neg hc, Finset.sum_eq_zero, add_zero]
      intro r _
      rw [entry_col_ge h (by omega)]
      ring
  unfold NormRun
  split_ifs with h1
  · have hw : ∀ (L : List ℕ) (k : Prog K) (m : Mem K) (hb : Empty → Bool),
        (writes (L.map fun i => (Loc.y i, (0 : K))) k).exec m hb =
          k.exec (setTo (L.map fun i => (Loc.y i, (0 : K))) m) hb := by
      intro L k
      induction L with
      | nil => intro m hb; rfl
      | cons a L ih => intro m hb; exact ih _ _
    have hset : setTo ((List.range M.numCols).map fun i => (Loc.y i, (0 : K))) (memOf M x y) =
        memOf M x fun i => if i < M.numCols then 0 else y i := by
      funext l
      have hno : ∀ l, (∀ i < M.numCols, l ≠ .y i) →
          setTo ((List.range M.numCols).map fun i => (Loc.y i, (0 : K))) (memOf M x y) l = memOf M x y l := by
        intro l hl
        refine setTo_of_not_mem fun e he heq => ?_
        obtain ⟨i, hi, rfl⟩ := List.mem_map.1 he
        exact hl i (List.mem_range.1 hi) heq.symm
      cases l with
      | x i => exact hno _ fun _ _ h => Loc.noConfusion h
      | val i => exact hno _ fun _ _ h => Loc.noConfusion h
      | y i =>
        by_cases hi : i < M.numCols
        · refine Eq.trans ?_ (if_pos hi).symm
          refine setTo_of_mem (e := (Loc.y i, (0 : K))) ?_ (List.mem_map.2 ⟨i, List.mem_range.2 hi, rfl⟩)
          rw [List.map_map]
          exact List.Nodup.map (fun a b h => by injection h) List.nodup_range
        · refine Eq.trans (hno _ ?_) (if_neg hi).symm
          intro j hj h
          injection h with h
          omega
    have hrun : runAlone (writes ((List.range M.numCols).map fun i => (Loc.y i, (0 : K))) (allProg normCell M.bs))
        (memOf M x y) = runAlone (allProg normCell M.bs) (memOf M x fun i => if i < M.numCols then 0 else y i) := by
      unfold runAlone
      rw [hw, hset]
    obtain ⟨m', e1, e2⟩ := allProg_after (bs := M.bs) (m := memOf M x fun i => if i < M.numCols then 0 else y i)
      normCell_isAdd
      (by rintro t - l ⟨i, j, rfl⟩; exact Or.inr ⟨_, rfl⟩)
      (by
        intro t _ e he
        obtain ⟨i, rfl⟩ := mem_vecEntries.1 he
        exact ⟨_, rfl⟩)
    rw [hrun, e1, afterAdds_memOf (by
        intro t _ e he
        obtain ⟨i, rfl⟩ := mem_vecEntries.1 he
        exact ⟨_, rfl⟩) e2]
    simp only [norm_sum h hs (m := memOf M x fun i => if i < M.numCols then 0 else y i) (fun _ => rfl), hval]
  · have hF := norm_fits h (memOf M x fun i => if i < M.numCols then 0 else y i)
    have hD := loop_disciplined (threads := threads) normCell_isAdd.flip hF
    have key : ∀ o, CostRun (cumOf M.tbs) (colTask normCell M.tbs) 0 M.tbs.rows.length threads
        (memOf M x fun i => if i < M.numCols then 0 else y i) o → o = some (memOf M x fun c =>
        if c < M.numCols then ∑ r ∈ Finset.range M.numRows, M.entry r c ^ 2 else y c) := by
      intro o ho
      obtain ⟨m', rfl, h2⟩ := costRun_result hD ht (tbs_costs h) ho
      rw [afterAdds_memOf (fun t ht e he => by
        obtain ⟨k, -, -, hk⟩ := hF.adds t ht e he
        exact ⟨k, hk⟩) (result_afterAdds hF h2)]
      congr 2
      funext c
      rw [tsum_eq h fun a b p => Tasks.sumAt (normEs (memOf M x fun i => if i < M.numCols then 0 else y i) a b p) (.y c),
        norm_sum h hs (m := memOf M x fun i => if i < M.numCols then 0 else y i) (fun _ => rfl), hval]
    constructor
    · intro hT
      cases hT with
      | stuck hz => exact nomatch (setZero_run M ht x y _).1 hz
      | next m1 o hz hc =>
        have := (setZero_run M ht x y _).1 hz
        injection this with this
        subst this
        exact key o hc
    · rintro rfl
      obtain ⟨m', hm'⟩ := costRun_exists hD ht (tbs_costs h)
      refine .next _ _ ((setZero_run M ht x y _).2 rfl) ?_
      have := key _ hm'
      rw [← this]
      exact hm'

end Ceres.BlockSparse
