import Verif.InnerProduct.Algebra

/-!
# The normal equations
-/
namespace Ceres.InnerProduct

open Ceres.BlockSparse

variable {K : Type} [CommRing K]

/-! ## The arrays of the result -/

theorem resultRows_last (w : ℕ → ℕ) (bs : List Block) (i0 off : ℕ) :
    (off :: resultRows w i0 off bs).getD (bs.map Block.size).sum 0 =
      off + ((bs.zipIdx i0).map fun c => c.1.size * w c.2).sum := by
  induction bs generalizing i0 off with
  | nil => simp
  | cons c bs ih =>
    rw [resultRows, List.map_cons, List.sum_cons, List.zipIdx_cons, List.map_cons, List.sum_cons]
    have hlen : ((List.range c.size).map fun j => off + (j + 1) * w i0).length = c.size := by simp
    have := ih (i0 + 1) (off + c.size * w i0)
    cases hk : (bs.map Block.size).sum with
    | zero =>
      rw [hk] at this
      simp only [List.getD_cons_zero] at this
      cases hc : c.size with
      | zero =>
        rw [hc] at this
        simp only [Nat.add_zero, List.getD_cons_zero, Nat.zero_mul, Nat.zero_add] at this ⊢
        exact this
      | succ n =>
        rw [hc] at hlen this
        rw [Nat.add_zero, List.getD_cons_succ, List.getD_eq_getElem?_getD,
          List.getElem?_append_left (by rw [hlen]; omega), List.getElem?_map, List.getElem?_range (by omega)]
        simp only [Option.map_some, Option.getD_some]
        omega
    | succ k =>
      rw [hk, List.getD_cons_succ] at this
      rw [← Nat.add_assoc, List.getD_cons_succ, List.getD_eq_getElem?_getD,
        List.getElem?_append_right (by rw [hlen]; omega), hlen, Nat.add_sub_cancel_left,
        ← List.getD_eq_getElem?_getD, this]
      simp only
      omega

theorem crossing {f : ℕ → ℕ} (h0 : f 0 = 0) (n q : ℕ) (hq : q < f n) : ∃ r < n, f r ≤ q ∧ q < f (r + 1) := by
  induction n with
  | zero => omega
  | succ n ih =>
    by_cases h : q < f n
    · obtain ⟨r, hr, h1⟩ := ih h
      exact ⟨r, by omega, h1⟩
    · exact ⟨n, by omega, by omega, hq⟩

/-- The size of a column block. -/
abbrev sizeOf (M : BMat K) (j : ℕ) : ℕ := (M.bs.col j).size

/-- The pattern and the offsets that `Create` works out. -/
structure Planned (M : BMat K) (s e : ℕ) (upper : Bool) (C : Computer K) : Prop where
  start : C.start = s
  stop : C.stop = e
  side : C.upper = upper
  numRows : C.result.numRows = M.numCols
  numCols : C.result.numCols = M.numCols
  storage : C.result.storage = if upper then .upper else .lower
  rowBlocks : C.result.rowBlocks = M.bs.cols.map Block.size
  rows : ∀ i < M.bs.cols.length, ∀ a ≤ sizeOf M i, C.result.rows ((M.bs.col i).position + a) =
    base (sizeOf M) (blocksOf upper (rowRange M.bs.rows s e)) i +
      a * wide (sizeOf M) (blocksOf upper (rowRange M.bs.rows s e)) i
  first : C.result.rows 0 = 0
  last : C.result.nnz = base (sizeOf M) (blocksOf upper (rowRange M.bs.rows s e)) M.bs.cols.length
  cols : ∀ i a j b, (i, j) ∈ blocksOf upper (rowRange M.bs.rows s e) → a < sizeOf M i → b < sizeOf M j →
    C.result.cols (place (sizeOf M) (blocksOf upper (rowRange M.bs.rows s e)) i a j b) = (M.bs.col j).position + b
  offsets : ∀ k p, (visits upper (rowRange M.bs.rows s e))[k]? = some p →
    C.offsets k = place (sizeOf M) (blocksOf upper (rowRange M.bs.rows s e)) p.2.1.blockId 0 p.2.2.blockId 0
  numOffsets : C.numOffsets = (visits upper (rowRange M.bs.rows s e)).length
  allocated : C.allocated = ((blocksOf upper (rowRange M.bs.rows s e)).map fun d => sizeOf M d.1 * sizeOf M d.2).sum

theorem create_planned {M : BMat K} (h : M.Ok) (hnz : 0 < M.nnz) (s e : ℕ) (upper : Bool) (oldCols : ℕ → ℕ)
    (oldValues : ℕ → K) : ∃ C, create M s e upper oldCols oldValues = some C ∧ Planned M s e upper C := by
  unfold create
  rw [if_pos hnz]
  have hT := computeNonzeros_eq M.bs.col ((terms upper (rowRange M.bs.rows s e)).mergeSort Term.le)
  have hord := sorted_inOrder (terms upper (rowRange M.bs.rows s e))
  have hperm := List.mergeSort_perm (terms upper (rowRange M.bs.rows s e)) Term.le
  have hnd : (((terms upper (rowRange M.bs.rows s e)).mergeSort Term.le).map Term.index).Nodup := by
    refine (hperm.map Term.index).nodup_iff.2 ?_
    rw [terms_index]
    exact List.nodup_range
  have hz : ∀ i, i ≤ M.bs.cols.length →
      (((M.bs.cols.take i).zipIdx 0).map fun c => c.1.size *
        wide (sizeOf M) (blocksOf upper (rowRange M.bs.rows s e)) c.2).sum =
        base (sizeOf M) (blocksOf upper (rowRange M.bs.rows s e)) i :=
    fun i hi => base_eq_zip M.bs.cols _ i hi
  refine ⟨_, rfl, rfl, rfl, rfl, rfl, rfl, rfl, rfl, ?_, rfl, ?_, ?_, ?_, ?_, ?_⟩
  · intro i hi a ha
    rw [hT]
    have := resultRows_eq (wide (sizeOf M) (blocksOf upper (rowRange M.bs.rows s e))) M.bs.cols 0 0 0 i
      (M.bs.col i) h.bs.cols (col_getElem hi) a ha
    rw [Nat.sub_zero, Nat.zero_add, Nat.zero_add, hz i (by omega)] at this
    exact this
  · show (0 :: resultRows _ 0 0 M.bs.cols).getD M.numCols 0 = _
    rw [h.numCols, hT]
    have := resultRows_last (wide (sizeOf M) (blocksOf upper (rowRange M.bs.rows s e))) M.bs.cols 0 0
    have h2 := hz M.bs.cols.length le_rfl
    rw [List.take_length] at h2
    rw [Nat.zero_add, h2] at this
    exact this
  · intro i a j b hm ha hb
    simp only [hT]
    exact fill_cols M.bs.col hord hnd oldCols hm ha hb
  · intro k p hk
    simp only [hT]
    exact (fill_eq M.bs.col hord hnd oldCols).1 _ (List.mem_mergeSort.2 (terms_get upper _ k p hk))
  · show ((terms upper (rowRange M.bs.rows s e)).mergeSort Term.le).length = _
    rw [List.length_mergeSort, terms_length]
  · simp only [hT]
    rfl

theorem visit_ids {M : BMat K} (h : M.Ok) {upper : Bool} {s e : ℕ} {p : ℕ × Cell × Cell}
    (hp : p ∈ visits upper (rowRange M.bs.rows s e)) :
    p.2.1.blockId < M.bs.cols.length ∧ p.2.2.blockId < M.bs.cols.length := by
  unfold visits at hp
  obtain ⟨R, hR, hp⟩ := List.mem_flatMap.1 hp
  obtain ⟨q, hq, rfl⟩ := List.mem_map.1 hp
  have hRm : R ∈ M.bs.rows := List.mem_of_mem_take (List.mem_of_mem_drop hR)
  unfold pairs at hq
  obtain ⟨c, hc, hq⟩ := List.mem_flatMap.1 hq
  obtain ⟨d, hd, rfl⟩ := List.mem_map.1 hq
  refine ⟨h.bs.ids R hRm _ (List.fst_mem_of_mem_zipIdx hc), h.bs.ids R hRm _ ?_⟩
  split at hd
  · exact List.mem_of_mem_drop hd
  · exact List.mem_of_mem_take hd

theorem block_ids {M : BMat K} (h : M.Ok) {upper : Bool} {s e i j : ℕ}
    (hp : (i, j) ∈ blocksOf upper (rowRange M.bs.rows s e)) : i < M.bs.cols.length ∧ j < M.bs.cols.length := by
  obtain ⟨p, hv, rfl, rfl⟩ := mem_blocksOf.1 hp
  exact visit_ids h hv

/-- Where an index is. -/
theorem locate {M : BMat K} (h : M.Ok) {r : ℕ} (hr : r < M.numCols) :
    blockOf M.bs.cols r < M.bs.cols.length ∧ ∃ a < sizeOf M (blockOf M.bs.cols r),
      r = (M.bs.col (blockOf M.bs.cols r)).position + a := by
  have h1 := blockOf_total h.bs.cols (Nat.zero_le r) (by rw [Nat.zero_add, ← h.numCols]; exact hr)
  have h2 := List.findIdx_getElem (w := h1)
  simp only [decide_eq_true_eq] at h2
  have h3 : M.bs.col (blockOf M.bs.cols r) =
      M.bs.cols[List.findIdx (fun b => decide (b.position ≤ r ∧ r < b.position + b.size)) M.bs.cols]'h1 := by
    have := col_getElem h1
    rw [List.getElem?_eq_getElem h1] at this
    exact (Option.some.inj this).symm
  rw [← h3] at h2
  refine ⟨h1, r - (M.bs.col (blockOf M.bs.cols r)).position, ?_, by omega⟩
  show _ < (M.bs.col (blockOf M.bs.cols r)).size
  omega

/-- The entries of a row. -/
theorem Planned.row {M : BMat K} (h : M.Ok) {s e : ℕ} {upper : Bool} {C : Computer K} (hC : Planned M s e upper C)
    {i a : ℕ} (hi : i < M.bs.cols.length) (ha : a < sizeOf M i) :
    C.result.row ((M.bs.col i).position + a) =
      (colsOf (blocksOf upper (rowRange M.bs.rows s e)) i).flatMap fun j =>
        (List.range (sizeOf M j)).map fun b => ((M.bs.col j).position + b,
          C.result.values (place (sizeOf M) (blocksOf upper (rowRange M.bs.rows s e)) i a j b)) := by
  have h1 := hC.rows i hi a (by omega)
  have h2 := hC.rows i hi (a + 1) (by omega)
  unfold Sparse.Mat.row Sparse.Mat.idxs
  rw [show (M.bs.col i).position + a + 1 = (M.bs.col i).position + (a + 1) by omega, h1, h2]
  have h3 : base (sizeOf M) (blocksOf upper (rowRange M.bs.rows s e)) i +
      (a + 1) * wide (sizeOf M) (blocksOf upper (rowRange M.bs.rows s e)) i -
      (base (sizeOf M) (blocksOf upper (rowRange M.bs.rows s e)) i +
      a * wide (sizeOf M) (blocksOf upper (rowRange M.bs.rows s e)) i) =
      wide (sizeOf M) (blocksOf upper (rowRange M.bs.rows s e)) i := by
    rw [Nat.add_mul]; omega
  rw [h3, row_range (blocksOf_sorted _ _), List.map_flatMap, List.flatMap_def, List.flatMap_def]
  congr 1
  refine List.map_congr_left fun j hj => ?_
  rw [mem_colsOf] at hj
  rw [List.range'_eq_map_range, List.map_map]
  refine List.map_congr_left fun b hb => ?_
  rw [List.mem_range] at hb
  have h4 : base (sizeOf M) (blocksOf upper (rowRange M.bs.rows s e)) i +
      a * wide (sizeOf M) (blocksOf upper (rowRange M.bs.rows s e)) i +
      ahead (sizeOf M) (blocksOf upper (rowRange M.bs.rows s e)) i j + b =
      place (sizeOf M) (blocksOf upper (rowRange M.bs.rows s e)) i a j b := rfl
  simp only [Function.comp_apply, h4, hC.cols i a j b hj ha hb]

theorem sum_pick {l : List ℕ} (hl : l.Nodup) (j : ℕ) (f : ℕ → K) (hf : ∀ x ∈ l, x ≠ j → f x = 0) :
    (l.map f).sum = if j ∈ l then f j else 0 := by
  induction l with
  | nil => simp
  | cons x l ih =>
    rw [List.nodup_cons] at hl
    rw [List.map_cons, List.sum_cons, ih hl.2 fun y hy => hf y (List.mem_cons_of_mem _ hy)]
    by_cases h : x = j
    · subst h
      rw [if_neg hl.1, if_pos (by simp), add_zero]
    · rw [hf x (by simp) h, zero_add]
      refine if_congr ?_ rfl rfl
      rw [List.mem_cons]
      exact ⟨Or.inr, fun h' => h'.resolve_left (Ne.symm h)⟩

/-- An entry of the result is a value at a position. -/
theorem Planned.entry {M : BMat K} (h : M.Ok) {s e : ℕ} {upper : Bool} {C : Computer K} (hC : Planned M s e upper C)
    {i a j b : ℕ} (hi : i < M.bs.cols.length) (ha : a < sizeOf M i) (hj : j < M.bs.cols.length)
    (hb : b < sizeOf M j) :
    C.result.entry ((M.bs.col i).position + a) ((M.bs.col j).position + b) =
      if (i, j) ∈ blocksOf upper (rowRange M.bs.rows s e) then
        C.result.values (place (sizeOf M) (blocksOf upper (rowRange M.bs.rows s e)) i a j b) else 0 := by
  unfold Sparse.Mat.entry Sparse.colSum
  rw [hC.row h hi ha, Sparse.sum_flatMap]
  have hnd : (colsOf (blocksOf upper (rowRange M.bs.rows s e)) i).Nodup :=
    (colsOf_sorted (blocksOf_sorted _ _) i).imp fun h => Nat.ne_of_lt h
  rw [sum_pick hnd j]
  · refine if_congr mem_colsOf ?_ rfl
    rw [List.map_map, sum_range_pick _ b hb]
    · simp
    · intro b' _ hne
      simp only [Function.comp_apply]
      rw [if_neg]
      omega
  · intro j' hj' hne
    refine List.sum_eq_zero fun z hz => ?_
    obtain ⟨w, hw, rfl⟩ := List.mem_map.1 hz
    obtain ⟨b', hb', rfl⟩ := List.mem_map.1 hw
    rw [List.mem_range] at hb'
    rw [if_neg]
    intro he
    simp only at he
    have hj2 := (block_ids h (mem_colsOf.1 hj')).2
    have e1 := blockOf_eq h.bs.cols (col_getElem hj2) (r := (M.bs.col j).position + b) (by omega)
      (by show _ < _ + sizeOf M j'; omega)
    have e2 := blockOf_eq h.bs.cols (col_getElem hj) (r := (M.bs.col j).position + b) (by omega)
      (by show _ < _ + sizeOf M j; omega)
    exact hne (e1.symm.trans e2)

/-- The arrays describe a matrix. -/
theorem Planned.wf {M : BMat K} (h : M.Ok) {s e : ℕ} {upper : Bool} {C : Computer K} (hC : Planned M s e upper C) :
    C.result.WF := by
  have hstep : ∀ r < M.numCols, C.result.rows r ≤ C.result.rows (r + 1) := by
    intro r hr
    obtain ⟨hi, a, ha, he⟩ := locate h hr
    have h1 := hC.rows _ hi a (by omega)
    have h2 := hC.rows _ hi (a + 1) (by omega)
    rw [← he] at h1
    rw [← Nat.add_assoc, ← he] at h2
    rw [h1, h2, Nat.add_mul]
    omega
  refine ⟨hC.first, fun r hr => hstep r (by rw [← hC.numRows]; exact hr), ?_⟩
  intro q hq
  unfold Sparse.Mat.nnz at hq
  obtain ⟨r, hr, h1, h2⟩ := crossing hC.first _ q hq
  rw [hC.numRows] at hr
  obtain ⟨hi, a, ha, he⟩ := locate h hr
  have hmem : (C.result.cols q, C.result.values q) ∈ C.result.row r := by
    unfold Sparse.Mat.row
    refine List.mem_map.2 ⟨q, ?_, rfl⟩
    unfold Sparse.Mat.idxs
    rw [List.mem_range'_1]
    omega
  rw [he, hC.row h hi ha] at hmem
  obtain ⟨j, hj, hm⟩ := List.mem_flatMap.1 hmem
  obtain ⟨b, hb, hm⟩ := List.mem_map.1 hm
  rw [List.mem_range] at hb
  have hj2 := (block_ids h (mem_colsOf.1 hj)).2
  have hbd := laid_bounds h.bs.cols (List.mem_of_getElem? (col_getElem hj2))
  rw [hC.numCols, h.numCols]
  have : C.result.cols q = (M.bs.col j).position + b := (Prod.ext_iff.1 hm).1.symm
  unfold sizeOf at hb
  omega

/-- The columns increase within every row. -/
theorem Planned.increasing {M : BMat K} (h : M.Ok) {s e : ℕ} {upper : Bool} {C : Computer K}
    (hC : Planned M s e upper C) {r : ℕ} (hr : r < M.numCols) :
    ((C.result.row r).map Prod.fst).Pairwise (· < ·) := by
  obtain ⟨hi, a, ha, he⟩ := locate h hr
  rw [he, hC.row h hi ha, List.map_flatMap]
  have hs := colsOf_sorted (blocksOf_sorted upper (rowRange M.bs.rows s e)) (blockOf M.bs.cols r)
  have hm : ∀ j ∈ colsOf (blocksOf upper (rowRange M.bs.rows s e)) (blockOf M.bs.cols r), j < M.bs.cols.length :=
    fun j hj => (block_ids h (mem_colsOf.1 hj)).2
  rw [List.flatMap_def, List.pairwise_flatten]
  constructor
  · intro l hl
    obtain ⟨j, _, rfl⟩ := List.mem_map.1 hl
    rw [List.map_map, List.pairwise_map]
    exact List.pairwise_lt_range.imp fun {x y} hxy => by simp only [Function.comp_apply]; omega
  · rw [List.pairwise_map]
    refine List.Pairwise.imp_of_mem ?_ hs
    intro j j' hj hj' hlt x hx y hy
    rw [List.map_map] at hx hy
    obtain ⟨b, hb, rfl⟩ := List.mem_map.1 hx
    obtain ⟨b', hb', rfl⟩ := List.mem_map.1 hy
    rw [List.mem_range] at hb hb'
    simp only [Function.comp_apply]
    have hpos : ∀ n, j + n < M.bs.cols.length → 0 < n →
        (M.bs.col j).position + (M.bs.col j).size ≤ (M.bs.col (j + n)).position := by
      intro n hn hn0
      have h1 := laid_drop (n := j) h.bs.cols
      rw [List.drop_eq_getElem_cons (by omega)] at h1
      have h2 : M.bs.cols[j]'(by omega) = M.bs.col j := by
        have := col_getElem (bs := M.bs) (i := j) (by omega)
        rw [List.getElem?_eq_getElem (by omega)] at this
        exact Option.some.inj this
      rw [h2] at h1
      have h3 : M.bs.col (j + n) ∈ M.bs.cols.drop (j + 1) := by
        have := col_getElem hn
        refine List.mem_of_getElem? (i := n - 1) ?_
        rw [List.getElem?_drop, show j + 1 + (n - 1) = j + n by omega, this]
      have h4 := laid_bounds h1.2 h3
      rw [h1.1]
      omega
    have := hpos (j' - j) (by have := hm j' hj'; omega) (by omega)
    rw [show j + (j' - j) = j' by omega] at this
    unfold sizeOf at hb
    omega

theorem sum_fibres (D : List (ℕ × ℕ)) (size : ℕ → ℕ) (n : ℕ) (hn : ∀ d ∈ D, d.1 < n) :
    base size D n = (D.map fun d => size d.1 * size d.2).sum := by
  unfold base
  induction D with
  | nil => simp [wide]
  | cons d D ih =>
    have ih := ih fun x hx => hn x (List.mem_cons_of_mem _ hx)
    rw [List.map_cons, List.sum_cons, ← ih]
    have h1 : ((List.range n).map fun k => wide size (d :: D) k * size k) =
        (List.range n).map fun k => (if d.1 = k then size d.2 * size k else 0) + wide size D k * size k := by
      refine List.map_congr_left fun k _ => ?_
      unfold wide
      rw [List.filter_cons]
      by_cases hk : d.1 = k
      · simp [hk, Nat.add_mul]
      · simp [hk]
    rw [h1, List.sum_map_add]
    congr 1
    have hd := hn d (by simp)
    have : ∀ m, ((List.range m).map fun k => if d.1 = k then size d.2 * size k else 0).sum =
        if d.1 < m then size d.1 * size d.2 else 0 := by
      intro m
      induction m with
      | zero => simp
      | succ m ih =>
        rw [List.range_succ, List.map_append, List.sum_append, ih]
        simp only [List.map_cons, List.map_nil, List.sum_cons, List.sum_nil, Nat.add_zero]
        by_cases h1 : d.1 = m
        · rw [if_neg (by omega), if_pos h1, if_pos (by omega), ← h1, Nat.mul_comm]
          omega
        · rw [if_neg h1]
          by_cases h2 : d.1 < m
          · rw [if_pos h2, if_pos (by omega)]; rfl
          · rw [if_neg h2, if_neg (by omega)]
    rw [this, if_pos hd]

/-- The arrays have the size they need. -/
theorem Planned.exact {M : BMat K} (h : M.Ok) {s e : ℕ} {upper : Bool} {C : Computer K}
    (hC : Planned M s e upper C) : C.allocated = C.result.nnz := by
  rw [hC.allocated, hC.last, sum_fibres]
  intro d hd
  exact (block_ids (i := d.1) (j := d.2) h hd).1

/-! ## Computing -/

/-- What the result of `Compute` is. -/
structure IsProduct (M : BMat K) (s e : ℕ) (upper : Bool) (A : Sparse.Mat K) : Prop where
  wf : A.WF
  numRows : A.numRows = M.numCols
  numCols : A.numCols = M.numCols
  storage : A.storage = if upper then .upper else .lower
  rowBlocks : A.rowBlocks = M.bs.cols.map Block.size
  increasing : ∀ r < M.numCols, ((A.row r).map Prod.fst).Pairwise (· < ·)
  entry : ∀ r < M.numCols, ∀ c < M.numCols, A.entry r c =
    if InTriangle upper (blockOf M.bs.cols r) (blockOf M.bs.cols c) then
      ∑ k ∈ Finset.Ico (rowStart M.bs.rows s) (rowStart M.bs.rows e), M.entry k r * M.entry k c
    else 0

theorem compute_planned {M M' : BMat K} (h : M.Ok) (hs : CellsSorted M.bs) {s e : ℕ} (hse : s ≤ e)
    (he : e ≤ M.bs.rows.length) {upper : Bool} {C : Computer K} (hC : Planned M s e upper C) (hbs : M'.bs = M.bs)
    (hcols : M'.numCols = M.numCols) :
    ∃ C', C.compute M' = some C' ∧ Planned M s e upper C' ∧ IsProduct M' s e upper C'.result := by
  have hcond : C.stop ≤ M'.bs.rows.length ∧
      (visits C.upper (rowRange M'.bs.rows C.start C.stop)).length = C.numOffsets := by
    rw [hC.start, hC.stop, hC.side, hC.numOffsets, hbs]
    exact ⟨he, rfl⟩
  set C' : Computer K := { C with result := { C.result with
    values := computeLoop M'.bs.col M'.values C.result.rows C.offsets
      (visits C.upper (rowRange M'.bs.rows C.start C.stop)) 0 fun _ => 0 } } with hC'
  have hval : C'.result.values = computeLoop M.bs.col M'.values C.result.rows C.offsets
      (visits upper (rowRange M.bs.rows s e)) 0 fun _ => 0 := by
    rw [hC']
    simp only [hC.start, hC.stop, hC.side, hbs]
  have hP : Planned M s e upper C' :=
    ⟨hC.start, hC.stop, hC.side, hC.numRows, hC.numCols, hC.storage, hC.rowBlocks, hC.rows, hC.first, hC.last,
      hC.cols, hC.offsets, hC.numOffsets, hC.allocated⟩
  refine ⟨C', if_pos hcond, hP, ?_⟩
  · clear_value C'
    refine ⟨hP.wf h, hP.numRows.trans hcols.symm, hP.numCols.trans hcols.symm, hP.storage, ?_, ?_, ?_⟩
    · rw [hbs]; exact hP.rowBlocks
    · intro r hr
      rw [hcols] at hr
      exact hP.increasing h hr
    · intro r hr c hc
      rw [hcols] at hr hc
      obtain ⟨hi, a, ha, her⟩ := locate h hr
      obtain ⟨hj, b, hb, hec⟩ := locate h hc
      unfold BMat.entry
      rw [hbs]
      generalize blockOf M.bs.cols r = i at hi ha her ⊢
      generalize blockOf M.bs.cols c = j at hj hb hec ⊢
      subst her hec
      rw [hP.entry h hi ha hj hb]
      have hsum := contributions (K := K) h.bs.cols h.bs.rows h.bs.ids hs M'.values upper hse hi ha hj hb
      rw [← hsum]
      split
      · rename_i hmem
        have := computeLoop_eq M.bs M'.values C.result.rows C.offsets _ (blocksOf_sorted upper _)
          (visits upper (rowRange M.bs.rows s e)) 0 (by
            intro k p hk
            have hpm := List.mem_of_getElem? hk
            have hid := visit_ids h hpm
            refine ⟨mem_blocksOf.2 ⟨p, hpm, rfl, rfl⟩, ?_, fun hpos => ?_⟩
            · rw [Nat.zero_add]
              exact hC.offsets k p hk
            · have h1 := hC.rows _ hid.1 0 (Nat.zero_le _)
              have h2 := hC.rows _ hid.1 1 hpos
              rw [Nat.add_zero] at h1
              rw [h1, h2]
              show _ = wide (sizeOf M) _ _
              omega) (fun _ => 0) hmem ha hb
        rw [zero_add] at this
        rw [hval]
        exact this
      · rename_i hmem
        symm
        refine List.sum_eq_zero fun x hx => ?_
        obtain ⟨p, hp, rfl⟩ := List.mem_map.1 hx
        unfold contribution
        rw [if_neg]
        intro hid
        exact hmem (mem_blocksOf.2 ⟨p, hp, hid⟩)

/-- **The normal equations**: after `Create` and any number of calls of `Compute` on the matrix, its values having
changed or not, the result is the wanted triangle of the product of the rows of the chosen row blocks, as a matrix
in order whose arrays have the right size. -/
theorem inner_product {M : BMat K} (h : M.Ok) (hs : CellsSorted M.bs) (hnz : 0 < M.nnz) {s e : ℕ} (hse : s ≤ e)
    (he : e ≤ M.bs.rows.length) (upper : Bool) (oldCols : ℕ → ℕ) (oldValues : ℕ → K) (Ms : List (BMat K))
    (hM : ∀ N ∈ Ms, N.bs = M.bs ∧ N.numCols = M.numCols) (M' : BMat K) (hM' : M'.bs = M.bs)
    (hcols : M'.numCols = M.numCols) :
    ∃ C C' C'', create M s e upper oldCols oldValues = some C ∧ Ms.foldlM Computer.compute C = some C' ∧
      C'.compute M' = some C'' ∧ IsProduct M' s e upper C''.result ∧ C''.allocated = C''.result.nnz := by
  obtain ⟨C, hC, hP⟩ := create_planned h hnz s e upper oldCols oldValues
  have : ∀ (Ms : List (BMat K)) (C : Computer K), (∀ N ∈ Ms, N.bs = M.bs ∧ N.numCols = M.numCols) →
      Planned M s e upper C → ∃ C', Ms.foldlM Computer.compute C = some C' ∧ Planned M s e upper C' := by
    intro Ms
    induction Ms with
    | nil => intro C _ hP; exact ⟨C, rfl, hP⟩
    | cons N Ms ih =>
      intro C hM hP
      obtain ⟨C1, h1, hP1, -⟩ := compute_planned h hs hse he hP (hM N (by simp)).1 (hM N (by simp)).2
      obtain ⟨C2, h2, hP2⟩ := ih C1 (fun N hN => hM N (List.mem_cons_of_mem _ hN)) hP1
      refine ⟨C2, ?_, hP2⟩
      rw [List.foldlM_cons, h1]
      exact h2
  obtain ⟨C1, h1, hP1⟩ := this Ms C hM hP
  obtain ⟨C2, h2, hP2, hI⟩ := compute_planned h hs hse he hP1 hM' hcols
  exact ⟨C, C1, C2, hC, h1, h2, hI, hP2.exact h⟩

end Ceres.InnerProduct
