import Verif.CudaCgnr.Spec
import Verif.PartitionedView.Products

/-!
# The structure of the preconditioner and of the Jacobian
-/

noncomputable section

namespace Ceres.CudaCgnr

open Ceres.BlockSparse
open Ceres.PartitionedView (sqOffset)

theorem buildRow_aux (b : Block) (s : Build) (n : ℕ) :
    let r := (List.range n).foldl
      (fun s k => { s with cols := Function.update s.cols s.idx (b.position + k), idx := s.idx + 1 }) s
    r.rows = s.rows ∧ r.idx = s.idx + n ∧
      ∀ q, r.cols q = if s.idx ≤ q ∧ q < s.idx + n then b.position + (q - s.idx) else s.cols q := by
  induction n with
  | zero => exact ⟨rfl, rfl, fun q => by rw [if_neg (by omega)]; rfl⟩
  | succ n ih =>
    simp only at ih ⊢
    rw [List.range_succ, List.foldl_append]
    obtain ⟨h1, h2, h3⟩ := ih
    refine ⟨h1, by simp only [List.foldl_cons, List.foldl_nil, h2]; omega, fun q => ?_⟩
    simp only [List.foldl_cons, List.foldl_nil]
    rw [h2, Function.update_apply]
    by_cases hq : q = s.idx + n
    · rw [if_pos hq, if_pos (by omega), hq]
      congr 1
      omega
    · rw [if_neg hq, h3]
      by_cases h : s.idx ≤ q ∧ q < s.idx + n
      · rw [if_pos h, if_pos (by omega)]
      · rw [if_neg h, if_neg (by omega)]

theorem buildBlock_aux (b : Block) (s : Build) (n : ℕ) :
    let r := (List.range n).foldl
      (fun s j =>
        let s := buildRow b s
        { s with rows := Function.update s.rows (b.position + j + 1) s.idx }) s
    r.idx = s.idx + n * b.size ∧
      (∀ q, r.rows q = if b.position < q ∧ q ≤ b.position + n then s.idx + (q - b.position) * b.size else s.rows q) ∧
      (∀ j < n, ∀ t < b.size, r.cols (s.idx + j * b.size + t) = b.position + t) ∧
      ∀ q < s.idx, r.cols q = s.cols q := by
  induction n with
  | zero =>
    refine ⟨by simp, fun q => by rw [if_neg (by omega)]; rfl, fun j hj => by omega, fun q _ => rfl⟩
  | succ n ih =>
    simp only at ih ⊢
    rw [List.range_succ, List.foldl_append]
    obtain ⟨h1, h2, h3, h4⟩ := ih
    simp only [List.foldl_cons, List.foldl_nil]
    generalize (List.range n).foldl _ s = r at h1 h2 h3 h4 ⊢
    obtain ⟨k1, k2, k3⟩ := buildRow_aux b r b.size
    change (buildRow b r).rows = _ at k1
    change (buildRow b r).idx = _ at k2
    change ∀ q, (buildRow b r).cols q = _ at k3
    have e : (n + 1) * b.size = n * b.size + b.size := by ring
    refine ⟨by rw [k2, h1, e]; omega, fun q => ?_, fun j hj t ht => ?_, fun q hq => ?_⟩
    · rw [Function.update_apply, k1, k2, h1, h2]
      by_cases hq : q = b.position + n + 1
      · rw [if_pos hq, if_pos (by omega), hq, show b.position + n + 1 - b.position = n + 1 by omega, e]
        omega
      · rw [if_neg hq]
        by_cases h : b.position < q ∧ q ≤ b.position + n
        · rw [if_pos h, if_pos (by omega)]
        · rw [if_neg h, if_neg (by omega)]
    · rw [k3, h1]
      by_cases hjn : j = n
      · rw [if_pos (by rw [hjn]; omega), hjn]
        omega
      · have : j * b.size + b.size ≤ n * b.size := by
          have := Nat.mul_le_mul_right b.size (show j + 1 ≤ n by omega)
          rw [Nat.add_mul, Nat.one_mul] at this
          exact this
        rw [if_neg (by omega)]
        exact h3 j (by omega) t ht
    · rw [k3, if_neg (by omega)]
      exact h4 q hq

theorem sqOffset_cons (b : Block) (l : List Block) (k : ℕ) : sqOffset (b :: l) (k + 1) = b.size * b.size + sqOffset l k := by
  unfold sqOffset
  simp

theorem build_aux (l : List Block) (p : ℕ) (s : Build) (hl : Laid p l) (hs : s.rows p = s.idx) :
    let r := l.foldl buildBlock s
    r.idx = s.idx + sqOffset l l.length ∧ (∀ q ≤ p, r.rows q = s.rows q) ∧ (∀ q < s.idx, r.cols q = s.cols q) ∧
      r.rows (p + (l.map Block.size).sum) = r.idx ∧
      ∀ k b, l[k]? = some b → (∀ j ≤ b.size, r.rows (b.position + j) = s.idx + sqOffset l k + j * b.size) ∧
        ∀ j < b.size, ∀ t < b.size, r.cols (s.idx + sqOffset l k + j * b.size + t) = b.position + t := by
  induction l generalizing p s with
  | nil => exact ⟨by simp [sqOffset], fun _ _ => rfl, fun _ _ => rfl, by simpa using hs, fun k b h => by simp at h⟩
  | cons a l ih =>
    obtain ⟨h1, h2, h3, h4⟩ := buildBlock_aux a s a.size
    change (buildBlock s a).idx = _ at h1
    change ∀ q, (buildBlock s a).rows q = _ at h2
    change ∀ j < a.size, ∀ t < a.size, (buildBlock s a).cols _ = _ at h3
    change ∀ q < s.idx, (buildBlock s a).cols q = _ at h4
    have hp := hl.1
    obtain ⟨k1, k2, k3, k4, k5⟩ := ih (p + a.size) (buildBlock s a) hl.2 (by
      rw [h2, h1]
      by_cases hz : a.size = 0
      · rw [hz, if_neg (by omega), Nat.add_zero, hs]
        omega
      · rw [if_pos (by omega), show p + a.size - a.position = a.size by omega])
    simp only [List.foldl_cons]
    refine ⟨?_, fun q hq => ?_, fun q hq => ?_, ?_, fun k b hk => ?_⟩
    · rw [k1, h1, List.length_cons, sqOffset_cons]
      omega
    · rw [k2 q (by omega), h2, if_neg (by omega)]
    · rw [k3 q (by omega), h4 q hq]
    · rw [List.map_cons, List.sum_cons, ← Nat.add_assoc]
      exact k4
    · cases k with
      | zero =>
        simp only [List.getElem?_cons_zero, Option.some.injEq] at hk
        subst hk
        refine ⟨fun j hj => ?_, fun j hj t ht => ?_⟩
        · rw [k2 _ (by omega), h2]
          by_cases hj0 : j = 0
          · subst hj0
            rw [if_neg (by omega), Nat.add_zero, hp, hs]
            simp [sqOffset]
          · rw [if_pos (by omega), show a.position + j - a.position = j by omega]
            simp [sqOffset]
        · have : j * a.size + a.size ≤ a.size * a.size := by
            have := Nat.mul_le_mul_right a.size (show j + 1 ≤ a.size by omega)
            rw [Nat.add_mul, Nat.one_mul] at this
            exact this
          have e : sqOffset (a :: l) 0 = 0 := rfl
          rw [e, Nat.add_zero, k3 _ (by omega)]
          exact h3 j hj t ht
      | succ k =>
        rw [List.getElem?_cons_succ] at hk
        obtain ⟨e1, e2⟩ := k5 k b hk
        rw [sqOffset_cons, ← Nat.add_assoc, ← h1]
        exact ⟨e1, e2⟩

/-- Where the blocks of the preconditioner are. -/
structure Blocks (cols : List Block) (m : Sparse.Mat ℝ) : Prop where
  first : m.rows 0 = 0
  rows : ∀ k b, cols[k]? = some b → ∀ j ≤ b.size, m.rows (b.position + j) = sqOffset cols k + j * b.size
  colIdx : ∀ k b, cols[k]? = some b → ∀ j < b.size, ∀ t < b.size,
    m.cols (sqOffset cols k + j * b.size + t) = b.position + t
  numRows : m.numRows = (cols.map Block.size).sum
  numCols : m.numCols = (cols.map Block.size).sum
  nnz : m.nnz = sqOffset cols cols.length
  storage : m.storage = .unsymmetric

/-- **The constructor** passes its check and makes one block after the other. -/
theorem construct_spec {A : Crs} {cols : List Block} {S : List (Block × List ℕ)} (h : IsJacobian cols S A)
    (oldRows oldCols : ℕ → ℕ) (oldValues : ℕ → ℝ) :
    ∃ m, construct A oldRows oldCols oldValues = some m ∧ Blocks cols m := by
  obtain ⟨h1, h2, -, h4, h5⟩ := build_aux cols 0 ⟨Function.update oldRows 0 0, oldCols, 0⟩ h.colsLaid
    (by simp)
  change (build cols oldRows oldCols).idx = _ at h1
  change ∀ q ≤ 0, (build cols oldRows oldCols).rows q = _ at h2
  change (build cols oldRows oldCols).rows _ = (build cols oldRows oldCols).idx at h4
  change ∀ (k : ℕ) (b : Block), _ → (∀ j ≤ b.size, (build cols oldRows oldCols).rows _ = _) ∧
    ∀ j < b.size, ∀ t < b.size, (build cols oldRows oldCols).cols _ = _ at h5
  simp only [Nat.zero_add] at h1 h4 h5
  have hsum : (cols.map fun b => b.size * b.size).sum = sqOffset cols cols.length := by
    unfold sqOffset
    rw [List.take_length]
  unfold construct
  rw [h.colBlocks, h.numCols]
  simp only
  rw [if_pos (by rw [h4, h1, hsum])]
  exact ⟨_, rfl, by simpa using h2 0 le_rfl, fun k b hk => (h5 k b hk).1, fun k b hk => (h5 k b hk).2,
    rfl, rfl, by show (build cols oldRows oldCols).rows _ = _; rw [h4, h1], rfl⟩

/-! ## The Jacobian -/

/-- The column blocks of a row block and where they start in a row. -/
def places (cols : List Block) : ℕ → List ℕ → List (ℕ × ℕ)
  | _, [] => []
  | o, id :: l => (id, o) :: places cols (o + (blk cols id).size) l

theorem places_ids (cols : List Block) (o : ℕ) (l : List ℕ) : (places cols o l).map Prod.fst = l := by
  induction l generalizing o with
  | nil => rfl
  | cons id l ih => rw [places, List.map_cons, ih]

theorem columnsOf_cons (cols : List Block) (id : ℕ) (l : List ℕ) :
    columnsOf cols (id :: l) = List.range' (blk cols id).position (blk cols id).size ++ columnsOf cols l := rfl

theorem places_bound (cols : List Block) (o : ℕ) (l : List ℕ) {e : ℕ × ℕ} (he : e ∈ places cols o l) :
    o ≤ e.2 ∧ e.2 + (blk cols e.1).size ≤ o + (columnsOf cols l).length := by
  induction l generalizing o with
  | nil => cases he
  | cons id l ih =>
    rw [columnsOf_cons, List.length_append, List.length_range']
    rcases List.mem_cons.1 he with rfl | he
    · exact ⟨le_rfl, by show o + (blk cols id).size ≤ _; omega⟩
    · have := ih _ he
      omega

/-- What a row stores, cell by cell. -/
theorem sum_columns (cols : List Block) (f : ℕ → ℕ → ℝ) (g : ℕ → ℕ) (o : ℕ) (l : List ℕ)
    (hg : (List.range' o (columnsOf cols l).length).map g = columnsOf cols l) :
    ((List.range' o (columnsOf cols l).length).map fun i => f (g i) i).sum =
      ((places cols o l).map fun e => ((List.range (blk cols e.1).size).map fun j =>
        f ((blk cols e.1).position + j) (e.2 + j)).sum).sum := by
  induction l generalizing o with
  | nil => rfl
  | cons id l ih =>
    rw [columnsOf_cons, List.length_append, List.length_range', ← List.range'_append_1] at hg ⊢
    rw [List.map_append] at hg
    obtain ⟨h1, h2⟩ := List.append_inj hg (by simp)
    rw [List.map_append, List.sum_append, ih _ h2, places, List.map_cons, List.sum_cons]
    congr 1
    rw [List.range'_eq_map_range, List.map_map, List.range'_eq_map_range] at h1
    rw [List.range'_eq_map_range, List.map_map]
    refine congrArg List.sum (List.map_congr_left fun j hj => ?_)
    have : g (o + j) = (blk cols id).position + j := by
      have := List.map_inj_left.1 h1 j hj
      exact this
    show f (g (o + j)) (o + j) = _
    rw [this]

section
variable {cols : List Block} {S : List (Block × List ℕ)} {A : Crs}

theorem blk_get {id : ℕ} (h : id < cols.length) : cols[id]? = some (blk cols id) := by
  unfold blk
  rw [List.getD_eq_getElem?_getD, List.getElem?_eq_getElem h]
  rfl

theorem blk_eq {id : ℕ} {b : Block} (h : cols[id]? = some b) : blk cols id = b := by
  unfold blk
  rw [List.getD_eq_getElem?_getD, h]
  rfl

theorem row_bound (h : IsJacobian cols S A) {s : Block × List ℕ} (hs : s ∈ S) :
    s.1.position + s.1.size ≤ A.mat.numRows := by
  have := (laid_bounds h.rowsLaid (List.mem_map_of_mem (f := Prod.fst) hs)).2
  rw [h.numRows]
  omega

theorem row_step (h : IsJacobian cols S A) {s : Block × List ℕ} (hs : s ∈ S) {k : ℕ} (hk : k < s.1.size) :
    A.mat.rows (s.1.position + k + 1) = A.mat.rows (s.1.position + k) + (columnsOf cols s.2).length := by
  have h1 := congrArg List.length (h.columns s hs k hk)
  have h2 := h.wf.mono (s.1.position + k) (by have := row_bound h hs; omega)
  unfold Sparse.Mat.row Sparse.Mat.idxs at h1
  rw [List.length_map, List.length_map, List.length_range'] at h1
  omega

theorem row_start (h : IsJacobian cols S A) {s : Block × List ℕ} (hs : s ∈ S) {k : ℕ} (hk : k ≤ s.1.size) :
    A.mat.rows (s.1.position + k) = A.mat.rows s.1.position + k * (columnsOf cols s.2).length := by
  induction k with
  | zero => simp
  | succ k ih =>
    rw [← Nat.add_assoc, row_step h hs (by omega), ih (by omega)]
    ring

theorem row_cols (h : IsJacobian cols S A) {s : Block × List ℕ} (hs : s ∈ S) {k : ℕ} (hk : k < s.1.size) :
    (List.range' (A.mat.rows (s.1.position + k)) (columnsOf cols s.2).length).map A.mat.cols = columnsOf cols s.2 := by
  have h1 := h.columns s hs k hk
  unfold Sparse.Mat.row Sparse.Mat.idxs at h1
  rw [row_step h hs hk, Nat.add_sub_cancel_left, List.map_map] at h1
  exact h1

theorem rows_le (h : A.mat.WF) {r r' : ℕ} (hr : r ≤ r') (hr' : r' ≤ A.mat.numRows) : A.mat.rows r ≤ A.mat.rows r' := by
  induction r' with
  | zero =>
    obtain rfl : r = 0 := by omega
    exact le_rfl
  | succ n ih =>
    rcases Nat.lt_or_ge n r with h1 | h1
    · obtain rfl : r = n + 1 := by omega
      exact le_rfl
    · exact (ih h1 (by omega)).trans (h.mono n (by omega))

/-- The values of a row block are values of the matrix. -/
theorem value_bound (h : IsJacobian cols S A) {s : Block × List ℕ} (hs : s ∈ S) {k t : ℕ} (hk : k < s.1.size)
    (ht : t < (columnsOf cols s.2).length) :
    A.mat.rows s.1.position + k * (columnsOf cols s.2).length + t < A.mat.nnz := by
  have h1 := row_start h hs (k := k + 1) hk
  have h2 := rows_le h.wf (r := s.1.position + (k + 1)) (r' := A.mat.numRows) (by have := row_bound h hs; omega) le_rfl
  have : (k + 1) * (columnsOf cols s.2).length = k * (columnsOf cols s.2).length + (columnsOf cols s.2).length := by ring
  unfold Sparse.Mat.nnz
  omega

theorem sum_pick (n i : ℕ) (f : ℕ → ℝ) (p c : ℕ) (hi : i < n) (hc : c = p + i) :
    ((List.range n).map fun j => if p + j = c then f j else 0).sum = f i := by
  subst hc
  rw [← List.sum_toFinset _ List.nodup_range, List.toFinset_range]
  have : ∀ j ∈ Finset.range n, (if p + j = p + i then f j else 0) = if j = i then f j else 0 := fun j _ => by
    by_cases h : j = i
    · rw [if_pos (by omega), if_pos h]
    · rw [if_neg (by omega), if_neg h]
  rw [Finset.sum_congr rfl this, Finset.sum_ite_eq', if_pos (Finset.mem_range.2 hi)]

/-- **The entries** of the Jacobian in a column of block `id`: those of the cells of this block. -/
theorem entry_eq (h : IsJacobian cols S A) {s : Block × List ℕ} (hs : s ∈ S) {k : ℕ} (hk : k < s.1.size) {id : ℕ}
    {b : Block} (hb : cols[id]? = some b) {i : ℕ} (hi : i < b.size) :
    A.mat.entry (s.1.position + k) (b.position + i) = ((places cols 0 s.2).map fun e =>
      if e.1 = id then A.mat.values (A.mat.rows s.1.position + k * (columnsOf cols s.2).length + (e.2 + i)) else 0).sum := by
  unfold Sparse.Mat.entry Sparse.colSum Sparse.Mat.row Sparse.Mat.idxs
  rw [row_step h hs hk, Nat.add_sub_cancel_left, List.map_map, row_start h hs hk.le]
  set base := A.mat.rows s.1.position + k * (columnsOf cols s.2).length with hbase
  have hc := row_cols h hs hk
  rw [row_start h hs hk.le, ← hbase] at hc
  have hshift : ∀ (n : ℕ) (F : ℕ → ℝ), (List.range' base n).map F = (List.range' 0 n).map fun t => F (base + t) := by
    intro n F
    rw [List.range'_eq_map_range, List.map_map, ← List.range_eq_range']
    rfl
  have hc' : (List.range' 0 (columnsOf cols s.2).length).map (fun t => A.mat.cols (base + t)) = columnsOf cols s.2 := by
    rw [List.range'_eq_map_range, List.map_map] at hc
    rw [← List.range_eq_range']
    exact hc
  rw [hshift]
  have := sum_columns cols (fun c t => if c = b.position + i then A.mat.values (base + t) else 0)
    (fun t => A.mat.cols (base + t)) 0 s.2 hc'
  refine Eq.trans this ?_
  refine congrArg List.sum (List.map_congr_left fun e he => ?_)
  have hid : e.1 < cols.length := h.ids s hs e.1 (by
    have := List.mem_map_of_mem (f := Prod.fst) he
    rwa [places_ids] at this)
  by_cases hei : e.1 = id
  · subst hei
    rw [if_pos rfl, blk_eq hb]
    exact sum_pick b.size i (fun j => A.mat.values (base + (e.2 + j))) b.position _ hi rfl
  · rw [if_neg hei]
    refine List.sum_eq_zero fun x hx => ?_
    obtain ⟨j, hj, rfl⟩ := List.mem_map.1 hx
    refine if_neg fun heq => hei ?_
    have e1 := blockOf_eq h.colsLaid (blk_get hid) (r := b.position + i) (by omega)
      (by have := List.mem_range.1 hj; omega)
    have e2 := blockOf_eq h.colsLaid hb (r := b.position + i) (by omega) (by omega)
    omega

end

end Ceres.CudaCgnr
