import Verif.CudaCgnr.Jacobi

/-!
# The matrices on the device
-/

noncomputable section

namespace Ceres.CudaCgnr

open Matrix Ceres.Tasks Ceres.BlockSparse Ceres.Direct
open Ceres.PartitionedView (sqOffset offset sqOffset_succ sqOffset_mono slot_lt get_lt laid_position)
open Ceres.SchurJacobi (diagonal)

variable {cols : List Block} {S : List (Block × List ℕ)} {A : Crs} {m : Sparse.Mat ℝ}

/-! ## A copy -/

/-- `B` has the size and the arrays of `M`, as far as they are used. -/
structure SameMat (B M : Sparse.Mat ℝ) : Prop where
  numRows : B.numRows = M.numRows
  numCols : B.numCols = M.numCols
  storage : B.storage = M.storage
  rows : ∀ r ≤ M.numRows, B.rows r = M.rows r
  cols : ∀ i < M.nnz, B.cols i = M.cols i
  values : ∀ i < M.nnz, B.values i = M.values i

theorem same_nnz {B M : Sparse.Mat ℝ} (h : SameMat B M) : B.nnz = M.nnz := by
  unfold Sparse.Mat.nnz
  rw [h.numRows, h.rows _ le_rfl]

theorem same_wf {B M : Sparse.Mat ℝ} (h : SameMat B M) (hM : M.WF) : B.WF where
  start := by rw [h.rows 0 (Nat.zero_le _), hM.start]
  mono r hr := by
    rw [h.numRows] at hr
    rw [h.rows r hr.le, h.rows (r + 1) hr]
    exact hM.mono r hr
  bound i hi := by
    rw [same_nnz h] at hi
    rw [h.cols i hi, h.numCols]
    exact hM.bound i hi

theorem wf_rows {M : Sparse.Mat ℝ} (hM : M.WF) {r : ℕ} (hr : r ≤ M.numRows) : M.rows r ≤ M.nnz := by
  unfold Sparse.Mat.nnz
  obtain ⟨d, hd⟩ := Nat.exists_eq_add_of_le hr
  rw [hd]
  have : ∀ e ≤ d, M.rows r ≤ M.rows (r + e) := by
    intro e
    induction e with
    | zero => simp
    | succ e ih => exact fun he => (ih (by omega)).trans (hM.mono (r + e) (by omega))
  exact this d le_rfl

theorem same_entry {B M : Sparse.Mat ℝ} (h : SameMat B M) (hM : M.WF) {r : ℕ} (hr : r < M.numRows) (c : ℕ) :
    B.entry r c = M.entry r c := by
  unfold Sparse.Mat.entry Sparse.colSum
  congr 2
  unfold Sparse.Mat.row Sparse.Mat.idxs
  rw [h.rows r hr.le, h.rows (r + 1) hr]
  refine List.map_congr_left fun i hi => ?_
  have hlt := (List.mem_range'_1.1 hi).2
  have := wf_rows hM (r := r + 1) hr
  have := hM.mono r hr
  rw [h.cols i (by omega), h.values i (by omega)]

/-! ## The matrix of the preconditioner -/

/-- Row block `k` stores column block `k`. -/
def diagS (cols : List Block) : List (Block × List ℕ) := cols.zipIdx.map fun p => (p.1, [p.2])

theorem diagS_fst (cols : List Block) : (diagS cols).map Prod.fst = cols := by
  unfold diagS
  rw [List.map_map]
  exact List.zipIdx_map_fst 0 cols

theorem mem_diagS {s : Block × List ℕ} : s ∈ diagS cols ↔ ∃ id b, cols[id]? = some b ∧ s = (b, [id]) := by
  unfold diagS
  simp only [List.mem_map, Prod.exists, List.mem_zipIdx_iff_getElem?]
  constructor
  · rintro ⟨b, id, h, rfl⟩
    exact ⟨id, b, h, rfl⟩
  · rintro ⟨id, b, h, rfl⟩
    exact ⟨b, id, h, rfl⟩

theorem sq_slot (L : List Block) {p : ℕ} (h : p < sqOffset L L.length) :
    ∃ k blk, L[k]? = some blk ∧ ∃ i < blk.size, ∃ j < blk.size, p = sqOffset L k + i * blk.size + j := by
  have key : ∀ n, n ≤ L.length → p < sqOffset L n →
      ∃ k blk, L[k]? = some blk ∧ ∃ i < blk.size, ∃ j < blk.size, p = sqOffset L k + i * blk.size + j := by
    intro n
    induction n with
    | zero => intro _ h; simp [sqOffset] at h
    | succ n ih =>
      intro hn hp
      by_cases hlt : p < sqOffset L n
      · exact ih (by omega) hlt
      · have hb := List.getElem?_eq_getElem (l := L) (i := n) hn
        rw [sqOffset_succ hb] at hp
        generalize L[n] = b at hb hp
        obtain ⟨s, q⟩ := b
        simp only at hp
        have hpos : 0 < s := by
          rcases Nat.eq_zero_or_pos s with h0 | h0
          · rw [h0] at hp; omega
          · exact h0
        refine ⟨n, _, hb, (p - sqOffset L n) / s, ?_, (p - sqOffset L n) % s, Nat.mod_lt _ hpos, ?_⟩
        · exact (Nat.div_lt_iff_lt_mul hpos).2 (by show _ < s * s; omega)
        · have := Nat.div_add_mod (p - sqOffset L n) s
          rw [Nat.mul_comm] at this
          show p = _ + _ * s + _
          omega
  exact key _ le_rfl h

theorem block_slot (hl : Laid 0 cols) {r : ℕ} (hr : r < (cols.map Block.size).sum) :
    ∃ k : ℕ, ∃ b : Block, cols[k]? = some b ∧ ∃ i < b.size, r = b.position + i := by
  have ho : (cols.map Block.size).sum = offset cols cols.length := by simp [offset]
  rw [ho] at hr
  obtain ⟨k, b, hb, i, hi, rfl⟩ := PartitionedView.offset_slot cols hr
  refine ⟨k, b, hb, i, hi, ?_⟩
  have := laid_position hl hb
  rw [this, Nat.zero_add]
  rfl

theorem blocks_jacobian (hl : Laid 0 cols) (hpos : ∀ b ∈ cols, 0 < b.size) (hm : Blocks cols m) :
    IsJacobian cols (diagS cols) ⟨m, cols, cols⟩ where
  wf := {
    start := hm.first
    mono := fun r hr => by
      obtain ⟨k, b, hb, i, hi, rfl⟩ := block_slot hl (hm.numRows ▸ hr)
      rw [hm.rows k b hb i hi.le, Nat.add_assoc, hm.rows k b hb (i + 1) hi]
      have := Nat.mul_le_mul_right b.size (Nat.le_add_right i 1)
      omega
    bound := fun p hp => by
      have hp : p < m.nnz := hp
      rw [hm.nnz] at hp
      obtain ⟨k, b, hb, i, hi, j, hj, rfl⟩ := sq_slot cols hp
      show m.cols _ < m.numCols
      rw [hm.colIdx k b hb i hi j hj, hm.numCols]
      have := (laid_bounds hl (List.mem_of_getElem? hb)).2
      omega }
  storage := hm.storage
  colBlocks := rfl
  rowBlocks := (diagS_fst cols).symm
  colsLaid := hl
  rowsLaid := by rw [diagS_fst]; exact hl
  colsPos := hpos
  rowsPos := fun s hs => by
    obtain ⟨id, b, hb, rfl⟩ := mem_diagS.1 hs
    exact hpos b (List.mem_of_getElem? hb)
  numCols := hm.numCols
  numRows := by rw [diagS_fst]; exact hm.numRows
  ids := fun s hs id hid => by
    obtain ⟨id', b, hb, rfl⟩ := mem_diagS.1 hs
    rw [List.mem_singleton.1 hid]
    exact get_lt hb
  nodup := fun s hs => by
    obtain ⟨id', b, hb, rfl⟩ := mem_diagS.1 hs
    exact List.nodup_singleton _
  columns := fun s hs k hk => by
    obtain ⟨id, b, hb, rfl⟩ := mem_diagS.1 hs
    have hk : k < b.size := hk
    show (m.row (b.position + k)).map Prod.fst = _
    unfold Sparse.Mat.row Sparse.Mat.idxs
    rw [hm.rows id b hb k hk.le, Nat.add_assoc, hm.rows id b hb (k + 1) hk, List.map_map,
      show sqOffset cols id + (k + 1) * b.size - (sqOffset cols id + k * b.size) = b.size by rw [Nat.add_mul]; omega,
      columnsOf_cons, blk_eq hb]
    show _ = _ ++ []
    rw [List.append_nil]
    refine List.ext_getElem (by simp) fun n h1 h2 => ?_
    simp only [List.length_map, List.length_range'] at h1
    simp only [List.getElem_map, List.getElem_range', Function.comp, Nat.one_mul]
    exact hm.colIdx id b hb k hk n h1

/-- The entries of the matrix of the preconditioner. -/
theorem blocks_entry (hl : Laid 0 cols) (hpos : ∀ b ∈ cols, 0 < b.size) (hm : Blocks cols m) {id id' : ℕ} {b b' : Block}
    (hb : cols[id]? = some b) (hb' : cols[id']? = some b') {i j : ℕ} (hi : i < b.size) (hj : j < b'.size) :
    m.entry (b.position + i) (b'.position + j) = if id = id' then m.values (sqOffset cols id + i * b.size + j) else 0 := by
  have hr := hm.rows id b hb 0 (Nat.zero_le _)
  rw [Nat.zero_mul, Nat.add_zero, Nat.add_zero] at hr
  have := entry_eq (blocks_jacobian hl hpos hm) (mem_diagS.2 ⟨id, b, hb, rfl⟩) (k := i) hi hb' hj
  refine this.trans ?_
  have hc : (columnsOf cols [id]).length = b.size := by
    rw [columnsOf_cons, blk_eq hb]
    simp [columnsOf]
  show (List.map _ [(id, 0)]).sum = _
  rw [List.map_singleton, List.sum_singleton]
  simp only [hc, hr, Nat.zero_add]

theorem blocks_values {w : ℕ → ℝ} (hm : Blocks cols m) : Blocks cols { m with values := w } :=
  ⟨hm.first, hm.rows, hm.colIdx, hm.numRows, hm.numCols, hm.nnz, hm.storage⟩

/-- It is the block diagonal matrix of `SchurJacobi`. -/
theorem blocks_diagonal (hl : Laid 0 cols) (hpos : ∀ b ∈ cols, 0 < b.size) (hm : Blocks cols m) {i j : ℕ}
    (hi : i < (cols.map Block.size).sum) (hj : j < (cols.map Block.size).sum) :
    m.entry i j = (BMat.ofStructure (diagonal cols) m.values).entry i j := by
  obtain ⟨id, b, hb, i, hi', rfl⟩ := block_slot hl hi
  obtain ⟨id', b', hb', j, hj', rfl⟩ := block_slot hl hj
  have hoff : ∀ {id b}, cols[id]? = some b → b.position = offset cols id := fun hb => by
    have := laid_position hl hb
    rw [Nat.zero_add] at this
    exact this
  rw [blocks_entry hl hpos hm hb hb' hi' hj', hoff hb, hoff hb']
  split_ifs with h
  · subst h
    obtain rfl : b = b' := by simpa [hb] using hb'
    rw [SchurJacobi.diagonal_entry _ hb hi' hj']
  · rw [SchurJacobi.diagonal_entry_zero]
    rintro ⟨k, blk, hk, h1, h2, h3, h4⟩
    have e1 := PartitionedView.same_unique hb hk (i := offset cols id + i) (by omega) (by omega) h1 h2
    have e2 := PartitionedView.same_unique hb' hk (i := offset cols id' + j) (by omega) (by omega) h3 h4
    exact h (e1.trans e2.symm)

end Ceres.CudaCgnr
