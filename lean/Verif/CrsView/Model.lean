import Verif.CrsView.Buffer
import Verif.BlockSparse.Spec
import Verif.Evaluator.Model

/-!
# The view of a block sparse matrix on the GPU
(cuda_block_structure.cc, cuda_kernels_bsm_to_crs.cu.cc, cuda_block_sparse_crs_view.cc)

A kernel is the list of the stores of its threads, done in any order: no kernel reads what it writes.
Allocation and the size of the grid are not modelled.
-/
namespace Ceres.CrsView

open Ceres.BlockSparse
open Ceres.Evaluator (exec)

variable {K : Type}

/-! ## CudaBlockSparseStructure -/

/-- `CudaBlockSparseStructure` for `num_col_blocks_e = 0` (cuda_block_structure.h): the flat arrays.
`value_offset_row_block_f` is not copied to the device in this case (cuda_block_structure.cc:232-234). -/
structure Flat where
  numRowBlocks : ℕ
  firstCell : List ℕ
  cells : List Cell
  rowBlocks : List Block
  colBlocks : List Block
  compatible : Bool
  deriving DecidableEq

/-- The variables of the loop over the row blocks (cuda_block_structure.cc:63-90): `offset` is
`f_values_offset`, `none` for -1; `gap`: the last element of `value_offset_row_block_f` is -1; `undefined`: the
loop of lines 159-164 has gone backwards out of the array. -/
structure Scan where
  offset : Option ℕ
  nnz : ℕ
  sequential : Bool
  compatible : Bool
  gap : Bool
  undefined : Bool
  rowBlocks : List Block
  firstCell : List ℕ
  cells : List Cell

/-- One cell (cuda_block_structure.cc:167-178). -/
def scanCell (bs : BS) (size : ℕ) (s : Scan) (c : Cell) : Scan :=
  let start := match s.offset with
    | none => c.position
    | some _ => s.nnz
  { s with
    offset := some (s.offset.getD c.position)
    sequential := s.sequential && decide (c.position = start)
    nnz := start + (bs.col c.blockId).size * size
    cells := s.cells ++ [c] }

/-- One row block (cuda_block_structure.cc:143-179).  With `num_col_blocks_e = 0` the first loop (91-142) ends
before its first row block.  Lines 159-164, for a row block with cells after one without: `--it` on the reverse
iterator `rbegin()` leaves the array, which is undefined. -/
def scanRow (bs : BS) (s : Scan) (r : BRow) : Scan :=
  r.cells.foldl (scanCell bs r.block.size)
    { s with
      compatible := if 1 < r.cells.length ∧ 1 < r.block.size then false else s.compatible
      rowBlocks := s.rowBlocks ++ [r.block]
      firstCell := s.firstCell ++ [s.cells.length]
      gap := r.cells.isEmpty
      undefined := s.undefined || (s.gap && !r.cells.isEmpty) }

/-- `CudaBlockSparseStructure` (cuda_block_structure.cc:50-235); `none`: undefined, or a `CHECK` fails. -/
def flatten (bs : BS) : Option Flat :=
  let s := bs.rows.foldl (scanRow bs) ⟨none, 0, true, true, false, false, [], [], []⟩
  if s.undefined = false ∧ s.offset.getD 0 = 0 ∧ s.sequential = true then
    some ⟨bs.rows.length, s.firstCell ++ [s.cells.length], s.cells, s.rowBlocks, bs.cols, s.compatible⟩
  else none

/-! ## Kernels -/

/-- A kernel has run: its stores, in some order. -/
def KernelRun {α : Type} (stores : List (ℕ × α)) (a a' : ℕ → α) : Prop :=
  ∃ ws, ws.Perm stores ∧ a' = exec ws a

/-- `cells + first_cell_in_row_block[i]` to `cells + first_cell_in_row_block[i + 1]`. -/
def Flat.cellsOf (f : Flat) (i : ℕ) : List Cell :=
  (f.cells.drop (f.firstCell.getD i 0)).take (f.firstCell.getD (i + 1) 0 - f.firstCell.getD i 0)

/-- `col_blocks[id]`. -/
def Flat.col (f : Flat) (id : ℕ) : Block := f.colBlocks.getD id ⟨0, 0⟩

/-- `row_blocks[id]`. -/
def Flat.row (f : Flat) (id : ℕ) : Block := f.rowBlocks.getD id ⟨0, 0⟩

/-- `row_nnz_f` (cuda_kernels_bsm_to_crs.cu.cc:149-152). -/
def Flat.rowNnz (f : Flat) (i : ℕ) : ℕ := ((f.cellsOf i).map fun c => (f.col c.blockId).size).sum

/-- `RowBlockIdAndNNZ<false>` (cuda_kernels_bsm_to_crs.cu.cc:116-162): the stores to `rows_f`. -/
def Flat.nnzStores (f : Flat) : List (ℕ × ℕ) :=
  ((List.range f.numRowBlocks).flatMap fun i =>
    (List.range' (f.row i).position (f.row i).size).map fun r => (r + 1, f.rowNnz i)) ++ [(0, 0)]

/-- The same, the stores to `row_block_ids`. -/
def Flat.idStores (f : Flat) : List (ℕ × ℕ) :=
  (List.range f.numRowBlocks).flatMap fun i =>
    (List.range' (f.row i).position (f.row i).size).map fun r => (r, i)

/-- `thrust::inclusive_scan(rows, rows + num_rows + 1, rows)` (cuda_kernels_bsm_to_crs.cu.cc:252-253). -/
def inclusiveScan (n : ℕ) (a : ℕ → ℕ) (i : ℕ) : ℕ :=
  if i < n + 1 then ((List.range (i + 1)).map a).sum else a i

/-- The loop over the cells (cuda_kernels_bsm_to_crs.cu.cc:213-222): `p` is `crs_position_f`. -/
def Flat.colStores (f : Flat) (numColsE : ℕ) : List Cell → ℕ → List (ℕ × ℕ)
  | [], _ => []
  | c :: cs, p =>
    ((List.range (f.col c.blockId).size).map fun i => (p + i, (f.col c.blockId).position - numColsE + i)) ++
      f.colStores numColsE cs (p + (f.col c.blockId).size)

/-- `ComputeColumns<false>` (cuda_kernels_bsm_to_crs.cu.cc:178-223). -/
def Flat.columnStores (f : Flat) (numRows : ℕ) (ids rows : ℕ → ℕ) : List (ℕ × ℕ) :=
  (List.range numRows).flatMap fun r => f.colStores (f.col 0).position (f.cellsOf (ids r)) (rows r)

/-- The loop of `PartitionPoint` (cuda_kernels_bsm_to_crs.cu.cc:340-348). -/
def bisect (p : ℕ → Option Bool) (first last : ℕ) : Option ℕ :=
  if 1 < last - first then
    match p (first + (last - first) / 2) with
    | none => none
    | some true => bisect p (first + (last - first) / 2) last
    | some false => bisect p first (first + (last - first) / 2)
  else some last
termination_by last - first

/-- `PartitionPoint` (cuda_kernels_bsm_to_crs.cu.cc:332-349); `none`: the predicate reads out of range. -/
def partitionPoint (p : ℕ → Option Bool) (first last : ℕ) : Option ℕ :=
  match p first with
  | none => none
  | some false => some first
  | some true => bisect p first last

/-- The predicate of `PermuteToCrsKernel<false>` (cuda_kernels_bsm_to_crs.cu.cc:384-391) on
`first_cell_in_row_block[i]`; `none`: it reads out of range. -/
def Flat.before (f : Flat) (id i : ℕ) : Option Bool :=
  f.firstCell[i]?.bind fun o => f.cells[o]?.map fun c => decide (c.position ≤ id)

/-- The scan of the cells of a row block (cuda_kernels_bsm_to_crs.cu.cc:402-416): where the value goes. -/
def Flat.permuteCells (f : Flat) (rows : ℕ → ℕ) (b : Block) (id : ℕ) : List Cell → ℕ → Option ℕ
  | [], _ => none
  | c :: cs, before =>
    let w := (f.col c.blockId).size
    if id < c.position + b.size * w then
      some (rows ((id - c.position) / w + b.position) + before + (id - c.position) % w)
    else f.permuteCells rows b id cs (before + w)

/-- A thread of `PermuteToCrsKernel<false>` (cuda_kernels_bsm_to_crs.cu.cc:356-417): where it stores the value
`id`; `none`: it reads out of range. -/
def Flat.permute (f : Flat) (rows : ℕ → ℕ) (id : ℕ) : Option (Option ℕ) :=
  (partitionPoint (f.before id) 0 f.numRowBlocks).bind fun m =>
    if 1 ≤ m ∧ m ≤ f.numRowBlocks then some (f.permuteCells rows (f.row (m - 1)) id (f.cellsOf (m - 1)) 0)
    else none

/-! ## The view -/

/-- `CudaBlockSparseCRSView` (cuda_block_sparse_crs_view.h:65-103): the structure, of which the code keeps only
`is_crs_compatible_` if that is true, and the arrays of the matrix. -/
structure View (K : Type) where
  flat : Flat
  numRows : ℕ
  numCols : ℕ
  rows : ℕ → ℕ
  cols : ℕ → ℕ
  values : ℕ → K

/-- `crs_matrix()`. -/
def View.mat (v : View K) : Sparse.Mat K := ⟨v.numRows, v.numCols, v.rows, v.cols, v.values, .unsymmetric, []⟩

/-- `kMaxTemporaryArraySize` (cuda_block_sparse_crs_view.h:95). -/
def maxTemporaryArraySize : ℕ := 1 * 1024 * 1024

/-- The call of `CopyToGpu` in `UpdateValues` (cuda_block_sparse_crs_view.cc:85-101). -/
def View.call (v : View K) (M : BMat K) (viaPinned : Bool) : Call K where
  «from» := M.values
  num := M.nnz
  per := maxTemporaryArraySize / numBatches
  viaPinned := viaPinned
  dest := v.flat.permute v.rows

/-- `UpdateValues` (cuda_block_sparse_crs_view.cc:74-102), for any schedule and whether or not the values are
page-locked; `none`: undefined.  The copy of a matrix that is compatible takes place after the return; until it
has, the caller must not change the values. -/
inductive UpdateRun (v : View K) (M : BMat K) : Option (View K) → Prop where
  | copy {a : ℕ → K} : v.flat.compatible = true →
      KernelRun ((List.range M.nnz).map fun i => (i, M.values i)) v.values a →
      UpdateRun v M (some { v with values := a })
  | streamed {viaPinned : Bool} {pinned gpu : ℕ → K} {s : St K} : v.flat.compatible = false →
      Reach (v.call M viaPinned) pinned gpu v.values s → s.host = .done →
      UpdateRun v M (some { v with values := s.out })
  | undefined {viaPinned : Bool} {pinned gpu : ℕ → K} {s : St K} : v.flat.compatible = false →
      Reach (v.call M viaPinned) pinned gpu v.values s → s.host = .undefined → UpdateRun v M none

/-- The constructor (cuda_block_sparse_crs_view.cc:41-72) with `FillCRSStructure`
(cuda_kernels_bsm_to_crs.cu.cc:225-271).  The arrays hold anything before. -/
inductive BuildRun (M : BMat K) : Option (View K) → Prop where
  | fails : flatten M.bs = none → BuildRun M none
  | built {f : Flat} {oldRows oldIds oldCols nnz ids cols : ℕ → ℕ} {oldValues : ℕ → K} {o : Option (View K)} :
      flatten M.bs = some f → KernelRun f.nnzStores oldRows nnz → KernelRun f.idStores oldIds ids →
      KernelRun (f.columnStores M.numRows ids (inclusiveScan M.numRows nnz)) oldCols cols →
      UpdateRun ⟨f, M.numRows, M.numCols, inclusiveScan M.numRows nnz, cols, oldValues⟩ M o → BuildRun M o

/-- A view made for the first matrix and then updated with the others. -/
inductive After : List (BMat K) → Option (View K) → Prop where
  | build {M : BMat K} {o : Option (View K)} : BuildRun M o → After [M] o
  | update {l : List (BMat K)} {v : View K} {M : BMat K} {o : Option (View K)} : After l (some v) →
      UpdateRun v M o → After (l ++ [M]) o
  | stuck {l : List (BMat K)} {M : BMat K} : After l none → After (l ++ [M]) none

/-! ## Specification -/

/-- Cells of `size` rows are stored one after the other from position `p`. -/
def CellsFollow (bs : BS) (size : ℕ) : ℕ → List Cell → Prop
  | _, [] => True
  | p, c :: cs => c.position = p ∧ CellsFollow bs size (p + (bs.col c.blockId).size * size) cs

/-- The same for the cells of row blocks. -/
def RowsFollow (bs : BS) : ℕ → List BRow → Prop
  | _, [] => True
  | p, r :: rs => CellsFollow bs r.block.size p r.cells ∧
      RowsFollow bs (p + (r.cells.map fun c => (bs.col c.blockId).size).sum * r.block.size) rs

/-- "Only block-sparse matrices with sequential order of cells are supported"
(cuda_block_sparse_crs_view.h:58). -/
def InOrder (bs : BS) : Prop := RowsFollow bs 0 bs.rows

end Ceres.CrsView
