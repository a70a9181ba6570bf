import Verif.Tasks.Blocks
import Verif.Tasks.Weighted
import Verif.Tasks.MinBlock
import Verif.Sparse.Model
import Mathlib.Data.Matrix.Mul

/-!
# Block sparse matrices (block_structure.h, block_sparse_matrix.cc)

A matrix is a block structure, the block structure of its transpose and an array of values.  Products,
column norms and the scaling of columns are programs on shared memory as in `Verif.Tasks`: one access to a
number at a time, interleaved in any way when they run on several threads.  A kernel of `small_blas.h` reads
a cell and a segment of the vector and then adds to each element of the result once (`Verif.SmallBlas` models
the kernels).
-/
namespace Ceres.BlockSparse

open Matrix Ceres.Tasks

/-- `Block` (block_structure.h:52-58). -/
structure Block where
  size : ℕ
  position : ℕ
  deriving DecidableEq, Repr

/-- `Cell` (block_structure.h:64-73). -/
structure Cell where
  blockId : ℕ
  position : ℕ
  deriving DecidableEq, Repr

/-- `CompressedList` (block_structure.h:78-92). -/
structure BRow where
  block : Block
  cells : List Cell
  nnz : ℕ
  cum : ℕ
  deriving DecidableEq, Repr

/-- `CompressedRowBlockStructure` (block_structure.h:97-180). -/
structure BS where
  cols : List Block
  rows : List BRow
  deriving DecidableEq, Repr

/-- `cols[id]`; an index out of range, undefined, is excluded by `BS.Ok`. -/
def BS.col (bs : BS) (id : ℕ) : Block := bs.cols.getD id ⟨0, 0⟩

variable {K : Type}

/-- `BlockSparseMatrix` (block_sparse_matrix.h:54-189): the transposed structure is always there, since the
constructor makes it (block_sparse_matrix.cc:215).  Values beyond `nnz` are arbitrary. -/
structure BMat (K : Type) where
  bs : BS
  tbs : BS
  values : ℕ → K
  numRows : ℕ
  numCols : ℕ
  nnz : ℕ
  maxNnz : ℕ

/-! ## Structure -/

/-- The loop of `ComputeCumulativeNumberOfNonZeros`. -/
def cumulateFrom (s : ℕ) : List BRow → List BRow
  | [] => []
  | r :: rs => { r with cum := r.nnz + s } :: cumulateFrom (r.nnz + s) rs

/-- `ComputeCumulativeNumberOfNonZeros` (block_sparse_matrix.cc:58-67). -/
def cumulate (rows : List BRow) : List BRow := cumulateFrom 0 rows

/-- `transpose->rows[id].cells.emplace_back(i, position)` and `nnz += ...` (block_sparse_matrix.cc:801-803
and 647-649). -/
def pushCell (rows : List BRow) (id i position nnz : ℕ) : List BRow :=
  rows.modify id fun t => { t with cells := t.cells ++ [⟨i, position⟩], nnz := t.nnz + nnz }

/-- `CreateTranspose` (block_sparse_matrix.cc:784-808). -/
def createTranspose (bs : BS) : BS where
  cols := bs.rows.map BRow.block
  rows := cumulate
    (bs.rows.zipIdx.foldl
      (fun rows ri => ri.1.cells.foldl
        (fun rows c => pushCell rows c.blockId ri.2 c.position
          (ri.1.block.size * ((rows[c.blockId]?.map fun t => t.block.size).getD 0))) rows)
      (bs.cols.map fun b => ⟨b, [], 0, 0⟩))

/-- The constructor (block_sparse_matrix.cc:178-216). -/
def BMat.ofStructure (bs : BS) (values : ℕ → K) : BMat K where
  bs := bs
  tbs := createTranspose bs
  values := values
  numRows := (bs.rows.map fun r => r.block.size).sum
  numCols := (bs.cols.map Block.size).sum
  nnz := (bs.rows.map fun r => (r.cells.map fun c => (bs.col c.blockId).size * r.block.size).sum).sum
  maxNnz := (bs.rows.map fun r => (r.cells.map fun c => (bs.col c.blockId).size * r.block.size).sum).sum

/-! ## Memory and programs -/

/-- The locations: the vector that is read, the vector that is written, the values of the matrix. -/
inductive Loc where
  | x (i : ℕ)
  | y (i : ℕ)
  | val (p : ℕ)
  deriving DecidableEq

/-- Loop bodies; no mutex is used. -/
abbrev Prog (K : Type) := Code Loc Empty K

/-- Element `(i, j)` of a cell with `n` columns stored from position `pos`. -/
def valLoc (pos : ℕ) {m n : ℕ} (i : Fin m) (j : Fin n) : Loc := .val (pos + i * n + j)

section Programs
variable [CommRing K]

/-- `MatrixVectorMultiply(values + pos, row.size, col.size, x + col.position, y + row.position)`. -/
def mulCell (row col : Block) (pos : ℕ) (k : Prog K) : Prog K :=
  readMat row.size col.size (valLoc pos) fun A =>
    readVec col.size (fun j => .x (col.position + j)) fun v =>
      adds (vecEntries (A *ᵥ v) fun i => .y (row.position + i)) k

/-- `MatrixTransposeVectorMultiply(values + pos, row.size, col.size, x + row.position, y + col.position)`. -/
def mulCellTranspose (row col : Block) (pos : ℕ) (k : Prog K) : Prog K :=
  readMat row.size col.size (valLoc pos) fun A =>
    readVec row.size (fun i => .x (row.position + i)) fun v =>
      adds (vecEntries (Aᵀ *ᵥ v) fun j => .y (col.position + j)) k

/-- `VectorRef(x + col.position, col.size) += m.colwise().squaredNorm()` (block_sparse_matrix.cc:361-363). -/
def normCell (row col : Block) (pos : ℕ) (k : Prog K) : Prog K :=
  readMat row.size col.size (valLoc pos) fun A =>
    adds (vecEntries (fun j => ∑ i, A i j ^ 2) fun j => .y (col.position + j)) k

/-- `*l *= *s` for a list of locations. -/
def scales : List (Loc × Loc) → Prog K → Prog K
  | [], k => k
  | e :: es, k => .read e.1 fun v => .read e.2 fun s => .write e.1 (v * s) (scales es k)

/-- The elements of a cell with the location of the scale of their column. -/
def scaleList (row col : Block) (pos : ℕ) : List (Loc × Loc) :=
  (List.finRange row.size).flatMap fun i => (List.finRange col.size).map fun j =>
    (valLoc pos i j, .x (col.position + j))

/-- `m *= scale.asDiagonal()` (block_sparse_matrix.cc:412-413). -/
def scaleCell (row col : Block) (pos : ℕ) (k : Prog K) : Prog K := scales (scaleList row col pos) k

/-- The loop over the cells of one row block of `bs`, for the kernel `f`. -/
def rowProg (f : Block → Block → ℕ → Prog K → Prog K) (bs : BS) (r : BRow) (k : Prog K) : Prog K :=
  r.cells.foldr (fun c k => f r.block (bs.col c.blockId) c.position k) k

/-- The loops over all row blocks and their cells on one thread. -/
def allProg (f : Block → Block → ℕ → Prog K → Prog K) (bs : BS) : Prog K :=
  bs.rows.foldr (fun r k => rowProg f bs r k) .ret

/-- The loop body for one row block. -/
def rowTask (f : Block → Block → ℕ → Prog K → Prog K) (bs : BS) (_tid i : ℕ) : Prog K :=
  match bs.rows[i]? with
  | some r => rowProg f bs r .ret
  | none => .ret

/-- The loop body for one column block, that is one row block of the transposed structure: a cell of it is
stored as the transpose, `col.size` rows of `row.block.size` numbers. -/
def colTask (f : Block → Block → ℕ → Prog K → Prog K) (tbs : BS) : ℕ → ℕ → Prog K :=
  rowTask (fun row col pos k => f col row pos k) tbs

/-- The cumulative cost of the load balanced loops: `row.cumulative_nnz`. -/
def cumOf (tbs : BS) (i : ℕ) : ℤ := ((tbs.rows[i]?.map BRow.cum).getD 0 : ℕ)

/-- Memories. -/
abbrev Mem (K : Type) := Loc → K

/-- A program run by one thread alone: `none` does not occur. -/
def runAlone (p : Prog K) (m : Mem K) : Option (Mem K) := (p.exec m fun _ => false).map Prod.fst

/-- `RightMultiplyAndAccumulate` (block_sparse_matrix.cc:234-274). -/
def RightRun (M : BMat K) (threads : ℕ) (m : Mem K) : Option (Mem K) → Prop :=
  ForRun (rowTask mulCell M.bs) 0 M.bs.rows.length threads m

/-- `LeftMultiplyAndAccumulate` (block_sparse_matrix.cc:278-349). -/
def LeftRun (M : BMat K) (threads : ℕ) (m : Mem K) (o : Option (Mem K)) : Prop :=
  if threads = 1 then o = runAlone (allProg mulCellTranspose M.bs) m
  else if M.tbs.rows.length = 0 then o = some m
  else CostRun (cumOf M.tbs) (colTask mulCellTranspose M.tbs) 0 M.tbs.rows.length threads m o

/-- `R`, then `S` if `R` has returned; `none`: does not return. -/
inductive Then (R : Option (Mem K) → Prop) (S : Mem K → Option (Mem K) → Prop) : Option (Mem K) → Prop where
  | stuck : R none → Then R S none
  | next (m : Mem K) (o : Option (Mem K)) : R (some m) → S m o → Then R S o

/-- One element of `ParallelSetZero` (parallel_vector_ops.cc:38-52). -/
def zeroTask (_tid i : ℕ) : Prog K := .write (.y i) 0 .ret

/-- `ParallelSetZero` of the result vector (parallel_vector_ops.cc:38-52) with
`kMinBlockSizeParallelVectorOps` (parallel_vector_ops.h:49). -/
def SetZeroRun (n threads : ℕ) (m : Mem K) : Option (Mem K) → Prop :=
  ForRunMin (2 ^ 16) zeroTask 0 n threads m

/-- `SquaredColumnNorm` (block_sparse_matrix.cc:351-401). -/
def NormRun (M : BMat K) (threads : ℕ) (m : Mem K) (o : Option (Mem K)) : Prop :=
  if threads = 1 then
    o = runAlone (writes ((List.range M.numCols).map fun i => (.y i, 0)) (allProg normCell M.bs)) m
  else Then (SetZeroRun M.numCols threads m)
    (fun m1 => CostRun (cumOf M.tbs) (colTask normCell M.tbs) 0 M.tbs.rows.length threads m1) o

/-- `ScaleColumns` (block_sparse_matrix.cc:403-450). -/
def ScaleRun (M : BMat K) (threads : ℕ) (m : Mem K) (o : Option (Mem K)) : Prop :=
  if threads = 1 then o = runAlone (allProg scaleCell M.bs) m
  else CostRun (cumOf M.tbs) (colTask scaleCell M.tbs) 0 M.tbs.rows.length threads m o

/-- The memory holds the matrix, `x` and `y`. -/
def memOf (M : BMat K) (x y : ℕ → K) : Mem K
  | .x i => x i
  | .y i => y i
  | .val p => M.values p

/-! ## Editing -/

/-- The state of the loops of `AppendRows`. -/
structure Append where
  rows : List BRow
  tbs : BS
  numRows : ℕ
  nnz : ℕ

/-- One cell (block_sparse_matrix.cc:639-653). -/
def appendCell (mcols : List Block) (id size : ℕ) (s : List Cell × List BRow × ℕ) (c : Cell) :
    List Cell × List BRow × ℕ :=
  let n := size * (mcols.getD c.blockId ⟨0, 0⟩).size
  (s.1 ++ [⟨c.blockId, s.2.2⟩], pushCell s.2.1 c.blockId id s.2.2 n, s.2.2 + n)

/-- One row block (block_sparse_matrix.cc:627-654).  `nnz` and `cum` of a new row are left at their default
(-1 in the code, 0 here): they are not used in this structure. -/
def appendRow (mcols : List Block) (s : Append) (r : BRow) : Append :=
  let b : Block := ⟨r.block.size, s.numRows⟩
  let t := r.cells.foldl (appendCell mcols s.rows.length r.block.size) ([], s.tbs.rows, s.nnz)
  { rows := s.rows ++ [⟨b, t.1, 0, 0⟩], tbs := ⟨s.tbs.cols ++ [b], t.2.1⟩,
    numRows := s.numRows + r.block.size, nnz := t.2.2 }

/-- `AppendRows` (block_sparse_matrix.cc:617-668); `none`: a `CHECK` fails.  Reallocation keeps the values. -/
def BMat.appendRows (M m : BMat K) : Option (BMat K) :=
  if m.numCols = M.numCols ∧ m.bs.cols.length = M.bs.cols.length then
    let s := m.bs.rows.foldl (appendRow m.bs.cols) ⟨M.bs.rows, M.tbs, M.numRows, M.nnz⟩
    some { bs := ⟨M.bs.cols, s.rows⟩
           tbs := ⟨s.tbs.cols, cumulate s.tbs.rows⟩
           values := Sparse.copyTo m.values m.nnz M.values M.nnz
           numRows := s.numRows
           numCols := M.numCols
           nnz := s.nnz
           maxNnz := max s.nnz M.maxNnz }
  else none

/-- `while (!col_cells.empty() && col_cells.back().block_id >= n) { ...; pop_back(); }`
(block_sparse_matrix.cc:684-693), on the reversed list: the cells that stay, and the rows of those that go. -/
def popCells (n : ℕ) : List Cell → List Cell × List ℕ
  | [] => ([], [])
  | c :: cs => if n ≤ c.blockId then ((popCells n cs).1, c.blockId :: (popCells n cs).2) else (c :: cs, [])

/-- The loop of block_sparse_matrix.cc:682-694 on one column block. -/
def popColumn (rows : List BRow) (cols : Block) (n : ℕ) (t : BRow) : BRow :=
  { t with
    cells := (popCells n t.cells.reverse).1.reverse
    nnz := (popCells n t.cells.reverse).2.foldl
      (fun z id => z - ((rows[id]?.map fun r => r.block.size).getD 0) * cols.size) t.nnz }

/-- `DeleteRowBlocks` (block_sparse_matrix.cc:670-710), for at most as many row blocks as there are.  The loop
goes through the last row blocks from the last one on. -/
def BMat.deleteRowBlocks (M : BMat K) (delta : ℕ) : BMat K :=
  let n := M.bs.rows.length
  let gone := (M.bs.rows.drop (n - delta)).reverse
  let trows := gone.foldl
    (fun t r => r.cells.foldl
      (fun t c => t.modify c.blockId (popColumn M.bs.rows (M.bs.col c.blockId) (n - delta))) t) M.tbs.rows
  { bs := ⟨M.bs.cols, M.bs.rows.take (n - delta)⟩
    tbs := ⟨M.tbs.cols.take (M.tbs.cols.length - delta), cumulate trows⟩
    values := M.values
    numRows := M.numRows - (gone.map fun r => r.block.size).sum
    numCols := M.numCols
    nnz := M.nnz - (gone.map fun r => (r.cells.map fun c => r.block.size * (M.bs.col c.blockId).size).sum).sum
    maxNnz := M.maxNnz }

/-- The structure of a block diagonal matrix (block_sparse_matrix.cc:584-597), from position `p` and block
`i` on. -/
def diagRows (p i : ℕ) : List Block → List BRow
  | [] => []
  | b :: bs => ⟨b, [⟨i, p⟩], 0, 0⟩ :: diagRows (p + b.size * b.size) (i + 1) bs

/-- Filling the values (block_sparse_matrix.cc:603-612): `p` and `q` are the positions of `values` and
`diagonal`. -/
def fillDiag (d : ℕ → K) : List Block → ℕ → ℕ → (ℕ → K) → ℕ → K
  | [], _, _, v => v
  | b :: bs, p, q, v =>
    fillDiag d bs (p + b.size * b.size) (q + b.size)
      ((List.range b.size).foldl (fun v j => Function.update v (p + j * (b.size + 1)) (d (q + j))) v)

/-- `CreateDiagonalMatrix` (block_sparse_matrix.cc:582-615). -/
def diagonalMatrix (d : ℕ → K) (cols : List Block) : BMat K :=
  BMat.ofStructure ⟨cols, diagRows 0 0 cols⟩ (fillDiag d cols 0 0 fun _ => 0)

/-! ## Conversion -/

/-- `ToDenseMatrix` (block_sparse_matrix.cc:494-514): `m.block(...) += cell`. -/
def BMat.toDense (M : BMat K) : ℕ × ℕ → K :=
  M.bs.rows.foldl (fun d r => r.cells.foldl (fun d c rc =>
    let col := M.bs.col c.blockId
    if r.block.position ≤ rc.1 ∧ rc.1 < r.block.position + r.block.size ∧ col.position ≤ rc.2 ∧
        rc.2 < col.position + col.size then
      d rc + M.values (c.position + (rc.1 - r.block.position) * col.size + (rc.2 - col.position))
    else d rc) d) fun _ => 0

/-- `ToTripletSparseMatrix` (block_sparse_matrix.cc:516-543): the elements with their positions, in the order
of the loops. -/
def BS.elements (bs : BS) : List (ℕ × ℕ × ℕ) :=
  bs.rows.flatMap fun r => r.cells.flatMap fun c =>
    (List.range r.block.size).flatMap fun i => (List.range (bs.col c.blockId).size).map fun j =>
      (c.position + i * (bs.col c.blockId).size + j, r.block.position + i, (bs.col c.blockId).position + j)

/-- `ToTripletSparseMatrix` (block_sparse_matrix.cc:516-543).  The arrays hold anything (`old`) before. -/
def BMat.toTriplet (M : BMat K) (old : Sparse.Triplet K) : Sparse.Triplet K :=
  let l := M.bs.elements
  { numRows := M.numRows
    numCols := M.numCols
    num := M.nnz
    rows := l.foldl (fun a e => Function.update a e.1 e.2.1) old.rows
    cols := l.foldl (fun a e => Function.update a e.1 e.2.2) old.cols
    values := l.foldl (fun a e => Function.update a e.1 (M.values e.1)) old.values }

/-- The number of entries in a row of a row block (block_sparse_matrix.cc:95-107): with the transposed
structure it is a quotient. -/
def rowNnz (transpose : Bool) (bs : BS) (r : BRow) : ℕ :=
  if transpose then r.nnz / r.block.size else (r.cells.map fun c => (bs.col c.blockId).size).sum

/-- `CreateStructureOfCompressedRowSparseMatrix` (block_sparse_matrix.cc:69-119): `crs_rows` after its first
element, from `value_offset`. -/
def crsRows (transpose : Bool) (bs : BS) : ℕ → List BRow → List ℕ
  | _, [] => []
  | off, r :: rs =>
    if r.cells = [] then List.replicate r.block.size off ++ crsRows transpose bs off rs
    else ((List.range r.block.size).map fun i => off + (i + 1) * rowNnz transpose bs r) ++
      crsRows transpose bs (off + r.block.size * rowNnz transpose bs r) rs

/-- The same, `crs_cols`. -/
def crsCols (bs : BS) (rows : List BRow) : List ℕ :=
  rows.flatMap fun r =>
    if r.cells = [] then []
    else (List.range r.block.size).flatMap fun _ =>
      r.cells.flatMap fun c => List.range' (bs.col c.blockId).position (bs.col c.blockId).size

/-- `crs_row_block.block(0, off, rows, cols) = src` in a row major matrix of `stride` columns stored from
`base`. -/
def setBlock (dst : ℕ → K) (base stride off rows cols : ℕ) (src : ℕ → ℕ → K) (q : ℕ) : K :=
  if base ≤ q ∧ (q - base) / stride < rows ∧ off ≤ (q - base) % stride ∧ (q - base) % stride < off + cols then
    src ((q - base) / stride) ((q - base) % stride - off)
  else dst q

/-- The cells of one row block of `UpdateCompressedRowSparseMatrixImpl` (block_sparse_matrix.cc:139-157). -/
def updateCells (transpose : Bool) (bs : BS) (values : ℕ → K) (size base stride : ℕ) :
    List Cell → ℕ → (ℕ → K) → ℕ → K
  | [], _, dst => dst
  | c :: cs, off, dst =>
    let w := (bs.col c.blockId).size
    updateCells transpose bs values size base stride cs (off + w)
      (setBlock dst base stride off size w fun i j =>
        values (c.position + if transpose then j * size + i else i * w + j))

/-- The loop over the row blocks (block_sparse_matrix.cc:130-159): `row` and `base` are the positions of
`crs_rows` and `crs_values`. -/
def updateRows (transpose : Bool) (bs : BS) (values : ℕ → K) (crsRow : ℕ → ℕ) :
    List BRow → ℕ → ℕ → (ℕ → K) → ℕ → K
  | [], _, _, dst => dst
  | r :: rs, row, base, dst =>
    let n := crsRow (row + 1) - crsRow row
    if n = 0 then updateRows transpose bs values crsRow rs (row + r.block.size) base dst
    else updateRows transpose bs values crsRow rs (row + r.block.size) (base + n * r.block.size)
      (updateCells transpose bs values r.block.size base n r.cells 0 dst)

/-- The matrix that `CreateStructureOfCompressedRowSparseMatrix`, `SetBlockStructureOf...` (162-174) and
`UpdateCompressedRowSparseMatrixImpl` make.  The value array holds anything (`old`) before.  The column blocks
of the result are not modelled. -/
def toCrs (transpose : Bool) (numRows numCols : ℕ) (bs : BS) (values old : ℕ → K) : Sparse.Mat K where
  numRows := numRows
  numCols := numCols
  rows := fun i => (0 :: crsRows transpose bs 0 bs.rows).getD i 0
  cols := fun i => (crsCols bs bs.rows).getD i 0
  values := updateRows transpose bs values (fun i => (0 :: crsRows transpose bs 0 bs.rows).getD i 0) bs.rows 0 0 old
  storage := .unsymmetric
  rowBlocks := bs.rows.map fun r => r.block.size

/-- `ToCompressedRowSparseMatrix` (block_sparse_matrix.cc:463-473). -/
def BMat.toCrs (M : BMat K) (old : ℕ → K) : Sparse.Mat K :=
  BlockSparse.toCrs false M.numRows M.numCols M.bs M.values old

/-- `ToCompressedRowSparseMatrixTranspose` (block_sparse_matrix.cc:451-461); `none`: a division by zero, for a
column block of size zero that has cells. -/
def BMat.toCrsTranspose (M : BMat K) (old : ℕ → K) : Option (Sparse.Mat K) :=
  if ∃ t ∈ M.tbs.rows, t.cells ≠ [] ∧ t.block.size = 0 then none
  else some (BlockSparse.toCrs true M.numCols M.numRows M.tbs M.values old)

/-- `UpdateCompressedRowSparseMatrix` (block_sparse_matrix.cc:484-492): only the values change; `none`: a
`CHECK` fails. -/
def BMat.updateCrs (M : BMat K) (A : Sparse.Mat K) : Option (Sparse.Mat K) :=
  if A.numRows = M.numRows ∧ A.numCols = M.numCols ∧ A.nnz = M.nnz then
    some { A with values := updateRows false M.bs M.values A.rows M.bs.rows 0 0 A.values }
  else none

/-- `UpdateCompressedRowSparseMatrixTranspose` (block_sparse_matrix.cc:475-483). -/
def BMat.updateCrsTranspose (M : BMat K) (A : Sparse.Mat K) : Option (Sparse.Mat K) :=
  if A.numRows = M.numCols ∧ A.numCols = M.numRows ∧ A.nnz = M.nnz then
    some { A with values := updateRows true M.tbs M.values A.rows M.tbs.rows 0 0 A.values }
  else none

end Programs

end Ceres.BlockSparse
