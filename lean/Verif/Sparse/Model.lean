import Mathlib.Algebra.BigOperators.Group.List.Basic
import Mathlib.Algebra.Ring.Defs
import Mathlib.Data.List.Range
import Mathlib.Data.List.Perm.Basic
import Mathlib.Logic.Function.Basic

/-!
# Model of the scalar sparse matrices
(compressed_row_sparse_matrix.cc, triplet_sparse_matrix.cc, dynamic_compressed_row_sparse_matrix.cc)

Arrays are functions on positions; what lies outside the part in use is arbitrary.  Loops are
folds over the list of values of the loop variable, in order.
-/
namespace Ceres.Sparse

/-- `CompressedRowSparseMatrix::StorageType`. -/
inductive Storage where
  | unsymmetric
  | lower
  | upper
  deriving DecidableEq

/-- `CompressedRowSparseMatrix`: sizes, arrays, storage type and sizes of the row blocks (empty
if there is no block information). -/
structure Mat (K : Type) where
  numRows : ℕ
  numCols : ℕ
  rows : ℕ → ℕ
  cols : ℕ → ℕ
  values : ℕ → K
  storage : Storage
  rowBlocks : List ℕ

variable {K : Type}

/-- `num_nonzeros()`: `rows_[num_rows_]` (compressed_row_sparse_matrix.h). -/
def Mat.nnz (M : Mat K) : ℕ := M.rows M.numRows

/-- The values of `idx` in `for (int idx = rows[r]; idx < rows[r + 1]; ++idx)`. -/
def Mat.idxs (M : Mat K) (r : ℕ) : List ℕ := List.range' (M.rows r) (M.rows (r + 1) - M.rows r)

/-- `a[i] += v`. -/
def bump [Add K] (a : ℕ → K) (i : ℕ) (v : K) : ℕ → K := Function.update a i (a i + v)

/-! ### Transpose -/

/-- Counting the entries of each column (compressed_row_sparse_matrix.cc:83-90). -/
def countCols (nnz : ℕ) (cols : ℕ → ℕ) : ℕ → ℕ :=
  (List.range nnz).foldl (fun t idx => bump t (cols idx + 1) 1) fun _ => 0

/-- Cumulative sums (compressed_row_sparse_matrix.cc:92-96): the loop variable is `i + 1`. -/
def cumSum (n : ℕ) (t : ℕ → ℕ) : ℕ → ℕ :=
  (List.range n).foldl (fun t i => bump t (i + 1) (t i)) t

/-- State of the loop that distributes the entries. -/
structure Scatter (K : Type) where
  next : ℕ → ℕ
  cols : ℕ → ℕ
  vals : ℕ → K

/-- Distributing the entries (compressed_row_sparse_matrix.cc:104-113).  Both value arrays are
given. -/
def populate (M : Mat K) (s : Scatter K) : Scatter K :=
  (List.range M.numRows).foldl (fun s r =>
    (M.idxs r).foldl (fun s idx =>
      let c := M.cols idx
      { next := bump s.next c 1
        cols := Function.update s.cols (s.next c) r
        vals := Function.update s.vals (s.next c) (M.values idx) }) s) s

/-- Undoing the shift (compressed_row_sparse_matrix.cc:115-120): `i` runs from `num_cols - 1` down
to one; here `i = k + 1`. -/
def unshift (n : ℕ) (t : ℕ → ℕ) : ℕ → ℕ :=
  Function.update
    ((List.range (n - 1)).reverse.foldl (fun t k => Function.update t (k + 1) (t k)) t) 0 0

/-- `Transpose` (compressed_row_sparse_matrix.cc:602-640) with
`TransposeForCompressedRowSparseStructure` (74-121).  The fresh arrays hold zeros.  Column blocks
are not modelled; the row blocks of the result are given as an argument. -/
def Mat.transpose [Zero K] (M : Mat K) (colBlocks : List ℕ) : Mat K :=
  let s := populate M ⟨cumSum M.numCols (countCols M.nnz M.cols), fun _ => 0, fun _ => 0⟩
  { numRows := M.numCols
    numCols := M.numRows
    rows := unshift M.numCols s.next
    cols := s.cols
    values := s.vals
    storage := match M.storage with
      | .unsymmetric => .unsymmetric
      | .lower => .upper
      | .upper => .lower
    rowBlocks := if M.rowBlocks = [] then [] else colBlocks }

/-! ### Products -/

/-- Body of the loops for symmetric matrices (compressed_row_sparse_matrix.cc:328-336,
346-354). -/
def symStep [Mul K] [Add K] (M : Mat K) (x : ℕ → K) (r : ℕ) (y : ℕ → K) (idx : ℕ) : ℕ → K :=
  let c := M.cols idx
  let v := M.values idx
  let y := bump y r (v * x c)
  if r ≠ c then bump y c (v * x r) else y

/-- `RightMultiplyAndAccumulate` (compressed_row_sparse_matrix.cc:285-360).  The loop over rows in
the unsymmetric case is a `ParallelFor` whose iterations write to different `y[row]`; it is
modelled in order. -/
def Mat.rightMul [Mul K] [Add K] (M : Mat K) (x y : ℕ → K) : ℕ → K :=
  (List.range M.numRows).foldl (fun y r =>
    match M.storage with
    | .unsymmetric => (M.idxs r).foldl (fun y idx => bump y r (M.values idx * x (M.cols idx))) y
    | .upper => ((M.idxs r).dropWhile fun idx => r > M.cols idx).foldl (symStep M x r) y
    | .lower => ((M.idxs r).takeWhile fun idx => r ≥ M.cols idx).foldl (symStep M x r) y) y

/-- `LeftMultiplyAndAccumulate` (compressed_row_sparse_matrix.cc:362-378). -/
def Mat.leftMul [Mul K] [Add K] (M : Mat K) (x y : ℕ → K) : ℕ → K :=
  match M.storage with
  | .unsymmetric => (List.range M.numRows).foldl (fun y r =>
      (M.idxs r).foldl (fun y idx => bump y (M.cols idx) (M.values idx * x r)) y) y
  | _ => M.rightMul x y

/-- Body of the loops of `SquaredColumnNorm` for symmetric matrices
(compressed_row_sparse_matrix.cc:403-411). -/
def normStep [Mul K] [Add K] (M : Mat K) (r : ℕ) (x : ℕ → K) (idx : ℕ) : ℕ → K :=
  let c := M.cols idx
  let v2 := M.values idx * M.values idx
  let x := bump x c v2
  if r ≠ c then bump x r v2 else x

/-- `SquaredColumnNorm` (compressed_row_sparse_matrix.cc:380-435). -/
def Mat.squaredColumnNorm [Mul K] [Add K] [Zero K] (M : Mat K) : ℕ → K :=
  match M.storage with
  | .unsymmetric => (List.range M.nnz).foldl
      (fun x idx => bump x (M.cols idx) (M.values idx * M.values idx)) fun _ => 0
  | .upper => (List.range M.numRows).foldl (fun x r =>
      ((M.idxs r).dropWhile fun idx => r > M.cols idx).foldl (normStep M r) x) fun _ => 0
  | .lower => (List.range M.numRows).foldl (fun x r =>
      ((M.idxs r).takeWhile fun idx => r ≥ M.cols idx).foldl (normStep M r) x) fun _ => 0

/-- `ScaleColumns` (compressed_row_sparse_matrix.cc:436-442). -/
def Mat.scaleColumns [Mul K] (M : Mat K) (scale : ℕ → K) : Mat K :=
  { M with
    values := (List.range M.nnz).foldl
      (fun v idx => Function.update v idx (v idx * scale (M.cols idx))) M.values }

/-- `ToDenseMatrix` (compressed_row_sparse_matrix.cc:444-454): assigns, does not add. -/
def Mat.toDense [Zero K] (M : Mat K) : ℕ × ℕ → K :=
  (List.range M.numRows).foldl (fun D r =>
    (M.idxs r).foldl (fun D idx => Function.update D (r, M.cols idx) (M.values idx)) D) fun _ => 0

/-! ### Adding and removing rows -/

/-- Number of row blocks kept by `DeleteRows` (compressed_row_sparse_matrix.cc:470-479). -/
def keepBlocks (target : ℕ) : List ℕ → ℕ → List ℕ
  | [], _ => []
  | b :: bs, acc => if acc < target then b :: keepBlocks target bs (acc + b) else []

/-- `DeleteRows` (compressed_row_sparse_matrix.cc:456-480); `none` is a failed `CHECK`. -/
def Mat.deleteRows (M : Mat K) (delta : ℕ) : Option (Mat K) :=
  if delta ≤ M.numRows ∧ M.storage = .unsymmetric then
    some { M with
      numRows := M.numRows - delta
      rowBlocks := keepBlocks (M.numRows - delta) M.rowBlocks 0 }
  else none

/-- `std::copy` of `n` elements of `src` to position `pos`. -/
def copyTo {α : Type} (src : ℕ → α) (n : ℕ) (dst : ℕ → α) (pos : ℕ) : ℕ → α :=
  (List.range n).foldl (fun d i => Function.update d (pos + i) (src i)) dst

/-- `AppendRows` (compressed_row_sparse_matrix.cc:482-530); `none` is a failed `CHECK`. -/
def Mat.appendRows (M m : Mat K) : Option (Mat K) :=
  if M.storage = .unsymmetric ∧ m.numCols = M.numCols ∧
      (M.rowBlocks = [] ↔ m.rowBlocks = []) then
    if m.numRows = 0 then some M
    else
      let cols := copyTo m.cols m.nnz M.cols M.nnz
      let values := copyTo m.values m.nnz M.values M.nnz
      let rows := (List.range (m.numRows + 1)).foldl
        (fun R r => Function.update R (M.numRows + r) M.nnz) M.rows
      let rows := (List.range (m.numRows + 1)).foldl
        (fun R r => bump R (M.numRows + r) (m.rows r)) rows
      some { M with
        numRows := M.numRows + m.numRows
        rows, cols, values
        rowBlocks := if M.rowBlocks = [] then [] else M.rowBlocks ++ m.rowBlocks }
  else none

/-- The diagonal matrix (compressed_row_sparse_matrix.cc:256-275). -/
def diagonal [Zero K] (d : ℕ → K) (n : ℕ) : Mat K where
  numRows := n
  numCols := n
  rows := (List.range n).foldl (fun R i => Function.update R (i + 1) (i + 1)) fun _ => 0
  cols := (List.range n).foldl (fun C i => Function.update C i i) fun _ => 0
  values := (List.range n).foldl (fun V i => Function.update V i (d i)) fun _ => 0
  storage := .unsymmetric
  rowBlocks := []

/-! ### Triplet matrices -/

/-- `TripletSparseMatrix`: the arrays and the number of entries in use. -/
structure Triplet (K : Type) where
  numRows : ℕ
  numCols : ℕ
  num : ℕ
  rows : ℕ → ℕ
  cols : ℕ → ℕ
  values : ℕ → K

/-- `RightMultiplyAndAccumulate` (triplet_sparse_matrix.cc:174-179). -/
def Triplet.rightMul [Mul K] [Add K] (T : Triplet K) (x y : ℕ → K) : ℕ → K :=
  (List.range T.num).foldl (fun y i => bump y (T.rows i) (T.values i * x (T.cols i))) y

/-- `LeftMultiplyAndAccumulate` (triplet_sparse_matrix.cc:181-186). -/
def Triplet.leftMul [Mul K] [Add K] (T : Triplet K) (x y : ℕ → K) : ℕ → K :=
  (List.range T.num).foldl (fun y i => bump y (T.cols i) (T.values i * x (T.rows i))) y

/-- `ToDenseMatrix` (triplet_sparse_matrix.cc:208-215): adds. -/
def Triplet.toDense [Add K] [Zero K] (T : Triplet K) : ℕ × ℕ → K :=
  (List.range T.num).foldl
    (fun D i => Function.update D (T.rows i, T.cols i) (D (T.rows i, T.cols i) + T.values i))
    fun _ => 0

/-- `AppendRows` (triplet_sparse_matrix.cc:217-226). -/
def Triplet.appendRows (T B : Triplet K) : Option (Triplet K) :=
  if B.numCols = T.numCols then
    some { T with
      numRows := T.numRows + B.numRows
      num := T.num + B.num
      rows := copyTo (fun i => B.rows i + T.numRows) B.num T.rows T.num
      cols := copyTo B.cols B.num T.cols T.num
      values := copyTo B.values B.num T.values T.num }
  else none

/-- `AppendCols` (triplet_sparse_matrix.cc:228-237). -/
def Triplet.appendCols (T B : Triplet K) : Option (Triplet K) :=
  if B.numRows = T.numRows then
    some { T with
      numCols := T.numCols + B.numCols
      num := T.num + B.num
      rows := copyTo B.rows B.num T.rows T.num
      cols := copyTo (fun i => B.cols i + T.numCols) B.num T.cols T.num
      values := copyTo B.values B.num T.values T.num }
  else none

/-- The compaction loop of `Resize` (triplet_sparse_matrix.cc:253-264): the arrays and the number
of dropped terms. -/
def compactStep (nr nc : ℕ) (s : Triplet K × ℕ) (i : ℕ) : Triplet K × ℕ :=
  let T := s.1
  if T.rows i < nr ∧ T.cols i < nc then
    if s.2 ≠ 0 then
      ({ T with
          rows := Function.update T.rows (i - s.2) (T.rows i)
          cols := Function.update T.cols (i - s.2) (T.cols i)
          values := Function.update T.values (i - s.2) (T.values i) }, s.2)
    else s
  else (T, s.2 + 1)

/-- `Resize` (triplet_sparse_matrix.cc:239-266). -/
def Triplet.resize (T : Triplet K) (nr nc : ℕ) : Triplet K :=
  if T.numRows ≤ nr ∧ T.numCols ≤ nc then { T with numRows := nr, numCols := nc }
  else
    let s := (List.range T.num).foldl (compactStep nr nc)
      ({ T with numRows := nr, numCols := nc }, 0)
    { s.1 with num := T.num - s.2 }

/-- `RowColLessThan` (compressed_row_sparse_matrix.cc:60-72). -/
def rowColLess (rows cols : ℕ → ℕ) (x y : ℕ) : Prop :=
  if rows x = rows y then cols x < cols y else rows x < rows y

/-- What `std::sort` guarantees about `index` (compressed_row_sparse_matrix.cc:209-217): it is a
rearrangement in which no element is less than an earlier one.  The order of equivalent elements is
not specified. -/
def Sorted (rows cols : ℕ → ℕ) (n : ℕ) (index : List ℕ) : Prop :=
  index.Perm (List.range n) ∧ index.Pairwise fun x y => ¬ rowColLess rows cols y x

/-- `FromTripletSparseMatrix` (compressed_row_sparse_matrix.cc:195-254), given the sorted `index`;
`none` is a failed `CHECK`. -/
def fromTriplet [Zero K] (T : Triplet K) (transpose : Bool) (index : List ℕ) : Option (Mat K) :=
  let numRows := if transpose then T.numCols else T.numRows
  let numCols := if transpose then T.numRows else T.numCols
  let rows := if transpose then T.cols else T.rows
  let cols := if transpose then T.rows else T.cols
  if numRows = 0 then
    some ⟨0, numCols, fun _ => 0, fun _ => 0, fun _ => 0, .unsymmetric, []⟩
  else
    let out : Mat K :=
      { numRows, numCols
        rows := cumSum numRows (index.foldl (fun R idx => bump R (rows idx + 1) 1) fun _ => 0)
        cols := (index.zipIdx).foldl (fun C p => Function.update C p.2 (cols p.1)) fun _ => 0
        values := (index.zipIdx).foldl (fun V p => Function.update V p.2 (T.values p.1)) fun _ => 0
        storage := .unsymmetric
        rowBlocks := [] }
    if out.nnz = T.num then some out else none

/-! ### Dynamic matrices -/

/-- `DynamicCompressedRowSparseMatrix`: the rows under construction; `dynamic_cols_[i]` and
`dynamic_values_[i]` are always changed together and are one list of pairs here. -/
structure Dyn (K : Type) where
  numRows : ℕ
  numCols : ℕ
  dyn : ℕ → List (ℕ × K)

/-- `InsertEntry` (dynamic_compressed_row_sparse_matrix.cc:46-55). -/
def Dyn.insert (D : Dyn K) (row col : ℕ) (v : K) : Option (Dyn K) :=
  if row < D.numRows ∧ col < D.numCols then
    some { D with dyn := Function.update D.dyn row (D.dyn row ++ [(col, v)]) }
  else none

/-- `ClearRows` (dynamic_compressed_row_sparse_matrix.cc:57-65). -/
def Dyn.clear (D : Dyn K) (start : ℕ) : ℕ → Option (Dyn K)
  | 0 => some D
  | n + 1 =>
    if start < D.numRows then
      Dyn.clear { D with dyn := Function.update D.dyn start [] } (start + 1) n
    else none

/-- `memcpy` of a list to position `pos`. -/
def copyList {α : Type} (l : List α) (dst : ℕ → α) (pos : ℕ) : ℕ → α :=
  l.zipIdx.foldl (fun d p => Function.update d (pos + p.2) p.1) dst

/-- State of the loop in `Finalize`: arrays and `index_into_values_and_cols`. -/
structure Flat (K : Type) where
  rows : ℕ → ℕ
  cols : ℕ → ℕ
  vals : ℕ → K
  index : ℕ

/-- `Finalize` (dynamic_compressed_row_sparse_matrix.cc:67-101) starting from the arrays `s`;
`none` is a failed `CHECK`. -/
def Dyn.finalize (D : Dyn K) (s : Flat K) : Option (Mat K) :=
  let nnz := (List.range D.numRows).foldl (fun n i => n + (D.dyn i).length) 0
  let s := (List.range D.numRows).foldl (fun s i =>
    { rows := Function.update s.rows i s.index
      cols := if 0 < (D.dyn i).length then copyList ((D.dyn i).map Prod.fst) s.cols s.index
        else s.cols
      vals := if 0 < (D.dyn i).length then copyList ((D.dyn i).map Prod.snd) s.vals s.index
        else s.vals
      index := if 0 < (D.dyn i).length then s.index + (D.dyn i).length else s.index })
    { s with index := 0 }
  if s.index = nnz then
    some ⟨D.numRows, D.numCols, Function.update s.rows D.numRows s.index, s.cols, s.vals,
      .unsymmetric, []⟩
  else none

end Ceres.Sparse
