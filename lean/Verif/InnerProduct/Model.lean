import Verif.BlockSparse.Model

/-!
# The normal equations of a block sparse matrix (inner_product_computer.cc)

`InnerProductComputer` computes one triangle of `A' * A` as a compressed row matrix.  Where each product of two
cells goes is worked out once, by `Create`; `Compute` can then be called again whenever the values have changed.
-/
namespace Ceres.InnerProduct

open Ceres.BlockSparse

variable {K : Type}

/-- `ProductTerm` (inner_product_computer.h:105-122). -/
structure Term where
  row : ℕ
  col : ℕ
  index : ℕ
  deriving DecidableEq, Repr

/-- `!(right < left)` for `ProductTerm::operator<` (inner_product_computer.h:109-117). -/
def Term.le (a b : Term) : Bool :=
  if a.row = b.row then
    if a.col = b.col then decide (a.index ≤ b.index) else decide (a.col ≤ b.col)
  else decide (a.row ≤ b.row)

/-- The pairs of cells of a row block that the loops over `c1` and `c2` visit, in order
(inner_product_computer.cc:156-173 and 301-331). -/
def pairs (upper : Bool) (cells : List Cell) : List (Cell × Cell) :=
  cells.zipIdx.flatMap fun c =>
    (if upper then cells.drop c.2 else cells.take (c.2 + 1)).map fun d => (c.1, d)

/-- The row blocks from `start_row_block_` to `end_row_block_`. -/
def rowRange (rows : List BRow) (s e : ℕ) : List BRow := (rows.take e).drop s

/-- The product terms (inner_product_computer.cc:153-174): the index of a term is the number of terms before
it. -/
def terms (upper : Bool) (rows : List BRow) : List Term :=
  (rows.flatMap fun r => pairs upper r.cells).zipIdx.map fun p => ⟨p.1.1.blockId, p.1.2.blockId, p.2⟩

/-- The loop of `ComputeNonzeros` over the remaining terms (inner_product_computer.cc:84-94). -/
def nonzerosLoop (cols : ℕ → Block) : Term → List Term → (ℕ → ℕ) × ℕ → (ℕ → ℕ) × ℕ
  | _, [], s => s
  | prev, cur :: ts, s =>
    nonzerosLoop cols cur ts
      (if cur.row ≠ prev.row ∨ cur.col ≠ prev.col then
        (Sparse.bump s.1 cur.row (cols cur.col).size, s.2 + (cols cur.row).size * (cols cur.col).size)
      else s)

/-- `ComputeNonzeros` (inner_product_computer.cc:65-97). -/
def computeNonzeros (cols : ℕ → Block) : List Term → (ℕ → ℕ) × ℕ
  | [] => (fun _ => 0, 0)
  | t :: ts => nonzerosLoop cols t ts
      (Function.update (fun _ => 0) t.row (cols t.col).size, (cols t.row).size * (cols t.col).size)

/-- `crsm_rows` (inner_product_computer.cc:191-197), after its first element: from the offset `off`. -/
def resultRows (rowNnz : ℕ → ℕ) : ℕ → ℕ → List Block → List ℕ
  | _, _, [] => []
  | i, off, b :: bs =>
    ((List.range b.size).map fun j => off + (j + 1) * rowNnz i) ++
      resultRows rowNnz (i + 1) (off + b.size * rowNnz i) bs

/-- The state of the loop that fills in the offsets and the columns. -/
structure Fill where
  colNnz : ℕ
  nnz : ℕ
  offsets : ℕ → ℕ
  cols : ℕ → ℕ

/-- `FILL_CRSM_COL_BLOCK` (inner_product_computer.cc:235-246). -/
def fillBlock (cols : ℕ → Block) (rowNnz : ℕ → ℕ) (t : Term) (s : Fill) : Fill :=
  { s with
    offsets := Function.update s.offsets t.index (s.nnz + s.colNnz)
    cols := (List.range (cols t.row).size).foldl (fun a j => (List.range (cols t.col).size).foldl
      (fun a k => Function.update a (s.nnz + j * rowNnz t.row + s.colNnz + k) ((cols t.col).position + k)) a)
      s.cols }

/-- The loop over the rest of the terms (inner_product_computer.cc:256-280). -/
def fillLoop (cols : ℕ → Block) (rowNnz : ℕ → ℕ) : Term → List Term → Fill → Fill
  | _, [], s => s
  | prev, cur :: ts, s =>
    fillLoop cols rowNnz cur ts
      (if prev.row = cur.row ∧ prev.col = cur.col then
        { s with offsets := Function.update s.offsets cur.index (s.offsets prev.index) }
      else if prev.row = cur.row then
        fillBlock cols rowNnz cur { s with colNnz := s.colNnz + (cols prev.col).size }
      else
        fillBlock cols rowNnz cur
          { s with colNnz := 0, nnz := s.nnz + rowNnz prev.row * (cols prev.row).size })

/-- Both parts (inner_product_computer.cc:198-280); the column array holds anything (`old`) before. -/
def fill (cols : ℕ → Block) (rowNnz : ℕ → ℕ) (old : ℕ → ℕ) : List Term → Fill
  | [] => ⟨0, 0, fun _ => 0, old⟩
  | t :: ts => fillLoop cols rowNnz t ts (fillBlock cols rowNnz t ⟨0, 0, fun _ => 0, old⟩)

/-- An `InnerProductComputer` (inner_product_computer.h:141-152).  The matrix it refers to is an argument of
`compute`. -/
structure Computer (K : Type) where
  start : ℕ
  stop : ℕ
  upper : Bool
  result : Sparse.Mat K
  offsets : ℕ → ℕ
  numOffsets : ℕ
  /-- The size of the arrays of the result (49-59). -/
  allocated : ℕ

/-- `Create` and `Init` (inner_product_computer.cc:125-281); `none`: a `CHECK` fails.  With no product at all
the code returns early (199-201), which `fill` does too.  `std::sort` orders by row, column and index, so that
the result does not depend on how it sorts. -/
def create (M : BMat K) (s e : ℕ) (upper : Bool) (oldCols : ℕ → ℕ) (oldValues : ℕ → K) : Option (Computer K) :=
  if 0 < M.nnz then
    let ts := (terms upper (rowRange M.bs.rows s e)).mergeSort Term.le
    let nz := computeNonzeros M.bs.col ts
    let f := fill M.bs.col nz.1 oldCols ts
    some
      { start := s
        stop := e
        upper := upper
        result :=
          { numRows := M.numCols
            numCols := M.numCols
            rows := fun i => (0 :: resultRows nz.1 0 0 M.bs.cols).getD i 0
            cols := f.cols
            values := oldValues
            storage := if upper then .upper else .lower
            rowBlocks := M.bs.cols.map Block.size }
        offsets := f.offsets
        numOffsets := ts.length
        allocated := nz.2 }
  else none

/-- `MatrixTransposeMatrixMultiply<..., 1>(A, rows, n1, B, rows, n2, values + base, 0, 0, n1, stride)`:
`values[base + i * stride + j] += (A' * B)(i, j)` (`Verif.SmallBlas` models the kernel). -/
def addProduct [CommRing K] (v : ℕ → K) (rows n1 n2 p1 p2 base stride : ℕ) (w : ℕ → K) : ℕ → K :=
  (List.range n1).foldl (fun w i => (List.range n2).foldl (fun w j =>
    Sparse.bump w (base + i * stride + j)
      ((List.range rows).map fun k => v (p1 + k * n1 + i) * v (p2 + k * n2 + j)).sum) w) w

/-- The loops of `Compute` (inner_product_computer.cc:299-332): `ps` are the pairs of cells with the size of
their row block; `cursor` counts them. -/
def computeLoop [CommRing K] (cols : ℕ → Block) (v : ℕ → K) (rows : ℕ → ℕ) (offsets : ℕ → ℕ) :
    List (ℕ × Cell × Cell) → ℕ → (ℕ → K) → ℕ → K
  | [], _, w => w
  | p :: ps, cursor, w =>
    computeLoop cols v rows offsets ps (cursor + 1)
      (addProduct v p.1 (cols p.2.1.blockId).size (cols p.2.2.blockId).size p.2.1.position p.2.2.position
        (offsets cursor)
        (rows ((cols p.2.1.blockId).position + 1) - rows (cols p.2.1.blockId).position) w)

/-- The pairs of cells that `Compute` visits. -/
def visits (upper : Bool) (rows : List BRow) : List (ℕ × Cell × Cell) :=
  rows.flatMap fun r => (pairs upper r.cells).map fun p => (r.block.size, p)

/-- `Compute` (inner_product_computer.cc:287-335) on the matrix as it now is; `none`: a row block that is no
longer there is read, or the `CHECK` on the number of products fails. -/
def Computer.compute [CommRing K] (C : Computer K) (M : BMat K) : Option (Computer K) :=
  let ps := visits C.upper (rowRange M.bs.rows C.start C.stop)
  if C.stop ≤ M.bs.rows.length ∧ ps.length = C.numOffsets then
    some { C with result := { C.result with
      values := computeLoop M.bs.col M.values C.result.rows C.offsets ps 0 fun _ => 0 } }
  else none

end Ceres.InnerProduct
