import Verif.BlockSparse.Model

/-!
# The partitioned view of a Jacobian and the implicit Schur complement, on flat storage and with threads

`internal/ceres/partitioned_matrix_view_impl.h` cuts a block sparse Jacobian into `[E F]`: the first column
blocks and the others.  `internal/ceres/implicit_schur_complement.cc` multiplies with the Schur complement by
means of it.  The loops are programs on shared memory as in `Verif.BlockSparse`: one access to a number at a
time, interleaved in any way.  The template parameters of the view choose kernels and do not change what is
computed (`Verif.SmallBlas`).
-/
namespace Ceres.PartitionedView

open Matrix Ceres.Tasks Ceres.BlockSparse

variable {K : Type}

/-! ## The view -/

/-- The fields of `PartitionedMatrixView` (partitioned_matrix_view.h:191-204). -/
structure View where
  threads : ℕ
  numColBlocksE : ℕ
  numColBlocksF : ℕ
  numRowBlocksE : ℕ
  numColsE : ℕ
  numColsF : ℕ
  eColsPartition : List ℕ
  fColsPartition : List ℕ

/-- Counting the row blocks in `E` (partitioned_matrix_view_impl.h:64-70); `none`: `cells[0]` of a row block
without cells is read. -/
def countRowBlocksE (ne : ℕ) : List BRow → Option ℕ
  | [] => some 0
  | r :: rs =>
    match r.cells with
    | [] => none
    | c :: _ => (countRowBlocksE ne rs).map fun n => if c.blockId < ne then n + 1 else n

/-- Counting the columns (partitioned_matrix_view_impl.h:72-83). -/
def countCols (ne : ℕ) (cols : List Block) : ℕ × ℕ :=
  cols.zipIdx.foldl (fun s b => if b.2 < ne then (s.1 + b.1.size, s.2) else (s.1, s.2 + b.1.size)) (0, 0)

/-- The constructor (partitioned_matrix_view_impl.h:48-106) for `ne = elimination_groups[0]`.  `none`: a `CHECK`
fails, `cells[0]` of an empty row block or, on several threads, `transpose_bs->rows[-1]` is read, or the number
of column blocks of `F` is negative.  The matrix always has its transposed structure
(block_sparse_matrix.cc:215). -/
def create (M : BMat K) (ne threads : ℕ) : Option View :=
  if M.bs.cols.length < ne then none
  else match countRowBlocksE ne M.bs.rows with
    | none => none
    | some re =>
      let s := countCols ne M.bs.cols
      if s.1 + s.2 = M.numCols then
        if 1 < threads then
          if ne = 0 then none
          else some
            { threads := threads, numColBlocksE := ne, numColBlocksF := M.bs.cols.length - ne
              numRowBlocksE := re, numColsE := s.1, numColsF := s.2
              eColsPartition := Partition.partitionRange (cumOf M.tbs) 0 ne (threads * 4)
              fColsPartition := Partition.partitionRange (cumOf M.tbs) ne (ne + (M.bs.cols.length - ne))
                (threads * 4) }
        else some
          { threads := threads, numColBlocksE := ne, numColBlocksF := M.bs.cols.length - ne
            numRowBlocksE := re, numColsE := s.1, numColsF := s.2
            eColsPartition := [], fColsPartition := [] }
      else none

/-! ## Cells -/

/-- A cell as its kernel sees it: its row block, its column block and its position. -/
abbrev Triple := Block × Block × ℕ

/-- The cells that a loop over row blocks takes from row block `i`. -/
def atRow (bs : BS) (i : ℕ) (g : BRow → List Triple) : List Triple :=
  match bs.rows[i]? with
  | some r => g r
  | none => []

/-- A cell of a row block. -/
def cellOf (bs : BS) (r : BRow) (c : Cell) : Triple := (r.block, bs.col c.blockId, c.position)

/-- A cell of a row block of the transposed structure, that is of a column block: the kernel gets the row block
first. -/
def cellOfT (tbs : BS) (t : BRow) (c : Cell) : Triple := (tbs.col c.blockId, t.block, c.position)

/-- `col_block_pos - num_cols_e`. -/
def shiftF (numColsE : ℕ) (t : Triple) : Triple := (t.1, ⟨t.2.1.size, t.2.1.position - numColsE⟩, t.2.2)

/-- `cells[0]`. -/
def rowE (bs : BS) (i : ℕ) : List Triple := atRow bs i fun r => (r.cells.take 1).map (cellOf bs r)

/-- `cells[1]`, `cells[2]`, ... -/
def rowRest (bs : BS) (i : ℕ) : List Triple := atRow bs i fun r => (r.cells.drop 1).map (cellOf bs r)

/-- All cells. -/
def rowAll (bs : BS) (i : ℕ) : List Triple := atRow bs i fun r => r.cells.map (cellOf bs r)

/-- `if (col_block_id >= num_row_blocks_e) break;` -/
def colE (tbs : BS) (re i : ℕ) : List Triple :=
  atRow tbs i fun t => (t.cells.takeWhile fun c => decide (c.blockId < re)).map (cellOfT tbs t)

/-- The two loops over the cells of a column block of `F`. -/
def colF (tbs : BS) (re i : ℕ) : List Triple :=
  atRow tbs i fun t => (t.cells.takeWhile fun c => decide (c.blockId < re)).map (cellOfT tbs t) ++
    (t.cells.dropWhile fun c => decide (c.blockId < re)).map (cellOfT tbs t)

/-- All cells of a column block. -/
def colAll (tbs : BS) (i : ℕ) : List Triple := atRow tbs i fun t => t.cells.map (cellOfT tbs t)

section Programs
variable [CommRing K]

/-- One kernel after the other. -/
def kernels (f : Block → Block → ℕ → Prog K → Prog K) (l : List Triple) (k : Prog K) : Prog K :=
  l.foldr (fun t k => f t.1 t.2.1 t.2.2 k) k

/-! ## Products -/

/-- `RightMultiplyAndAccumulateE` (partitioned_matrix_view_impl.h:113-137). -/
def RightERun (V : View) (M : BMat K) (m : Mem K) : Option (Mem K) → Prop :=
  ForRun (fun _ i => kernels mulCell (rowE M.bs i) .ret) 0 V.numRowBlocksE V.threads m

/-- `RightMultiplyAndAccumulateF` (partitioned_matrix_view_impl.h:140-191): two loops. -/
def RightFRun (V : View) (M : BMat K) (m : Mem K) : Option (Mem K) → Prop :=
  Then
    (ForRun (fun _ i => kernels mulCell ((rowRest M.bs i).map (shiftF V.numColsE)) .ret) 0 V.numRowBlocksE
      V.threads m)
    (fun m1 => ForRun (fun _ i => kernels mulCell ((rowAll M.bs i).map (shiftF V.numColsE)) .ret)
      V.numRowBlocksE M.bs.rows.length V.threads m1)

/-- `LeftMultiplyAndAccumulateE` (partitioned_matrix_view_impl.h:194-264). -/
def LeftERun (V : View) (M : BMat K) (m : Mem K) (o : Option (Mem K)) : Prop :=
  if V.numColBlocksE = 0 then o = some m
  else if V.numRowBlocksE = 0 then o = some m
  else if V.threads = 1 then
    o = runAlone (kernels mulCellTranspose ((List.range V.numRowBlocksE).flatMap (rowE M.bs)) .ret) m
  else PartRun (fun _ i => kernels mulCellTranspose (colE M.tbs V.numRowBlocksE i) .ret) 0 V.numColBlocksE
    V.threads V.eColsPartition m o

/-- `LeftMultiplyAndAccumulateF` (partitioned_matrix_view_impl.h:267-375). -/
def LeftFRun (V : View) (M : BMat K) (m : Mem K) (o : Option (Mem K)) : Prop :=
  if V.numColBlocksF = 0 then o = some m
  else if V.threads = 1 then
    o = runAlone
      (kernels mulCellTranspose
        (((List.range V.numRowBlocksE).flatMap (rowRest M.bs)).map (shiftF V.numColsE) ++
          ((List.range' V.numRowBlocksE (M.bs.rows.length - V.numRowBlocksE)).flatMap (rowAll M.bs)).map
            (shiftF V.numColsE)) .ret) m
  else PartRun (fun _ i => kernels mulCellTranspose ((colF M.tbs V.numRowBlocksE i).map (shiftF V.numColsE)) .ret)
    V.numColBlocksE (V.numColBlocksE + V.numColBlocksF) V.threads V.fColsPartition m o

/-! ## Block diagonals -/

/-- The loop of `CreateBlockDiagonalMatrixLayout` (partitioned_matrix_view_impl.h:389-413): `pos` is
`block_position`, `cell` is `diagonal_cell_position`, `id` is `c - start_col_block`. -/
def layoutFrom (pos cell id : ℕ) : List Block → List BRow
  | [] => []
  | b :: bs => ⟨⟨b.size, pos⟩, [⟨id, cell⟩], 0, 0⟩ ::
      layoutFrom (pos + b.size) (cell + b.size * b.size) (id + 1) bs

/-- `CreateBlockDiagonalMatrixLayout` (partitioned_matrix_view_impl.h:384-418). -/
def layout (bs : BS) (start stop : ℕ) : BS :=
  let rows := layoutFrom 0 0 0 ((bs.cols.drop start).take (stop - start))
  ⟨rows.map BRow.block, rows⟩

/-- `block_diagonal_structure->rows[id].cells[0].position`. -/
def diagPos (d : BS) (id : ℕ) : ℕ := ((d.rows[id]?.bind fun r => r.cells.head?).map Cell.position).getD 0

/-- `MatrixTransposeMatrixMultiply<..., 1>(values + pos, row.size, col.size, values + pos, row.size, col.size,
diagonal + col.position, 0, 0, col.size, col.size)`: the values of the block diagonal are the `y` of the memory;
`col.position` is the position of the block among them. -/
def gramCell (row col : Block) (pos : ℕ) (k : Prog K) : Prog K :=
  readMat row.size col.size (valLoc pos) fun A =>
    readMat row.size col.size (valLoc pos) fun B =>
      adds (matEntries (Aᵀ * B) fun i j => .y (col.position + i * col.size + j)) k

/-- A cell of a row block with the position of the diagonal block of its column block `block_id - first`. -/
def gramOf (bs d : BS) (first : ℕ) (r : BRow) (c : Cell) : Triple :=
  (r.block, ⟨(bs.col c.blockId).size, diagPos d (c.blockId - first)⟩, c.position)

/-- The same for a cell of column block `id`. -/
def gramOfT (tbs d : BS) (id : ℕ) (t : BRow) (c : Cell) : Triple :=
  (tbs.col c.blockId, ⟨t.block.size, diagPos d id⟩, c.position)

/-- `MatrixRef(cell_values, size, size).setZero()`. -/
def zeroCell (tbs d : BS) (col id : ℕ) : List ℕ :=
  match tbs.rows[col]? with
  | some t => List.range' (diagPos d id) (t.block.size * t.block.size)
  | none => []

/-- Setting elements of the result to zero. -/
def zeros (l : List ℕ) (k : Prog K) : Prog K := writes (l.map fun i => (.y i, 0)) k

/-- `UpdateBlockDiagonalEtE` (partitioned_matrix_view_impl.h:447-524). -/
def EtERun (V : View) (M : BMat K) (d : BMat K) (m : Mem K) (o : Option (Mem K)) : Prop :=
  if V.threads = 1 then
    o = runAlone (zeros (List.range d.nnz) (kernels gramCell
      ((List.range V.numRowBlocksE).flatMap fun i => atRow M.bs i fun r =>
        (r.cells.take 1).map (gramOf M.bs d.bs 0 r)) .ret)) m
  else PartRun (fun _ i => zeros (zeroCell M.tbs d.bs i i) (kernels gramCell
      (atRow M.tbs i fun t => t.cells.map (gramOfT M.tbs d.bs i t)) .ret))
    0 V.numColBlocksE V.threads V.eColsPartition m o

/-- `UpdateBlockDiagonalFtF` (partitioned_matrix_view_impl.h:531-659). -/
def FtFRun (V : View) (M : BMat K) (d : BMat K) (m : Mem K) (o : Option (Mem K)) : Prop :=
  if V.threads = 1 then
    o = runAlone (zeros (List.range d.nnz) (kernels gramCell
      (((List.range V.numRowBlocksE).flatMap fun i => atRow M.bs i fun r =>
          (r.cells.drop 1).map (gramOf M.bs d.bs V.numColBlocksE r)) ++
        ((List.range' V.numRowBlocksE (M.bs.rows.length - V.numRowBlocksE)).flatMap fun i => atRow M.bs i fun r =>
          r.cells.map (gramOf M.bs d.bs V.numColBlocksE r))) .ret)) m
  else PartRun (fun _ i => zeros (zeroCell M.tbs d.bs i (i - V.numColBlocksE)) (kernels gramCell
      (atRow M.tbs i fun t =>
        (t.cells.takeWhile fun c => decide (c.blockId < V.numRowBlocksE)).map
            (gramOfT M.tbs d.bs (i - V.numColBlocksE) t) ++
          (t.cells.dropWhile fun c => decide (c.blockId < V.numRowBlocksE)).map
            (gramOfT M.tbs d.bs (i - V.numColBlocksE) t)) .ret))
    V.numColBlocksE (V.numColBlocksE + V.numColBlocksF) V.threads V.fColsPartition m o

/-! ## Calls on vectors -/

/-- What a call may do; `none`: it does not return. -/
abbrev Does (α : Type) := Option α → Prop

/-- One call after another. -/
inductive Does.bind {α β : Type} (R : Does α) (S : α → Does β) : Does β where
  | stuck : R none → Does.bind R S none
  | next (a : α) (o : Option β) : R (some a) → S a o → Does.bind R S o

/-- The vectors of a call: what is read, what is written, and the values. -/
def mem (x y v : ℕ → K) : Mem K
  | .x i => x i
  | .y i => y i
  | .val p => v p

/-- The vector that a program on memory leaves. -/
def onY (R : Option (Mem K) → Prop) : Does (ℕ → K) := fun o => ∃ o', R o' ∧ o = o'.map fun m i => m (.y i)

/-- `ParallelSetZero(context, num_threads, y)` for a vector of size `n` (parallel_vector_ops.cc:38-52). -/
def setZero (threads n : ℕ) (y : ℕ → K) : Does (ℕ → K) :=
  onY (ForRunMin (2 ^ 16) zeroTask 0 n threads (mem y y y))

/-- `ParallelAssign` (parallel_vector_ops.h:58-78) of `n` elements, with the body `task` per element. -/
def assign (threads n : ℕ) (task : ℕ → ℕ → Prog K) (x y v : ℕ → K) : Does (ℕ → K) :=
  onY (ForRunMin (2 ^ 16) task 0 n threads (mem x y v))

/-- `y = -y`. -/
def negTask (_tid i : ℕ) : Prog K := .read (.y i) fun a => .write (.y i) (-a) .ret

/-- `y = x - y`. -/
def subTask (_tid i : ℕ) : Prog K := .read (.x i) fun b => .read (.y i) fun a => .write (.y i) (b - a) .ret

/-- `y = v.square() * x`. -/
def scaleTask (_tid i : ℕ) : Prog K :=
  .read (.val i) fun d => .read (.x i) fun a => .write (.y i) (d ^ 2 * a) .ret

/-- `y.segment(off, n) = x`. -/
def copyTask (off _tid i : ℕ) : Prog K := .read (.x i) fun a => .write (.y (off + i)) a .ret

/-- `A_->RightMultiplyAndAccumulateE(x, y)`. -/
def mulE (V : View) (M : BMat K) (x y : ℕ → K) : Does (ℕ → K) := onY (RightERun V M (memOf M x y))

/-- `A_->RightMultiplyAndAccumulateF(x, y)`. -/
def mulF (V : View) (M : BMat K) (x y : ℕ → K) : Does (ℕ → K) := onY (RightFRun V M (memOf M x y))

/-- `A_->LeftMultiplyAndAccumulateE(x, y)`. -/
def mulEt (V : View) (M : BMat K) (x y : ℕ → K) : Does (ℕ → K) := onY (LeftERun V M (memOf M x y))

/-- `A_->LeftMultiplyAndAccumulateF(x, y)`. -/
def mulFt (V : View) (M : BMat K) (x y : ℕ → K) : Does (ℕ → K) := onY (LeftFRun V M (memOf M x y))

/-- `block_diagonal->RightMultiplyAndAccumulate(x, y, context, num_threads)`. -/
def mulBlocks (threads : ℕ) (d : BMat K) (x y : ℕ → K) : Does (ℕ → K) := onY (RightRun d threads (memOf d x y))

/-! ## The implicit Schur complement -/

/-- The body of `AddDiagonalAndInvert` (implicit_schur_complement.cc:184-203): the values of the block diagonal
are the `y` of the memory, `D` is its `x`.  `llt` stands for `m.selfadjointView<Upper>().llt().solve(I)`. -/
def invertTask (llt : (n : ℕ) → Matrix (Fin n) (Fin n) K → Matrix (Fin n) (Fin n) K) (d : BS) (hasD : Bool)
    (_tid i : ℕ) : Prog K :=
  match d.rows[i]? with
  | none => .ret
  | some r =>
    let n := r.block.size
    let loc : Fin n → Fin n → Loc := fun a b => .y (diagPos d i + a * n + b)
    readMat n n loc fun A =>
      if hasD then
        readVec n (fun k => .x (r.block.position + k)) fun D =>
          writes (matEntries (llt n (A + Matrix.diagonal fun k => D k ^ 2)) loc) .ret
      else writes (matEntries (llt n A) loc) .ret

/-- `AddDiagonalAndInvert` (implicit_schur_complement.cc:179-204): the values it leaves. -/
def addDiagonalAndInvert (llt : (n : ℕ) → Matrix (Fin n) (Fin n) K → Matrix (Fin n) (Fin n) K) (threads : ℕ)
    (d : BMat K) (D : Option (ℕ → K)) (values : ℕ → K) : Does (ℕ → K) :=
  onY (ForRun (invertTask llt d.bs D.isSome) 0 d.bs.rows.length threads (mem (D.getD 0) values values))

/-- The members of `ImplicitSchurComplement` that `Init` sets (implicit_schur_complement.h:150-162).  `D` is the
whole array of the regularisation. -/
structure Implicit (K : Type) where
  A : View
  D : Option (ℕ → K)
  b : ℕ → K
  ete : BMat K
  ftf : Option (BMat K)
  rhs : ℕ → K

/-- `D_ + A_->num_cols_e()`. -/
def tailD (n : ℕ) (D : Option (ℕ → K)) : Option (ℕ → K) := D.map fun d i => d (n + i)

/-- Temporary vectors hold anything at first. -/
structure Tmp (K : Type) where
  rows : ℕ → K
  e : ℕ → K
  e2 : ℕ → K
  f : ℕ → K

/-- `UpdateRhs` (implicit_schur_complement.cc:251-276). -/
def updateRhs (V : View) (M ete : BMat K) (b rhs : ℕ → K) (t : Tmp K) : Does (ℕ → K) :=
  Does.bind (setZero V.threads V.numColsE t.e) fun e0 =>
  Does.bind (mulEt V M b e0) fun e1 =>
  Does.bind (setZero V.threads V.numColsE t.e2) fun f0 =>
  Does.bind (mulBlocks V.threads ete e1 f0) fun f1 =>
  Does.bind (setZero V.threads M.numRows t.rows) fun r0 =>
  Does.bind (mulE V M f1 r0) fun r1 =>
  Does.bind (assign V.threads M.numRows subTask b r1 b) fun r2 =>
  Does.bind (setZero V.threads V.numColsF rhs) fun y0 =>
  mulFt V M r2 y0

/-- `CreateBlockDiagonalEtE`, or `UpdateBlockDiagonalEtE` in later calls (implicit_schur_complement.cc:68-83): the
array holds anything (`old`) before. -/
def blockDiagonalE (V : View) (M : BMat K) (old : ℕ → K) : Does (ℕ → K) :=
  onY (EtERun V M (BMat.ofStructure (layout M.bs 0 V.numColBlocksE) old) (memOf M old old))

/-- The same for `F`. -/
def blockDiagonalF (V : View) (M : BMat K) (old : ℕ → K) : Does (ℕ → K) :=
  onY (FtFRun V M
    (BMat.ofStructure (layout M.bs V.numColBlocksE (V.numColBlocksE + V.numColBlocksF)) old) (memOf M old old))

/-- `ImplicitSchurComplement::Init` (implicit_schur_complement.cc:49-97), for `A_` the view `V` of `M`.
`compute` is `compute_ftf_inverse_`. -/
def init (llt : (n : ℕ) → Matrix (Fin n) (Fin n) K → Matrix (Fin n) (Fin n) K) (V : View) (M : BMat K)
    (D : Option (ℕ → K)) (b : ℕ → K) (compute : Bool) (oldE oldF oldRhs : ℕ → K) (t : Tmp K) : Does (Implicit K) :=
  let dE := layout M.bs 0 V.numColBlocksE
  let dF := layout M.bs V.numColBlocksE (V.numColBlocksE + V.numColBlocksF)
  Does.bind (blockDiagonalE V M oldE) fun vE =>
  Does.bind (if compute then blockDiagonalF V M oldF else fun o => o = some oldF) fun vF =>
  Does.bind (addDiagonalAndInvert llt V.threads (BMat.ofStructure dE vE) D vE) fun wE =>
  Does.bind (if compute then
      addDiagonalAndInvert llt V.threads (BMat.ofStructure dF vF) (tailD V.numColsE D) vF
    else fun o => o = some vF) fun wF =>
  Does.bind (updateRhs V M (BMat.ofStructure dE wE) b oldRhs t) fun rhs o =>
    o = some { A := V, D := D, b := b, ete := BMat.ofStructure dE wE
               ftf := if compute then some (BMat.ofStructure dF wF) else none, rhs := rhs }

/-- `ImplicitSchurComplement::RightMultiplyAndAccumulate` (implicit_schur_complement.cc:106-144). -/
def rightMultiply (S : Implicit K) (M : BMat K) (t : Tmp K) (x y : ℕ → K) : Does (ℕ → K) :=
  let V := S.A
  Does.bind (setZero V.threads M.numRows t.rows) fun r0 =>
  Does.bind (mulF V M x r0) fun r1 =>
  Does.bind (setZero V.threads V.numColsE t.e) fun e0 =>
  Does.bind (mulEt V M r1 e0) fun e1 =>
  Does.bind (setZero V.threads V.numColsE t.e2) fun f0 =>
  Does.bind (mulBlocks V.threads S.ete e1 f0) fun f1 =>
  Does.bind (assign V.threads V.numColsE negTask f1 f1 f1) fun f2 =>
  Does.bind (mulE V M f2 r1) fun r2 =>
  Does.bind (match tailD V.numColsE S.D with
    | some d => assign V.threads V.numColsF scaleTask x y d
    | none => setZero V.threads V.numColsF y) fun y1 =>
  mulFt V M r2 y1

/-- `InversePowerSeriesOperatorRightMultiplyAccumulate` (implicit_schur_complement.cc:146-174); a `CHECK` fails
without the block diagonal of `FᵀF`. -/
def powerSeriesOperator (S : Implicit K) (M : BMat K) (t : Tmp K) (x y : ℕ → K) : Does (ℕ → K) :=
  let V := S.A
  match S.ftf with
  | none => fun o => o = none
  | some ftf =>
    Does.bind (setZero V.threads M.numRows t.rows) fun r0 =>
    Does.bind (mulF V M x r0) fun r1 =>
    Does.bind (setZero V.threads V.numColsE t.e) fun e0 =>
    Does.bind (mulEt V M r1 e0) fun e1 =>
    Does.bind (setZero V.threads V.numColsE t.e2) fun f0 =>
    Does.bind (mulBlocks V.threads S.ete e1 f0) fun f1 =>
    Does.bind (setZero V.threads M.numRows r1) fun r2 =>
    Does.bind (mulE V M f1 r2) fun r3 =>
    Does.bind (setZero V.threads V.numColsF t.f) fun g0 =>
    Does.bind (mulFt V M r3 g0) fun g1 =>
    mulBlocks V.threads ftf g1 y

/-- `ImplicitSchurComplement::BackSubstitute` (implicit_schur_complement.cc:208-243): `y` is the vector of all
columns. -/
def backSubstitute (S : Implicit K) (M : BMat K) (t : Tmp K) (x y : ℕ → K) : Does (ℕ → K) :=
  let V := S.A
  Does.bind (setZero V.threads M.numRows t.rows) fun r0 =>
  Does.bind (mulF V M x r0) fun r1 =>
  Does.bind (assign V.threads M.numRows subTask S.b r1 S.b) fun r2 =>
  Does.bind (setZero V.threads V.numColsE t.e) fun e0 =>
  Does.bind (mulEt V M r2 e0) fun e1 =>
  Does.bind (setZero V.threads M.numCols y) fun y0 =>
  Does.bind (mulBlocks V.threads S.ete e1 y0) fun y1 =>
  assign V.threads V.numColsF (copyTask V.numColsE) x y1 x

end Programs

end Ceres.PartitionedView
