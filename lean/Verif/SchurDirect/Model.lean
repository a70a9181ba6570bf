import Verif.SchurThreads.Model
import Verif.Direct.Model
import Verif.Detect.Model

/-!
# DENSE_SCHUR and SPARSE_SCHUR from the Jacobian in memory to the solution in memory

`schur_complement_solver.cc`, `block_random_access_dense_matrix.cc`, `block_random_access_sparse_matrix.cc`.
`Verif.Schur` and `Verif.SchurThreads` model the elimination and the back substitution on matrices and vectors
kept block by block.  Here the Jacobian, the right hand side, the diagonal, the reduced system and the solution
are the flat arrays of the code, and the reduced system is given to the factorisation of `Verif.Direct`.

A flat array holds the numbers of a block by block memory: which element is where is given by the functions that
compute the addresses; positions that belong to nothing hold anything.  The template arguments chosen by
`DetectStructure` only fix sizes at compile time (`Verif.Detect`).  Rounding is not modelled.
-/

noncomputable section

namespace Ceres.SchurDirect

open Matrix Ceres.BlockSparse Ceres.Direct Ceres.SchurThreads

/-! ## The Jacobian and the vectors, block by block -/

/-- `bs->cols[b].size`. -/
def szOf (bs : BS) (b : ℕ) : ℕ := (bs.col b).size

/-- A row block as the eliminator reads it: the cells from `values + cell.position`, row by row, and the segment of
`b` from `b + row.block.position` (schur_eliminator_impl.h:341-375, 398-423, 462-509, 578-599). -/
def rowOf (bs : BS) (values b : Vec) (r : BRow) : Schur.Row (szOf bs) where
  size := r.block.size
  cells := r.cells.map fun c => ⟨c.blockId, fun i j => values (c.position + i * szOf bs c.blockId + j)⟩
  rhs := fun i => b (r.block.position + i)

/-- The row blocks. -/
def rowsOf (bs : BS) (values b : Vec) : List (Schur.Row (szOf bs)) := bs.rows.map (rowOf bs values b)

/-- A vector over the columns as the eliminator reads it: from `D + bs->cols[b].position`
(schur_eliminator_impl.h:211-217, 251-254, 334-337). -/
def blocksOf (bs : BS) (x : Vec) : Schur.BVec (szOf bs) := fun b i => x ((bs.col b).position + i)

/-- `num_f_blocks == 1` etc.: the eliminator that is made (schur_complement_solver.cc:108-132).  The code makes it in
the first call and keeps it; here all calls have the same block structure. -/
def shape (bs : BS) : Detect.Structure where
  cols := fun b => (bs.col b).size
  rows := bs.rows.map fun r => ⟨r.block.size, r.cells.map Cell.blockId⟩

/-- The eliminator; `none`: a `CHECK` of `DetectStructure` fails. -/
def eliminatorOf (bs : BS) (ne : ℕ) : Option Detect.Eliminator :=
  Detect.chooseEliminator (shape bs) bs.cols.length ne

/-! ## Storage -/

/-- The loop of `Tail`. -/
def tailFrom (p : ℕ) : List Block → List Block
  | [] => []
  | b :: bs => ⟨b.size, p⟩ :: tailFrom (p + b.size) bs

/-- `Tail(bs->cols, num_col_blocks - num_eliminate_blocks)` (block_structure.cc:46-60).  The same positions are in
`lhs_row_layout_` (schur_eliminator_impl.h:104-112). -/
def tail (cols : List Block) (ne : ℕ) : List Block := tailFrom 0 (cols.drop ne)

/-- `NumScalarEntries` (block_structure.h:184-191). -/
def numScalarEntries (blocks : List Block) : ℕ :=
  match blocks.getLast? with
  | none => 0
  | some b => b.position + b.size

/-- What `GetCell` returns: where the values start and the position of the cell in a matrix with these strides. -/
structure CellRef where
  values : ℕ
  row : ℕ
  col : ℕ
  rowStride : ℕ
  colStride : ℕ

/-- Where element `(i, j)` of the cell is: the kernels get `values`, `row`, `col` and the strides
(small_blas.h; schur_eliminator_impl.h:213-217, 556-564, 632-641). -/
def CellRef.address (c : CellRef) (i j : ℕ) : ℕ := c.values + (c.row + i) * c.colStride + (c.col + j)

/-- A `BlockRandomAccessMatrix` (block_random_access_matrix.h): the blocks, `num_cols()` and `GetCell`. -/
structure Storage where
  blocks : List Block
  cols : ℕ
  cell : ℕ → ℕ → Option CellRef

/-- A block of a list; out of range, undefined, one of size zero. -/
def blockAt (blocks : List Block) (b : ℕ) : Block := blocks.getD b ⟨0, 0⟩

/-- `DenseSchurComplementSolver::InitStorage` (schur_complement_solver.cc:169-177) with
`BlockRandomAccessDenseMatrix` (block_random_access_dense_matrix.cc:41-67). -/
def denseStorage (bs : BS) (ne : ℕ) : Storage where
  blocks := tail bs.cols ne
  cols := numScalarEntries (tail bs.cols ne)
  cell := fun x y => some ⟨0, (blockAt (tail bs.cols ne) x).position, (blockAt (tail bs.cols ne) y).position,
    numScalarEntries (tail bs.cols ne), numScalarEntries (tail bs.cols ne)⟩

/-- `btree_set::emplace`. -/
def insertPair (p : ℕ × ℕ) : List (ℕ × ℕ) → List (ℕ × ℕ)
  | [] => [p]
  | q :: l =>
    if p.1 < q.1 ∨ p.1 = q.1 ∧ p.2 < q.2 then p :: q :: l
    else if p = q then q :: l
    else q :: insertPair p l

/-- `block_pairs` (schur_complement_solver.cc:224-285): the ids count from the first f block. -/
def pairSet (bs : BS) (ne : ℕ) : List (ℕ × ℕ) :=
  ((Schur.blockPairs ne bs.cols.length (rowsOf bs (fun _ => 0) fun _ => 0)).map fun p =>
    (p.1 - ne, p.2 - ne)).foldl (fun s p => insertPair p s) []

/-- The inner loop of block_random_access_sparse_matrix.cc:82-87: the cells of a row block, the pairs that are left
and `num_nonzeros`. -/
def raCells (blocks : List Block) (id size : ℕ) : List (ℕ × ℕ) → ℕ → List Cell × List (ℕ × ℕ) × ℕ
  | [], nz => ([], [], nz)
  | p :: ps, nz =>
    if id = p.1 then
      let t := raCells blocks id size ps (nz + size * (blockAt blocks p.2).size)
      (⟨p.2, nz⟩ :: t.1, t.2)
    else ([], p :: ps, nz)

/-- The loop over the row blocks (block_random_access_sparse_matrix.cc:74-88). -/
def raRows (blocks : List Block) : ℕ → List Block → List (ℕ × ℕ) → ℕ → List BRow
  | _, [], _, _ => []
  | id, b :: bs, ps, nz =>
    let t := raCells blocks id b.size ps nz
    ⟨b, t.1, 0, 0⟩ :: raRows blocks (id + 1) bs t.2.1 t.2.2

/-- The block structure of a `BlockRandomAccessSparseMatrix` (block_random_access_sparse_matrix.cc:47-88). -/
def raStructure (blocks : List Block) (pairs : List (ℕ × ℕ)) : BS := ⟨blocks, raRows blocks 0 blocks pairs 0⟩

/-- The block structure of the reduced matrix (schur_complement_solver.cc:214-290). -/
def reducedStructure (bs : BS) (ne : ℕ) : BS := raStructure (tail bs.cols ne) (pairSet bs ne)

/-- `layout_.find` (block_random_access_sparse_matrix.cc:92-108): the position of a cell.  That different pairs have
different 64 bit keys is taken for granted. -/
def layoutFind (bs : BS) (x y : ℕ) : Option ℕ :=
  bs.rows[x]?.bind fun r => (r.cells.find? fun c => c.blockId = y).map Cell.position

/-- `SparseSchurComplementSolver::InitStorage` (schur_complement_solver.cc:214-290) with
`BlockRandomAccessSparseMatrix::GetCell` (block_random_access_sparse_matrix.cc:97-117). -/
def sparseStorage (bs : BS) (ne : ℕ) : Storage where
  blocks := tail bs.cols ne
  cols := ((reducedStructure bs ne).cols.map Block.size).sum
  cell := fun x y => (layoutFind (reducedStructure bs ne) x y).map fun p =>
    ⟨p, 0, 0, (blockAt (tail bs.cols ne) x).size, (blockAt (tail bs.cols ne) y).size⟩

/-- Whether `GetCell` finds the cell of two column blocks: the eliminator subtracts `num_eliminate_blocks` from the
ids (schur_eliminator_impl.h:210, 541-552, 624-630). -/
def Storage.has (S : Storage) (ne x y : ℕ) : Bool :=
  decide (ne ≤ x) && decide (ne ≤ y) && (S.cell (x - ne) (y - ne)).isSome

/-- The array of values of the reduced matrix holds the cells. -/
def Storage.Holds (S : Storage) (ne : ℕ) (sz : ℕ → ℕ) (v : Vec) (m : SchurThreads.Mem) : Prop :=
  ∀ x y, ne ≤ x → ne ≤ y → ∀ c, S.cell (x - ne) (y - ne) = some c → ∀ i < sz x, ∀ j < sz y,
    v (c.address i j) = m (.lhs x y i j)

/-- `rhs_` holds the right hand side: block `x` from `lhs_row_layout_[x - num_eliminate_blocks]`
(schur_eliminator_impl.h:416-423, 590-597). -/
def Storage.HoldsRhs (S : Storage) (ne : ℕ) (sz : ℕ → ℕ) (r : Vec) (m : SchurThreads.Mem) : Prop :=
  ∀ x, ne ≤ x → ∀ i < sz x, r ((blockAt S.blocks (x - ne)).position + i) = m (.rhs x i)

/-- Where element `i` of block `b` of the solution is: e blocks from `x + bs->cols[b].position`
(schur_eliminator_impl.h:327), f blocks from `lhs_row_layout_[b - num_eliminate_blocks]` in the reduced solution
(schur_eliminator_impl.h:353-360), which is at the end of `x` (schur_complement_solver.cc:147). -/
def Storage.xAddress (S : Storage) (bs : BS) (ne numCols b i : ℕ) : ℕ :=
  if b < ne then (bs.col b).position + i
  else numCols - S.cols + ((blockAt S.blocks (b - ne)).position + i)

/-- `x` holds the solution. -/
def Storage.HoldsX (S : Storage) (bs : BS) (ne numCols : ℕ) (x : Vec) (m : SchurThreads.Mem) : Prop :=
  ∀ b < bs.cols.length, ∀ i < szOf bs b, x (S.xAddress bs ne numCols b i) = m (.sol b i)

/-! ## Elimination and back substitution -/

/-- What `SchurEliminatorForOneFBlock::Eliminate` (schur_eliminator.h:431-566) writes.  It calls `GetCell(0, 0)` and
takes the values for a contiguous matrix; with one f block they are, in both kinds of storage. -/
def oneEliminated (bs : BS) (ne : ℕ) (rows : List (Schur.Row (szOf bs))) (D : Option (Schur.BVec (szOf bs)))
    (m : SchurThreads.Mem) : SchurThreads.Mem
  | .lhs x y i j =>
    if h : x = ne ∧ y = ne ∧ i < szOf bs ne ∧ j < szOf bs ne then
      (Schur.oneEliminate ne rows D).1 ⟨i, h.2.2.1⟩ ⟨j, h.2.2.2⟩
    else m (.lhs x y i j)
  | .rhs x i =>
    if h : x = ne ∧ i < szOf bs ne then (Schur.oneEliminate ne rows D).2 ⟨i, h.2⟩ else m (.rhs x i)
  | l => m l

/-- `eliminator_->Eliminate` (schur_complement_solver.cc:140-144). -/
inductive Eliminates (inv : Schur.Inverter) (bs : BS) (ne : ℕ) (has : ℕ → ℕ → Bool)
    (rows : List (Schur.Row (szOf bs))) (D : Option (Schur.BVec (szOf bs))) (threads : ℕ) (m : SchurThreads.Mem) :
    Option SchurThreads.Mem → Prop where
  | aborts : eliminatorOf bs ne = none → Eliminates inv bs ne has rows D threads m none
  | general (t : Detect.Sizes) (o : Option SchurThreads.Mem) : eliminatorOf bs ne = some (.general t) →
      EliminateRun inv ne bs.cols.length has rows D true threads m o → Eliminates inv bs ne has rows D threads m o
  | one (t : Detect.Sizes) : eliminatorOf bs ne = some (.oneFBlock t) →
      Eliminates inv bs ne has rows D threads m (some (oneEliminated bs ne rows D m))

/-- What `SchurEliminatorForOneFBlock::BackSubstitute` (schur_eliminator.h:572-613) leaves. -/
def oneBackSubstituted (bs : BS) (ne : ℕ) (rows : List (Schur.Row (szOf bs))) (D : Option (Schur.BVec (szOf bs)))
    (m : SchurThreads.Mem) : SchurThreads.Mem
  | .sol b i =>
    if h : i < szOf bs b then
      Schur.oneBackSubstitute ne rows D (solOf m ne) (solOf m) b ⟨i, h⟩
    else m (.sol b i)
  | l => m l

/-- `eliminator_->BackSubstitute` (schur_complement_solver.cc:153-155). -/
inductive BackSubstitutes (inv : Schur.Inverter) (bs : BS) (ne : ℕ) (rows : List (Schur.Row (szOf bs)))
    (D : Option (Schur.BVec (szOf bs))) (threads : ℕ) (m : SchurThreads.Mem) :
    Option SchurThreads.Mem → Prop where
  | general (t : Detect.Sizes) (o : Option SchurThreads.Mem) : eliminatorOf bs ne = some (.general t) →
      BackRun inv ne rows D threads m o → BackSubstitutes inv bs ne rows D threads m o
  | one (t : Detect.Sizes) : eliminatorOf bs ne = some (.oneFBlock t) →
      BackSubstitutes inv bs ne rows D threads m (some (oneBackSubstituted bs ne rows D m))

/-! ## The solvers -/

/-- The reduced solution by blocks. -/
def Storage.zBlocks (S : Storage) (bs : BS) (ne : ℕ) (z : Vec) : Schur.BVec (szOf bs) :=
  fun b i => z ((blockAt S.blocks (b - ne)).position + i)

/-- `SchurComplementSolver::SolveImpl` (schur_complement_solver.cc:101-159): whether it succeeded, `x` and what
`SolveReducedLinearSystem` keeps; `none`: it does not return.  `reduced` is `SolveReducedLinearSystem`: values and
right hand side to success, reduced solution (zeros before) and new state; `none`: a `CHECK` fails. -/
inductive Solve {σ : Type} (inv : Schur.Inverter) (ne : ℕ) (S : Storage)
    (reduced : Vec → Vec → Option (Bool × Vec × σ)) (call : Call) (threads : ℕ) :
    Option (Bool × Vec × σ) → Prop where
  | stuck (m : SchurThreads.Mem) :
      Eliminates inv call.A.bs ne (S.has ne) (rowsOf call.A.bs call.A.values call.b)
        (call.D.map (blocksOf call.A.bs)) threads (fillSol m) none →
      Solve inv ne S reduced call threads none
  | aborts (m m1 : SchurThreads.Mem) (v r : Vec) :
      Eliminates inv call.A.bs ne (S.has ne) (rowsOf call.A.bs call.A.values call.b)
        (call.D.map (blocksOf call.A.bs)) threads (fillSol m) (some m1) →
      S.Holds ne (szOf call.A.bs) v m1 → S.HoldsRhs ne (szOf call.A.bs) r m1 → reduced v r = none →
      Solve inv ne S reduced call threads none
  | failed (m m1 : SchurThreads.Mem) (v r z : Vec) (s : σ) (x : Vec) :
      Eliminates inv call.A.bs ne (S.has ne) (rowsOf call.A.bs call.A.values call.b)
        (call.D.map (blocksOf call.A.bs)) threads (fillSol m) (some m1) →
      S.Holds ne (szOf call.A.bs) v m1 → S.HoldsRhs ne (szOf call.A.bs) r m1 →
      reduced v r = some (false, z, s) →
      S.HoldsX call.A.bs ne call.A.numCols x (storeReduced ne (S.zBlocks call.A.bs ne z) m1) →
      Solve inv ne S reduced call threads (some (false, x, s))
  | backStuck (m m1 : SchurThreads.Mem) (v r z : Vec) (s : σ) :
      Eliminates inv call.A.bs ne (S.has ne) (rowsOf call.A.bs call.A.values call.b)
        (call.D.map (blocksOf call.A.bs)) threads (fillSol m) (some m1) →
      S.Holds ne (szOf call.A.bs) v m1 → S.HoldsRhs ne (szOf call.A.bs) r m1 →
      reduced v r = some (true, z, s) →
      BackSubstitutes inv call.A.bs ne (rowsOf call.A.bs call.A.values call.b) (call.D.map (blocksOf call.A.bs))
        threads (storeReduced ne (S.zBlocks call.A.bs ne z) m1) none →
      Solve inv ne S reduced call threads none
  | done (m m1 m2 : SchurThreads.Mem) (v r z : Vec) (s : σ) (x : Vec) :
      Eliminates inv call.A.bs ne (S.has ne) (rowsOf call.A.bs call.A.values call.b)
        (call.D.map (blocksOf call.A.bs)) threads (fillSol m) (some m1) →
      S.Holds ne (szOf call.A.bs) v m1 → S.HoldsRhs ne (szOf call.A.bs) r m1 →
      reduced v r = some (true, z, s) →
      BackSubstitutes inv call.A.bs ne (rowsOf call.A.bs call.A.values call.b) (call.D.map (blocksOf call.A.bs))
        threads (storeReduced ne (S.zBlocks call.A.bs ne z) m1) (some m2) →
      S.HoldsX call.A.bs ne call.A.numCols x m2 →
      Solve inv ne S reduced call threads (some (true, x, s))

/-- `DenseSchurComplementSolver::SolveReducedLinearSystem` (schur_complement_solver.cc:182-204). -/
def denseReduced (c : DenseChol) (S : Storage) (v r : Vec) : Option (Bool × Vec × Unit) :=
  if S.cols = 0 then some (true, fun _ => 0, ())
  else
    let f := c.factorAndSolve S.cols (fun i j => v (i * S.cols + j)) r fun _ => 0
    some (f.1, f.2, ())

/-- A call of DENSE_SCHUR. -/
def DenseSolve (c : DenseChol) (inv : Schur.Inverter) (ne : ℕ) (call : Call) (threads : ℕ) :
    Option (Bool × Vec × Unit) → Prop :=
  Solve inv ne (denseStorage call.A.bs ne) (denseReduced c (denseStorage call.A.bs ne)) call threads

/-- What a `SparseSchurComplementSolver` keeps: `crs_lhs_` and the factorisation
(schur_complement_solver.h:182-192). -/
structure Kept (c : SparseChol) where
  crs : Option (Sparse.Mat ℝ)
  chol : c.State

/-- `crs_lhs_` (schur_complement_solver.cc:310-332); `none`: a `CHECK` or a division by zero.  A new array holds
`old`. -/
def theCrs (upper : Bool) (crs : Option (Sparse.Mat ℝ)) (M : BMat ℝ) (old : Vec) : Option (Sparse.Mat ℝ) :=
  match crs with
  | none =>
    if upper then some { M.toCrs old with storage := .upper }
    else (M.toCrsTranspose old).map fun A => { A with storage := .lower }
  | some A => if upper then M.updateCrs A else M.updateCrsTranspose A

/-- `SparseSchurComplementSolver::SolveReducedLinearSystem` (schur_complement_solver.cc:292-338), not for
ITERATIVE_SCHUR. -/
def sparseReduced (c : SparseChol) (K : Kept c) (R : BS) (old v r : Vec) : Option (Bool × Vec × Kept c) :=
  let M := BMat.ofStructure R v
  if M.numRows = 0 then some (true, fun _ => 0, K)
  else do
    let A ← theCrs c.upper K.crs M old
    let f := c.factorAndSolve K.chol A r fun _ => 0
    some (f.1, f.2.1, ⟨some A, f.2.2⟩)

/-- A call of SPARSE_SCHUR. -/
def SparseSolve (c : SparseChol) (K : Kept c) (inv : Schur.Inverter) (ne : ℕ) (call : Call) (threads : ℕ)
    (o : Option (Bool × Vec × Kept c)) : Prop :=
  ∃ old, Solve inv ne (sparseStorage call.A.bs ne) (sparseReduced c K (reducedStructure call.A.bs ne) old) call
    threads o

/-- The solver after some calls. -/
inductive After (c : SparseChol) (inv : Schur.Inverter) (ne threads : ℕ) : List Call → Kept c → Prop where
  | nil : After c inv ne threads [] ⟨none, c.init⟩
  | snoc {calls : List Call} {K : Kept c} (call : Call) (ok : Bool) (x : Vec) (K' : Kept c) :
      After c inv ne threads calls K → SparseSolve c K inv ne call threads (some (ok, x, K')) →
      After c inv ne threads (calls ++ [call]) K'

end Ceres.SchurDirect
