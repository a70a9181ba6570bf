import Mathlib.Logic.Function.Basic
import Mathlib.Algebra.Group.Defs
import Mathlib.Algebra.Order.Group.Nat
import Mathlib.Algebra.BigOperators.Group.List.Basic

/-!
# Model of the Jacobian writers
(compressed_row_jacobian_writer.cc, block_jacobian_writer.cc, dense_jacobian_writer.h,
dynamic_compressed_row_jacobian_writer.cc, scratch_evaluate_preparer.cc,
block_evaluate_preparer.cc)

Arrays are functions on positions; a sequence of stores is a list of (position, value) pairs.
The checks for integer overflow (which make `CreateJacobian` return `nullptr`) are left out:
integers are unbounded.  `Verif/Overflow` has the same functions with machine integers.
-/
namespace Ceres.Evaluator

/-- A residual block as the writers see it: the number of residuals and, for every argument, the
`index()` of its parameter block in the program, or `none` if the block is constant. -/
structure RB where
  numResiduals : ℕ
  args : List (Option ℕ)

/-- The (reduced) program as the writers see it: the tangent sizes of its parameter blocks in
order, and its residual blocks.  `delta_offset()` of block `i` is the sum of the sizes before it
(Program::SetParameterOffsetsAndIndex, proved in `Program.Props`). -/
structure Prog where
  sizes : List ℕ
  residuals : List RB

/-- `TangentSize()` of parameter block `i`. -/
def Prog.size (P : Prog) (i : ℕ) : ℕ := P.sizes.getD i 0

/-- `delta_offset()` of parameter block `i`. -/
def Prog.offset (P : Prog) (i : ℕ) : ℕ := (P.sizes.take i).sum

/-- The active arguments of a residual block: pairs of parameter index and argument number
(compressed_row_jacobian_writer.cc:80-86; block_jacobian_writer.cc:126-133). -/
def activeArgs (rb : RB) : List (ℕ × ℕ) :=
  rb.args.zipIdx.filterMap fun p => p.1.map fun i => (i, p.2)

/-- `std::pair`'s `<`, as a `<=`. -/
def pairLe (a b : ℕ × ℕ) : Bool := a.1 < b.1 || (a.1 == b.1 && a.2 ≤ b.2)

/-- `GetOrderedParameterBlocks` (compressed_row_jacobian_writer.cc:73-89). -/
def orderedBlocks (rb : RB) : List (ℕ × ℕ) := (activeArgs rb).mergeSort pairLe

/-- `parameter_indices` in `CreateJacobian`, sorted (compressed_row_jacobian_writer.cc:143-153). -/
def sortedIndices (rb : RB) : List ℕ :=
  ((activeArgs rb).map Prod.fst).mergeSort (fun a b => decide (a ≤ b))

/-- `adjacent_find(...) != end()`: two equal neighbours (compressed_row_jacobian_writer.cc:154). -/
def hasAdjacent : List ℕ → Bool
  | a :: b :: l => a == b || hasAdjacent (b :: l)
  | _ => false

/-- `num_derivatives`: stored entries in a row of the residual block
(compressed_row_jacobian_writer.cc:142-150). -/
def Prog.width (P : Prog) (rb : RB) : ℕ := ((activeArgs rb).map fun p => P.size p.1).sum

/-- A sequence of stores into an array. -/
def exec {α : Type} (ws : List (ℕ × α)) (a : ℕ → α) : ℕ → α :=
  ws.foldl (fun a w => Function.update a w.1 w.2) a

/-- The stores made by the loops over the sorted parameter blocks, the residuals and the columns
(compressed_row_jacobian_writer.cc:178-192 and 219-245): the entry for block `i`, argument `j`,
residual `r`, column `c` goes to `start r + cursor + c`. -/
def blockStores {α : Type} (size : ℕ → ℕ) (start : ℕ → ℕ) (n : ℕ) (f : ℕ → ℕ → ℕ → ℕ → α) :
    ℕ → List (ℕ × ℕ) → List (ℕ × α)
  | _, [] => []
  | cursor, (i, j) :: S =>
    ((List.range n).flatMap fun r =>
      (List.range (size i)).map fun c => (start r + cursor + c, f i j r c)) ++
    blockStores size start n f (cursor + size i) S

/-- Filling `rows` (compressed_row_jacobian_writer.cc:170-173). -/
def setRows (rows : ℕ → ℕ) (pos n w : ℕ) : ℕ → ℕ :=
  (List.range n).foldl (fun rows j => Function.update rows (pos + j + 1) (rows (pos + j) + w)) rows

/-- The loop over the residual blocks in `CreateJacobian`
(compressed_row_jacobian_writer.cc:135-194); `none` is `LOG(FATAL)`. -/
def createLoop (P : Prog) : List RB → (ℕ → ℕ) → (ℕ → ℕ) → ℕ → Option ((ℕ → ℕ) × (ℕ → ℕ) × ℕ)
  | [], rows, cols, pos => some (rows, cols, pos)
  | rb :: l, rows, cols, pos =>
    if hasAdjacent (sortedIndices rb) then none
    else
      let rows' := setRows rows pos rb.numResiduals (P.width rb)
      let cols' := exec (blockStores P.size (fun r => rows' (pos + r)) rb.numResiduals
        (fun i _ _ c => P.offset i + c) 0 ((sortedIndices rb).map fun i => (i, 0))) cols
      createLoop P l rows' cols' (pos + rb.numResiduals)

/-- A compressed row matrix: `rows`, `cols` and `values`. -/
structure CRS (α : Type) where
  rows : ℕ → ℕ
  cols : ℕ → ℕ
  values : ℕ → α

/-- `CompressedRowJacobianWriter::CreateJacobian` (compressed_row_jacobian_writer.cc:91-201) with
the values zero. -/
def createJacobian {α : Type} [Zero α] (P : Prog) : Option (CRS α) :=
  (createLoop P P.residuals (fun _ => 0) (fun _ => 0) 0).map fun r => ⟨r.1, r.2.1, fun _ => 0⟩

/-- `residual_layout_[i]` (program_evaluator.h:350-361). -/
def Prog.rowOffset (P : Prog) (i : ℕ) : ℕ := ((P.residuals.take i).map RB.numResiduals).sum

/-- The stores of `CompressedRowJacobianWriter::Write` for residual block `i`
(compressed_row_jacobian_writer.cc:203-246).  `jac j k` is `jacobians[j][k]`, row major. -/
def crsWrite {α : Type} (P : Prog) (rows : ℕ → ℕ) (i : ℕ) (rb : RB) (jac : ℕ → ℕ → α) :
    List (ℕ × α) :=
  blockStores P.size (fun r => rows (P.rowOffset i + r)) rb.numResiduals
    (fun p j r c => jac j (r * P.size p + c)) 0 (orderedBlocks rb)

/-! ### The block sparse writer -/

/-- The first loop of `BuildJacobianLayout` (block_jacobian_writer.cc:78-100): the number of
entries in E blocks. -/
def eEntries (P : Prog) (numEliminate : ℕ) : ℕ :=
  (P.residuals.map fun rb =>
    ((activeArgs rb).map fun p =>
      if p.1 < numEliminate then rb.numResiduals * P.size p.1 else 0).sum).sum

/-- The active arguments sorted by column block with their position `k` among the active ones
(block_jacobian_writer.cc:124-140).  (`std::sort` on distinct keys.) -/
def sortedActive (rb : RB) : List ((ℕ × ℕ) × ℕ) :=
  (activeArgs rb).zipIdx.mergeSort fun a b => decide (a.1.1 ≤ b.1.1)

/-- Placing the cells of one residual block (block_jacobian_writer.cc:145-163): the entries
`jacobian_pos[k]` as stores, and the new `e_block_pos` and `f_block_pos`. -/
def placeCells (P : Prog) (numEliminate n : ℕ) :
    List ((ℕ × ℕ) × ℕ) → ℕ → ℕ → List (ℕ × ℕ) × ℕ × ℕ
  | [], e, f => ([], e, f)
  | ((i, _), k) :: l, e, f =>
    if i < numEliminate then
      let r := placeCells P numEliminate n l (e + n * P.size i) f
      ((k, e) :: r.1, r.2)
    else
      let r := placeCells P numEliminate n l e (f + n * P.size i)
      ((k, f) :: r.1, r.2)

/-- The second loop of `BuildJacobianLayout` (block_jacobian_writer.cc:110-165): for every
residual block its `jacobian_layout[i]`. -/
def layoutLoop (P : Prog) (numEliminate : ℕ) : List RB → ℕ → ℕ → List (ℕ → ℕ)
  | [], _, _ => []
  | rb :: l, e, f =>
    let r := placeCells P numEliminate rb.numResiduals (sortedActive rb) e f
    exec r.1 (fun _ => 0) :: layoutLoop P numEliminate l r.2.1 r.2.2

/-- `BuildJacobianLayout` (block_jacobian_writer.cc:68-167). -/
def buildLayout (P : Prog) (numEliminate : ℕ) : List (ℕ → ℕ) :=
  layoutLoop P numEliminate P.residuals 0 (eEntries P numEliminate)

/-- The cells of a row block in `BlockJacobianWriter::CreateJacobian`
(block_jacobian_writer.cc:244-258): column block and position, sorted by column block. -/
def rowCells (rb : RB) (layout : ℕ → ℕ) : List (ℕ × ℕ) :=
  ((activeArgs rb).zipIdx.map fun p => (p.1.1, layout p.2)).mergeSort
    fun a b => decide (a.1 ≤ b.1)

/-- `BlockEvaluatePreparer::Prepare` with a Jacobian (block_evaluate_preparer.cc:61-77): the
position in the values array each argument is evaluated to, `none` for constant blocks.  `k`
counts the active arguments before. -/
def preparePositions (layout : ℕ → ℕ) : List (Option ℕ) → ℕ → List (Option ℕ)
  | [], _ => []
  | some _ :: l, k => some (layout k) :: preparePositions layout l (k + 1)
  | none :: l, k => none :: preparePositions layout l k

/-- `ScratchEvaluatePreparer::Prepare` (scratch_evaluate_preparer.cc:58-75): offsets into the
scratch area. -/
def scratchPositions (P : Prog) (n : ℕ) : List (Option ℕ) → ℕ → List (Option ℕ)
  | [], _ => []
  | some i :: l, cursor => some cursor :: scratchPositions P n l (cursor + n * P.size i)
  | none :: l, cursor => none :: scratchPositions P n l cursor

/-! ### The dense writer -/

/-- The stores of `DenseJacobianWriter::Write` (dense_jacobian_writer.h:72-101) into a matrix
addressed by row and column. -/
def denseStores {α : Type} (P : Prog) (i : ℕ) (rb : RB) (jac : ℕ → ℕ → α) :
    List ((ℕ × ℕ) × α) :=
  (activeArgs rb).flatMap fun p =>
    (List.range rb.numResiduals).flatMap fun r =>
      (List.range (P.size p.1)).map fun c =>
        ((P.rowOffset i + r, P.offset p.1 + c), jac p.2 (r * P.size p.1 + c))

/-! ### The dynamic writer -/

/-- The calls of `InsertEntry` made by `DynamicCompressedRowJacobianWriter::Write`
(dynamic_compressed_row_jacobian_writer.cc:79-98): row, column and value, zeros left out. -/
def dynamicInserts {α : Type} [Zero α] [DecidableEq α] (P : Prog) (i : ℕ) (rb : RB)
    (jac : ℕ → ℕ → α) : List (ℕ × ℕ × α) :=
  (orderedBlocks rb).flatMap fun p =>
    (List.range rb.numResiduals).flatMap fun r =>
      (List.range (P.size p.1)).filterMap fun c =>
        if jac p.2 (r * P.size p.1 + c) = 0 then none
        else some (P.rowOffset i + r, P.offset p.1 + c, jac p.2 (r * P.size p.1 + c))

end Ceres.Evaluator
