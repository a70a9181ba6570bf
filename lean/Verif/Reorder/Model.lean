import Verif.Graph.Model
import Verif.Util.Model
import Verif.Inner.Model
import Verif.Evaluator.Model
import Verif.BlockSparse.Model

/-!
# Model of the preparation of a program for its linear solver
(reorder_program.cc, program.cc:144-162 and 438-481, trust_region_preprocessor.cc:114-155,
block_jacobian_writer.cc:193-262)

`ApplyOrdering`, `LexicographicallyOrderResidualBlocks`, `ComputeStableSchurOrdering` and
`OrderedGroups` are those of `Verif.Graph.Model`, `MapValuesToContiguousRange` that of
`Verif.Util.Model`, `IsParameterBlockSetIndependent` that of `Verif.Inner.Model`, and the layout of
the Jacobian that of `Verif.Evaluator.Model`.  The libraries that compute fill reducing orderings
(CHOLMOD with AMD, CAMD and METIS; Eigen with AMD and METIS) and the algorithms of the standard
library are parameters.
-/
namespace Ceres.Reorder

open Ceres.Graph

variable {B R V : Type} [DecidableEq B] [DecidableEq V]

/-- What the parameter and residual blocks of a problem are.  Nothing of it changes here. -/
structure World (B R V : Type) where
  /-- `ResidualBlock::parameter_blocks()` -/
  args : R → List B
  /-- `ResidualBlock::NumResiduals()` -/
  numResiduals : R → ℕ
  /-- `ParameterBlock::IsConstant()` -/
  isConst : B → Bool
  /-- `ParameterBlock::TangentSize()` -/
  tangentSize : B → ℕ
  /-- `ParameterBlock::mutable_user_state()` -/
  user : B → V

/-- A `Program` (program.h:63-195): its parameter blocks and residual blocks, and `index()` of the
parameter blocks, `none` for `-1`. -/
structure Program (B R : Type) where
  blocks : List B
  residuals : List R
  index : B → Option ℕ

/-- `Program::SetParameterOffsetsAndIndex` (program.cc:144-162): the index becomes `-1` for the
blocks of all residual blocks (lines 145-151), then the number for the blocks of the program (lines
153-161).  Simplification: it becomes `-1` also for the blocks that no residual block of the program
uses; no one reads these.  The offsets are `Evaluator.Prog.offset`. -/
def Program.setIndex (p : Program B R) : Program B R :=
  { p with index := p.blocks.zipIdx.foldl (fun f q => Function.update f q.1 (some q.2)) fun _ => none }

/-! ## The block structure of the transposed Jacobian -/

/-- `TripletSparseMatrix`, as far as it is used here: the numbers of rows and columns, the arrays
(all values are `1.0`) with the `capacity` for which there is memory, and `num_nonzeros`. -/
structure Triplets where
  numRows : ℕ
  numCols : ℕ
  rows : ℕ → ℕ
  cols : ℕ → ℕ
  capacity : ℕ
  num : ℕ

/-- `TripletSparseMatrix::set_num_nonzeros` (triplet_sparse_matrix.cc:154-158); `none` is the failed
`CHECK`. -/
def Triplets.setNum (t : Triplets) (n : ℕ) : Option Triplets :=
  if n ≤ t.capacity then some { t with num := n } else none

/-- `TripletSparseMatrix::Reserve` (triplet_sparse_matrix.cc:123-147): the first `num_nonzeros` are
copied, the new memory is zero; `none` is the failed `CHECK`. -/
def Triplets.reserve (t : Triplets) (n : ℕ) : Option Triplets :=
  if t.num ≤ n then
    if n ≤ t.capacity then some t
    else some { t with
      rows := fun i => if i < t.num then t.rows i else 0
      cols := fun i => if i < t.num then t.cols i else 0
      capacity := n }
  else none

/-- "Re-size the matrix if needed" (program.cc:462-469) with `n` elements stored. -/
def makeRoom (t : Triplets) (n : ℕ) : Option Triplets :=
  if n ≥ t.capacity then (t.setNum n).bind fun t => t.reserve (2 * n) else some t

/-- One iteration of the inner loop of `CreateJacobianBlockSparsityTranspose` (program.cc:458-476).
The state is the matrix and `num_nonzeros`; `none` is a failed `CHECK`, a store outside the arrays,
or the index `-1` stored as a row. -/
def sparsityStep (isConst : B → Bool) (index : B → Option ℕ) (c : ℕ) (s : Triplets × ℕ) (b : B) :
    Option (Triplets × ℕ) :=
  if isConst b then some s
  else (makeRoom s.1 s.2).bind fun t => (index b).bind fun r =>
    if s.2 < t.capacity then
      some ({ t with rows := Function.update t.rows s.2 r, cols := Function.update t.cols s.2 c }, s.2 + 1)
    else none

/-- `Program::CreateJacobianBlockSparsityTranspose` (program.cc:438-481). -/
def sparsityTranspose (W : World B R V) (p : Program B R) (start : ℕ) : Option Triplets := do
  let s ← (p.residuals.drop start).zipIdx.foldlM
    (fun s r => (W.args r.1).foldlM (sparsityStep W.isConst p.index r.2) s)
    (⟨p.blocks.length, p.residuals.length - start, fun _ => 0, fun _ => 0,
      10 * (p.residuals.length - start), 0⟩, 0)
  s.1.setNum s.2

/-! ## The libraries -/

/-- `LinearSolverOrderingType` (types.h). -/
inductive OrderType
  | AMD
  | NESDIS
  deriving DecidableEq

/-- `SparseLinearAlgebraLibraryType` (types.h). -/
inductive SparseLib
  | SUITE_SPARSE
  | EIGEN_SPARSE
  | ACCELERATE_SPARSE
  | CUDA_SPARSE
  | NO_SPARSE
  deriving DecidableEq

/-- A square sparse matrix of integers as it is given to Eigen. -/
structure IntMat where
  size : ℕ
  entry : ℕ → ℕ → ℤ

/-- What is compiled in, and what the libraries return. -/
structure Library (B R : Type) where
  /-- not `CERES_NO_SUITESPARSE` -/
  suiteSparse : Bool
  /-- not `CERES_NO_CHOLMOD_PARTITION` -/
  nestedDissection : Bool
  /-- `CERES_USE_EIGEN_SPARSE` -/
  eigenSparse : Bool
  /-- `cholmod_amd` and `cholmod_nested_dissection` (suitesparse.cc:351-367), `none` if they fail -/
  cholmodOrder : OrderType → Triplets → Option (List ℕ)
  /-- `cholmod_camd` (suitesparse.cc:369-372), `none` if it fails -/
  camd : Triplets → List ℕ → Option (List ℕ)
  /-- `Eigen::AMDOrdering`, and `Eigen::MetisOrdering` or without it the identity
  (reorder_program.cc:193-207, 433-445) -/
  eigenOrder : OrderType → IntMat → List ℕ
  /-- `std::stable_sort` in `StableIndependentSetOrdering` -/
  stableSort : Graph.Graph B → List B → List B
  /-- `std::partition`: the rearranged sequence -/
  partition : (R → Bool) → List R → List R

/-- `CreateBlockJacobian` (reorder_program.cc:95-113): `setFromTriplets` adds up the ones. -/
def blockJacobian (t : Triplets) (i j : ℕ) : ℤ :=
  ((List.range t.num).map fun k => if t.cols k = i ∧ t.rows k = j then (1 : ℤ) else 0).sum

/-- `block_jacobian.transpose() * block_jacobian` (reorder_program.cc:190-191). -/
def blockHessian (t : Triplets) : IntMat where
  size := t.numRows
  entry i j := ((List.range t.numCols).map fun k => blockJacobian t k i * blockJacobian t k j).sum

/-- `F.transpose() * F - F.transpose() * E * E.transpose() * F` (reorder_program.cc:419-431) for `ne`
columns in `E`. -/
def blockSchur (t : Triplets) (ne : ℕ) : IntMat where
  size := t.numRows - ne
  entry i j :=
    ((List.range t.numCols).map fun k => blockJacobian t k (ne + i) * blockJacobian t k (ne + j)).sum -
    ((List.range ne).map fun e =>
      ((List.range t.numCols).map fun k => blockJacobian t k (ne + i) * blockJacobian t k e).sum *
      ((List.range t.numCols).map fun k => blockJacobian t k e * blockJacobian t k (ne + j)).sum).sum

/-- The elements `ordering` names; `none` is an access outside the vector
(reorder_program.cc:396-399, 613-616). -/
def permuted (blocks : List B) (ordering : List ℕ) : Option (List B) := ordering.mapM fun i => blocks[i]?

/-! ## Reordering -/

/-- How a reordering ends.  `aborted` is a failed `CHECK` or `LOG(FATAL)` or undefined behaviour. -/
inductive Outcome (α : Type)
  | failed
  | aborted
  | ok (a : α)

/-- Undefined behaviour or a failed `CHECK` where the model has `none`. -/
def Outcome.ofOption {α : Type} : Option α → Outcome α
  | none => .aborted
  | some a => .ok a

/-- The constraints of CAMD (reorder_program.cc:144-154, 372-384): the groups of the parameter
blocks, renumbered. -/
def constraintsOf (W : World B R V) (G : Groups V) (blocks : List B) : List ℕ :=
  Util.mapToContiguous (blocks.map fun b => G.groupId (W.user b))

/-- `ReorderSchurComplementColumnsUsingSuiteSparse` (reorder_program.cc:363-404).  The return value of
CAMD is not looked at; if it fails, `ordering` still has the zeros it was created with. -/
def schurColumnsSuiteSparse (W : World B R V) (L : Library B R) (G : Groups V) (p : Program B R) :
    Option (Program B R) :=
  if L.suiteSparse then do
    let t ← sparsityTranspose W p 0
    let ordering := (L.camd t (constraintsOf W G p.blocks)).getD (List.replicate p.blocks.length 0)
    let new ← permuted p.blocks ordering
    some { p with blocks := new }.setIndex
  else some p

/-- `ReorderSchurComplementColumnsUsingEigen` (reorder_program.cc:406-466). -/
def schurColumnsEigen (W : World B R V) (L : Library B R) (ot : OrderType) (ne : ℕ) (p : Program B R) :
    Option (Program B R) :=
  if L.eigenSparse then do
    let t ← sparsityTranspose W p 0
    let rest ← permuted (p.blocks.drop ne) (L.eigenOrder ot (blockSchur t ne))
    some { p with blocks := p.blocks.take ne ++ rest }.setIndex
  else some p

/-- The loop that puts the blocks found by `ComputeStableSchurOrdering` into the groups 0 and 1
(reorder_program.cc:503-508). -/
def markGroups (W : World B R V) (ord : List B) (k : ℕ) (G : Groups V) : Groups V :=
  ord.zipIdx.foldl (fun G q => (G.add (W.user q.1) (if q.2 < k then 0 else 1)).1) G

/-- What the orderings of `Verif.Graph` see of a program. -/
def Program.view (W : World B R V) (p : Program B R) : Graph.Prog B :=
  ⟨p.blocks, W.isConst, p.residuals.map W.args⟩

/-- The first part of `ReorderProgramForSchurTypeLinearSolver` (reorder_program.cc:476-539): the
parameter blocks, with the first elimination group in front. -/
def schurBlocks (W : World B R V) (L : Library B R) (known : V → Bool) (G : Groups V) (p : Program B R) :
    Outcome (Program B R × Groups V) :=
  if G.numElements ≠ p.blocks.length then .failed
  else if G.numGroups = 1 then
    match computeStableSchurOrdering L.stableSort (p.view W) with
    | none => .aborted
    | some (ord, k) =>
      if ord.length = p.blocks.length then .ok ({ p with blocks := ord }.setIndex, markGroups W ord k G)
      else .aborted
  else
    match G.groupToElements with
    | [] => .aborted
    | (_, first) :: _ =>
      if Inner.isSetIndependent (p.view W) W.user first then
        match applyOrdering known G W.user p.blocks with
        | .refused _ => .failed
        | .outOfBounds => .aborted
        | .done new => .ok ({ p with blocks := new }.setIndex, G)
      else .failed

/-- The size of the first group (reorder_program.cc:537-538); `none` if there is no group. -/
def firstGroupSize (G : Groups V) : Option ℕ := G.groupToElements.head?.map fun g => g.2.length

/-- `LexicographicallyOrderResidualBlocks` on a program (reorder_program.cc:278-359). -/
def lexOrder (W : World B R V) (ne : ℕ) (p : Program B R) : Option (Program B R) :=
  (lexicographicOrder ne (fun r => (W.args r).map fun b => ⟨W.isConst b, p.index b⟩) p.residuals).map
    fun rs => { p with residuals := rs }

/-- The reordering of the columns for SPARSE_SCHUR (reorder_program.cc:541-554). -/
def schurColumns (W : World B R V) (L : Library B R) (sparseSchur : Bool) (lib : SparseLib) (ot : OrderType)
    (G : Groups V) (ne : ℕ) (p : Program B R) : Option (Program B R) :=
  if sparseSchur then
    if lib = .SUITE_SPARSE ∧ ot = .AMD then schurColumnsSuiteSparse W L G p
    else if lib = .EIGEN_SPARSE then schurColumnsEigen W L ot ne p
    else some p
  else some p

/-- `ReorderProgramForSchurTypeLinearSolver` (reorder_program.cc:468-562).  `sparseSchur`: the linear
solver is SPARSE_SCHUR.  The result is the program, the ordering, which the function changes, and the
size of the first elimination group. -/
def reorderSchur (W : World B R V) (L : Library B R) (known : V → Bool) (sparseSchur : Bool) (lib : SparseLib)
    (ot : OrderType) (G : Groups V) (p : Program B R) : Outcome (Program B R × Groups V × ℕ) :=
  match schurBlocks W L known G p with
  | .failed => .failed
  | .aborted => .aborted
  | .ok (p, G) => .ofOption do
    let ne ← firstGroupSize G
    let p ← schurColumns W L sparseSchur lib ot G ne p
    let p ← lexOrder W ne p
    some (p, G, ne)

/-- `OrderingForSparseNormalCholeskyUsingSuiteSparse` (reorder_program.cc:115-170); the return values
of the library are not looked at. -/
def orderingSuiteSparse (W : World B R V) (L : Library B R) (ot : OrderType) (G : Groups V) (blocks : List B)
    (t : Triplets) : Option (List ℕ) :=
  let zeros := List.replicate blocks.length 0
  if !L.suiteSparse then none
  else match ot with
    | .AMD =>
      if G.numGroups ≤ 1 then some ((L.cholmodOrder .AMD t).getD zeros)
      else some ((L.camd t (constraintsOf W G blocks)).getD zeros)
    | .NESDIS => if L.nestedDissection then some ((L.cholmodOrder .NESDIS t).getD zeros) else none

/-- `ReorderProgramForSparseCholesky` (reorder_program.cc:564-621).  For a library that is none of the
four, `ordering` keeps its zeros. -/
def reorderCholesky (W : World B R V) (L : Library B R) (lib : SparseLib) (ot : OrderType) (G : Groups V)
    (start : ℕ) (p : Program B R) : Outcome (Program B R) :=
  if G.numElements ≠ p.blocks.length then .failed
  else .ofOption do
    let t ← sparsityTranspose W p start
    let apply (ordering : List ℕ) : Option (Program B R) :=
      (permuted p.blocks ordering).map fun new => { p with blocks := new }.setIndex
    match lib with
    | .SUITE_SPARSE => (orderingSuiteSparse W L ot G p.blocks t).bind apply
    | .ACCELERATE_SPARSE => some p
    | .CUDA_SPARSE => some p
    | .EIGEN_SPARSE => if L.eigenSparse then apply (L.eigenOrder ot (blockHessian t)) else none
    | .NO_SPARSE => apply (List.replicate p.blocks.length 0)

/-- `ReorderResidualBlocksByPartition` (reorder_program.cc:623-633): the residual blocks that are not
in the set come first; also returned is their number. -/
def partitionResiduals (L : Library B R) (bottom : R → Bool) (p : Program B R) : Program B R × ℕ :=
  ({ p with residuals := L.partition (fun r => !bottom r) p.residuals },
    (p.residuals.filter fun r => !bottom r).length)

/-- The linear solvers, as far as they matter here; `cgnr true` has the SUBSET preconditioner. -/
inductive Solver
  | schur (sparse : Bool)
  | sparseNormalCholesky (dynamicSparsity : Bool)
  | cgnr (subset : Bool)
  | other
  deriving DecidableEq

/-- What comes out of `ReorderProgram`: the program, the ordering, the number of parameter blocks to
eliminate (`num_eliminate_blocks`, trust_region_preprocessor.cc:271-277, and
`elimination_groups[0]`), and `subset_preconditioner_start_row_block`. -/
structure Prepared (B R V : Type) where
  program : Program B R
  ordering : Groups V
  numEliminate : ℕ
  startRowBlock : ℕ

/-- `CreateDefaultLinearSolverOrdering` (trust_region_preprocessor.cc:59-70). -/
def defaultOrdering (W : World B R V) (p : Program B R) : Groups V :=
  p.blocks.foldl (fun G b => (G.add (W.user b) 0).1) Groups.empty

/-- Mapping the result of a reordering. -/
def Outcome.map {α β : Type} (f : α → β) : Outcome α → Outcome β
  | .failed => .failed
  | .aborted => .aborted
  | .ok a => .ok (f a)

/-- `ReorderProgram` (trust_region_preprocessor.cc:114-155) after the choice of the ordering
(lines 164-191; `none` is a null pointer, and a given ordering is the one left after the removal of
the fixed blocks). -/
def reorderProgram (W : World B R V) (L : Library B R) (known : V → Bool) (solver : Solver) (lib : SparseLib)
    (ot : OrderType) (bottom : R → Bool) (given : Option (Groups V)) (p : Program B R) :
    Outcome (Prepared B R V) :=
  let G := given.getD (defaultOrdering W p)
  match solver with
  | .schur sparse => (reorderSchur W L known sparse lib ot G p).map fun r => ⟨r.1, r.2.1, r.2.2, 0⟩
  | .sparseNormalCholesky false => (reorderCholesky W L lib ot G 0 p).map fun p => ⟨p, G, 0, 0⟩
  | .cgnr true =>
    let q := partitionResiduals L bottom p
    (reorderCholesky W L lib ot G q.2 q.1).map fun p => ⟨p, G, 0, q.2⟩
  | _ => .ok ⟨p, G, 0, 0⟩

/-! ## The Jacobian -/

/-- The program as the writers of the Jacobian see it (program_evaluator.h:120-140): constant
arguments have no column. -/
def Program.toEval (W : World B R V) (p : Program B R) : Evaluator.Prog where
  sizes := p.blocks.map W.tangentSize
  residuals := p.residuals.map fun r =>
    ⟨W.numResiduals r, (W.args r).map fun b => if W.isConst b then none else p.index b⟩

/-- Blocks one after the other: `cursor` (block_jacobian_writer.cc:205-212) and `row_block_position`
(lines 217-225). -/
def laidFrom : ℕ → List ℕ → List BlockSparse.Block
  | _, [] => []
  | cursor, s :: l => ⟨s, cursor⟩ :: laidFrom (cursor + s) l

/-- The block structure that `BlockJacobianWriter::CreateJacobian` makes of the layout
(block_jacobian_writer.cc:199-259). -/
def structureOf (P : Evaluator.Prog) (ne : ℕ) : BlockSparse.BS where
  cols := laidFrom 0 P.sizes
  rows := (P.residuals.zipIdx.zip (laidFrom 0 (P.residuals.map Evaluator.RB.numResiduals))).map fun q =>
    ⟨q.2, (Evaluator.rowCells q.1.1 ((Evaluator.buildLayout P ne).getD q.1.2 fun _ => 0)).map fun c => ⟨c.1, c.2⟩, 0, 0⟩

/-- `BlockJacobianWriter::CreateJacobian` (block_jacobian_writer.cc:193-262): `none` if one of the
`CHECK`s on the parameter blocks fails (lines 207-208), if a row has not as many cells as variable
arguments (it is sized by `index() != -1`, lines 228-235, and filled by `!IsConstant()`, lines
238-250), or if a cell would get the column `-1`. -/
def createJacobian {K : Type} (W : World B R V) (ne : ℕ) (p : Program B R) (values : ℕ → K) :
    Option (BlockSparse.BMat K) :=
  if p.blocks.all (fun b => (p.index b).isSome && !W.isConst b) &&
      p.residuals.all (fun r => (W.args r).all fun b => W.isConst b || (p.index b).isSome) &&
      p.residuals.all (fun r => ((W.args r).filter fun b => (p.index b).isSome).length =
        ((W.args r).filter fun b => !W.isConst b).length)
  then some (BlockSparse.BMat.ofStructure (structureOf (p.toEval W) ne) values)
  else none

end Ceres.Reorder
