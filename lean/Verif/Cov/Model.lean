import Verif.Sparse.Triangular
import Verif.Util.Model
import Mathlib.Data.List.Sort
import Mathlib.Data.Real.Sqrt

/-!
# `Covariance` (covariance_impl.cc)

The sparsity of the part of the covariance matrix the user asks for, its values, and the reading
of blocks out of it.  Addresses of parameter blocks are natural numbers, compared the way pointers
are.  A double is an element of a field `K`; rounding is not modelled.
-/
namespace Ceres.Cov

/-- What this file needs of a `ParameterBlock` (parameter_block.h:54-369).  `used`: some residual
block depends on it (covariance_impl.cc:377-381).  `plusJacobian`: none if the block has no
manifold, otherwise what `Manifold::PlusJacobian` writes for the value the user's memory holds
(covariance_impl.cc:249, 260; the Boolean it returns is ignored there). -/
structure Block (K : Type) where
  size : ℕ
  tangent : ℕ
  setConstant : Bool
  used : Bool
  plusJacobian : Option (ℕ → ℕ → K)

/-- The problem: `Problem::GetParameterBlocks` and the block behind each address. -/
structure Prob (K : Type) where
  ptrs : List ℕ
  block : ℕ → Block K

/-- Ways to leave a function other than by returning. -/
inductive Abort where
  /-- `CheckForDuplicates` (covariance_impl.cc:100). -/
  | duplicates
  /-- `FindOrDie`. -/
  | unknownBlock
  /-- The two `CHECK`s (covariance_impl.cc:137-141, 284-288). -/
  | notComputed
  /-- `covariance_matrix_` is null and dereferenced (covariance_impl.cc:179). -/
  | nullMatrix
  /-- An array is accessed beyond its end. -/
  | outOfBounds
  /-- The maximum of an empty range is read (covariance_impl.cc:310-311), or the first singular
  value of a matrix that has none (745). -/
  | empty
  /-- Not an end of the execution: the computation goes on with values that are not finite, which
  this model does not follow. -/
  | notFinite
deriving DecidableEq

section
variable {K : Type}

/-- `ParameterBlock::TangentSize` of the block at an address. -/
def Prob.tangent (P : Prob K) (p : ℕ) : ℕ := (P.block p).tangent

/-- `ParameterBlock::IsConstant` (parameter_block.h:121). -/
def Block.isConstant (b : Block K) : Bool := b.setConstant || b.tangent == 0

/-- The test that makes a block active (covariance_impl.cc:389). -/
def Prob.isActive (P : Prob K) (p : ℕ) : Bool := !(P.block p).isConstant && (P.block p).used

/-- `constant_parameter_blocks_` (covariance_impl.cc:383, 392). -/
def Prob.constants (P : Prob K) : List ℕ := P.ptrs.filter fun p => !P.isActive p

/-- `active_parameter_blocks`, sorted by address (covariance_impl.cc:386-396). -/
def Prob.active (P : Prob K) : List ℕ := (P.ptrs.filter P.isActive).insertionSort (· ≤ ·)

/-- `parameter_block_to_row_index_` and `num_rows` (covariance_impl.cc:401-408); a `std::map`, so
that iterating over it (467) goes through the sorted addresses again. -/
def indexRows (P : Prob K) : List ℕ → ℕ → List (ℕ × ℕ)
  | [], _ => []
  | p :: ps, n => (p, n) :: indexRows P ps (n + P.tangent p)

/-- `num_rows` after the loop. -/
def numRows (P : Prob K) : List ℕ → ℕ → ℕ
  | [], n => n
  | p :: ps, n => numRows P ps (n + P.tangent p)

/-- `FindOrDie(parameter_block_to_row_index_, p)`. -/
def findRow (index : List (ℕ × ℕ)) (p : ℕ) : Except Abort ℕ :=
  match index.lookup p with
  | none => .error .unknownBlock
  | some n => .ok n

/-- `FindOrDie(problem_->parameter_map(), p)`. -/
def Prob.find (P : Prob K) (p : ℕ) : Except Abort (Block K) :=
  if p ∈ P.ptrs then .ok (P.block p) else .error .unknownBlock

/-- The loop over the pairs of the user (covariance_impl.cc:413-434): the number of entries and
the pairs turned so that the block with the smaller row comes first. -/
def flipPairs (P : Prob K) (index : List (ℕ × ℕ)) :
    List (ℕ × ℕ) → Except Abort (ℕ × List (ℕ × ℕ))
  | [] => .ok (0, [])
  | q :: qs =>
    if P.constants.contains q.1 || P.constants.contains q.2 then flipPairs P index qs
    else do
      let index1 ← findRow index q.1
      let index2 ← findRow index q.2
      let (n, rest) ← flipPairs P index qs
      .ok (P.tangent q.1 * P.tangent q.2 + n, (if index1 > index2 then (q.2, q.1) else q) :: rest)

/-- `operator<` of pairs, not strict (covariance_impl.cc:445). -/
def pairLe (a b : ℕ × ℕ) : Prop := a.1 < b.1 ∨ (a.1 = b.1 ∧ a.2 ≤ b.2)

instance : DecidableRel pairLe := fun a b => by unfold pairLe; infer_instance

/-- The columns of one row of a row block (covariance_impl.cc:486-494). -/
def rowCols (P : Prob K) (index : List (ℕ × ℕ)) : List (ℕ × ℕ) → Except Abort (List ℕ)
  | [] => .ok []
  | q :: qs => do
    let colBegin ← findRow index q.2
    let rest ← rowCols P index qs
    .ok (List.range' colBegin (P.tangent q.2) ++ rest)

/-- All rows of one row block (covariance_impl.cc:484-495).  `cols` is what has been written, its
length is `cursor`. -/
def fillBlock (P : Prob K) (index mine : List (ℕ × ℕ)) (rowBegin : ℕ) :
    List ℕ → (ℕ → ℕ) → List ℕ → Except Abort ((ℕ → ℕ) × List ℕ)
  | [], rows, cols => .ok (rows, cols)
  | r :: rs, rows, cols => do
    let cs ← rowCols P index mine
    fillBlock P index mine rowBegin rs (Function.update rows (rowBegin + r) cols.length)
      (cols ++ cs)

/-- The loop over the row blocks (covariance_impl.cc:465-498); `rest` are the pairs from index `i`
on. -/
def fill (P : Prob K) (index : List (ℕ × ℕ)) :
    List (ℕ × ℕ) → List (ℕ × ℕ) → (ℕ → ℕ) → List ℕ → Except Abort ((ℕ → ℕ) × List ℕ)
  | [], _, rows, cols => .ok (rows, cols)
  | (rowBlock, rowBegin) :: es, rest, rows, cols => do
    let mine := rest.takeWhile fun q => q.1 = rowBlock
    let (rows, cols) ← fillBlock P index mine rowBegin (List.range (P.tangent rowBlock)) rows cols
    fill P index es (rest.drop mine.length) rows cols

/-- A `CompressedRowSparseMatrix`; the vectors `cols_` and `values_` have the length given to the
constructor (compressed_row_sparse_matrix.cc:165-180). -/
structure Csr where
  numRows : ℕ
  rows : ℕ → ℕ
  cols : List ℕ

/-- What `ComputeCovarianceSparsity` leaves in the object. -/
structure Sparsity where
  constants : List ℕ
  active : List ℕ
  index : List (ℕ × ℕ)
  matrix : Option Csr

/-- `CovarianceImpl::ComputeCovarianceSparsity` (covariance_impl.cc:364-502). -/
def sparsity (P : Prob K) (pairs : List (ℕ × ℕ)) : Except Abort Sparsity := do
  let index := indexRows P P.active 0
  let n := numRows P P.active 0
  let (nonzeros, blocks) ← flipPairs P index pairs
  if blocks = [] then .ok ⟨P.constants, P.active, index, none⟩
  else
    let (rows, cols) ← fill P index index (blocks.insertionSort pairLe) (fun _ => 0) []
    if nonzeros < cols.length then .error .outOfBounds
    else
      .ok ⟨P.constants, P.active, index,
        some ⟨n, Function.update rows n cols.length,
          cols ++ List.replicate (nonzeros - cols.length) 0⟩⟩

/-! ### Values -/

/-- The Jacobian `Problem::Evaluate` returns for the active blocks, in the order of
`active_parameter_blocks` (problem_impl.cc:586-748).  Its compressed row form is not modelled
here. -/
structure Jac (K : Type) where
  numRows : ℕ
  numCols : ℕ
  entry : ℕ → ℕ → K

/-- The variable `jacobian` after `problem_->Evaluate(...)`, whose Boolean is ignored
(covariance_impl.cc:549-550, 716-717, 812-813): `Evaluate` leaves it alone if it fails
(problem_impl.cc:736-743), and then it is the empty matrix (crs_matrix.h:46-47). -/
def evaluated [Zero K] (e : Option (Jac K)) : Jac K := e.getD ⟨0, 0, fun _ _ => 0⟩

/-- The inner loop of all three algorithms: the entries of one row
(covariance_impl.cc:688-691, 795-798, 886-889). -/
def copyRow (m : Csr) (f : ℕ → ℕ → K) (r : ℕ) (values : ℕ → K) : ℕ → K :=
  (List.range' (m.rows r) (m.rows (r + 1) - m.rows r)).foldl
    (fun v idx => Function.update v idx (f r (m.cols.getD idx 0))) values

/-- The loop over the rows in some order (covariance_impl.cc:675-693, 794-799, 871-891).  In the
parallel loops every iteration writes the entries of its own row only, so that the schedules
differ in the order of the rows only. -/
def copyRows [Zero K] (m : Csr) (f : ℕ → ℕ → K) (order : List ℕ) : ℕ → K :=
  order.foldl (fun v r => copyRow m f r v) fun _ => 0

/-- What the sparse QR factorisations return: `R` in compressed columns, the column permutation if
there is one, and their estimate of the rank. -/
structure Factor (K : Type) where
  R : Sparse.Mat K
  permutation : Option (ℕ → ℕ)
  rank : ℕ

/-- `inverse_permutation` (covariance_impl.cc:647-656, 854-855). -/
def inversePermutation (n : ℕ) : Option (ℕ → ℕ) → ℕ → ℕ
  | none => (List.range n).foldl (fun v i => Function.update v i i) fun _ => 0
  | some p => (List.range n).foldl (fun v i => Function.update v (p i) i) fun _ => 0

/-- An algorithm of `ComputeCovarianceValues` (covariance_impl.cc:504-537): false if the options
name none that exists in this build, otherwise how the values are computed. -/
structure Algorithm (K : Type) where
  supported : Bool
  values : Csr → Except Abort (Option (ℕ → K))

/-- `ComputeCovarianceValuesUsingSuiteSparseQR` and `…UsingEigenSparseQR`
(covariance_impl.cc:539-706, 804-896).  `factorize` is the factorisation, none if it fails;
`order` the order in which the rows are computed. -/
def sparseQR [Field K] (evaluate : Option (Jac K)) (factorize : Jac K → Option (Factor K))
    (order : List ℕ) : Algorithm K where
  supported := true
  values m :=
    let J := evaluated evaluate
    match factorize J with
    | none => .ok none
    | some F =>
      if F.rank < J.numCols then .ok none
      else
        let inv := inversePermutation J.numCols F.permutation
        .ok (some (copyRows m (fun r c => Sparse.solveRTR J.numCols F.R (inv r) (inv c)) order))

end

/-- A thin singular value decomposition: `num` singular values in decreasing order and the matrix
`V`. -/
structure Svd where
  num : ℕ
  sigma : ℕ → ℝ
  V : ℕ → ℕ → ℝ

/-- `min_reciprocal_condition_number` and `null_space_rank` (covariance.h:294, 329). -/
structure SvdOpts where
  minReciprocal : ℝ
  nullSpaceRank : ℤ

/-- How the loop over the singular values ends. -/
inductive Truncation where
  | refused
  | notFinite
  | kept (inv : ℕ → ℝ)

open Classical in
/-- The loop at covariance_impl.cc:758-782 over the indices of the list.  If all singular values
vanish the quotient is not a number and the comparison is false. -/
noncomputable def truncate (o : SvdOpts) (S : Svd) : List ℕ → (ℕ → ℝ) → Truncation
  | [], inv => .kept inv
  | i :: is, inv =>
    if S.sigma 0 ≠ 0 ∧ S.sigma i / S.sigma 0 < Real.sqrt o.minReciprocal then
      if o.nullSpaceRank < 0 then .kept inv else .refused
    else if S.sigma i * S.sigma i = 0 then .notFinite
    else truncate o S is (Function.update inv i (1 / (S.sigma i * S.sigma i)))

/-- `max_rank` (covariance_impl.cc:750-751). -/
def maxRank (o : SvdOpts) (S : Svd) : ℤ := min (S.num : ℤ) ((S.num : ℤ) - o.nullSpaceRank)

/-- `dense_covariance` (covariance_impl.cc:784-786). -/
noncomputable def denseCovariance (S : Svd) (inv : ℕ → ℝ) (r c : ℕ) : ℝ :=
  ∑ i ∈ Finset.range S.num, S.V r i * inv i * S.V c i

/-- `ComputeCovarianceValuesUsingDenseSVD` (covariance_impl.cc:708-802). -/
noncomputable def denseSVD (o : SvdOpts) (evaluate : Option (Jac ℝ)) (svd : Jac ℝ → Svd) :
    Algorithm ℝ where
  supported := true
  values m :=
    let S := svd (evaluated evaluate)
    if S.num = 0 then .error .empty
    else match truncate o S (List.range (maxRank o S).toNat) fun _ => 0 with
      | .refused => .ok none
      | .notFinite => .error .notFinite
      | .kept inv => .ok (some (copyRows m (denseCovariance S inv) (List.range m.numRows)))

section
variable {K : Type}

/-- The object after `Compute` has run. -/
structure State (K : Type) where
  sparsity : Sparsity
  valid : Bool
  values : ℕ → K

/-- `CovarianceImpl::Compute` for pairs (covariance_impl.cc:105-116). -/
def compute [Zero K] (P : Prob K) (A : Algorithm K) (pairs : List (ℕ × ℕ)) :
    Except Abort (State K) :=
  if ¬pairs.Nodup then .error .duplicates
  else do
    let s ← sparsity P pairs
    if !A.supported then .ok ⟨s, false, fun _ => 0⟩
    else match s.matrix with
      | none => .ok ⟨s, true, fun _ => 0⟩
      | some m => match ← A.values m with
        | none => .ok ⟨s, false, fun _ => 0⟩
        | some v => .ok ⟨s, true, v⟩

/-- The pairs of the other overload (covariance_impl.cc:121-127). -/
def allPairs : List ℕ → List (ℕ × ℕ)
  | [] => []
  | p :: ps => (p :: ps).map (fun q => (p, q)) ++ allPairs ps

/-- `CovarianceImpl::Compute` for parameter blocks (covariance_impl.cc:118-130). -/
def computeBlocks [Zero K] (P : Prob K) (A : Algorithm K) (blocks : List ℕ) :
    Except Abort (State K) :=
  if ¬blocks.Nodup then .error .duplicates else compute P A (allPairs blocks)

/-! ### Reading -/

/-- `MatrixRef(buf, r, c) = M`, row-major. -/
def writeMat (buf : ℕ → K) (r c : ℕ) (M : ℕ → ℕ → K) : ℕ → K :=
  fun k => if k < r * c then M (k / c) (k % c) else buf k

/-- The search for the first column (covariance_impl.cc:187-190); the first argument is
`row_size - offset`. The entry is read before `offset` is compared with `row_size`. -/
def findOffset (cols : List ℕ) (start target : ℕ) : ℕ → ℕ → Except Abort ℕ
  | 0, offset =>
    match cols[start + offset]? with
    | none => .error .outOfBounds
    | some _ => .ok offset
  | n + 1, offset =>
    match cols[start + offset]? with
    | none => .error .outOfBounds
    | some c => if c ≠ target then findOffset cols start target n (offset + 1) else .ok offset

/-- Product of matrices. -/
def mul [AddCommMonoid K] [Mul K] (n : ℕ) (A B : ℕ → ℕ → K) : ℕ → ℕ → K :=
  fun i j => ∑ k ∈ Finset.range n, A i k * B k j

/-- Transpose of a matrix. -/
def tr (A : ℕ → ℕ → K) : ℕ → ℕ → K := fun i j => A j i

/-- `block1_jacobian`, `block2_jacobian` (covariance_impl.cc:245-262). -/
def Block.jacobian [Zero K] [One K] (b : Block K) : ℕ → ℕ → K :=
  match b.plusJacobian with
  | none => fun i j => if i = j then 1 else 0
  | some J => J

/-- `CovarianceImpl::GetCovarianceBlockInTangentOrAmbientSpace` (covariance_impl.cc:132-278). -/
def getBlock [Field K] (P : Prob K) (st : State K) (original1 original2 : ℕ) (lift : Bool)
    (buf : ℕ → K) : Except Abort (Bool × (ℕ → K)) :=
  if !st.valid then .error .notComputed
  else if st.sparsity.constants.contains original1 || st.sparsity.constants.contains original2 then do
    let block1 ← P.find original1
    let block2 ← P.find original2
    if !lift then .ok (true, writeMat buf block1.tangent block2.tangent fun _ _ => 0)
    else .ok (true, writeMat buf block1.size block2.size fun _ _ => 0)
  else do
    let transpose := decide (original1 > original2)
    let p1 := if transpose then original2 else original1
    let p2 := if transpose then original1 else original2
    let rowBegin ← findRow st.sparsity.index p1
    let colBegin ← findRow st.sparsity.index p2
    match st.sparsity.matrix with
    | none => .error .nullMatrix
    | some m => do
      let start := m.rows rowBegin
      let rowSize := m.rows (rowBegin + 1) - start
      let offset ← findOffset m.cols start colBegin rowSize 0
      if offset = rowSize then .ok (false, buf)
      else do
        let block1 ← P.find p1
        let block2 ← P.find p2
        let cov : ℕ → ℕ → K := fun i j => st.values (start + (i * rowSize + (offset + j)))
        if (block1.plusJacobian.isNone && block2.plusJacobian.isNone) || !lift then
          if transpose then .ok (true, writeMat buf block2.tangent block1.tangent (tr cov))
          else .ok (true, writeMat buf block1.tangent block2.tangent cov)
        else
          let J1 := block1.jacobian
          let J2 := if p1 = p2 then J1 else block2.jacobian
          if transpose then
            .ok (true, writeMat buf block2.size block1.size
              (mul block1.tangent (mul block2.tangent J2 (tr cov)) (tr J1)))
          else
            .ok (true, writeMat buf block1.size block2.size
              (mul block2.tangent (mul block1.tangent J1 cov) (tr J2)))

/-- `covariance.block(r0, c0, h, w) = M` in an `n × n` row-major matrix. -/
def writeBlock (n : ℕ) (buf : ℕ → K) (r0 c0 h w : ℕ) (M : ℕ → ℕ → K) : ℕ → K :=
  fun x => if x < n * n ∧ r0 ≤ x / n ∧ x / n < r0 + h ∧ c0 ≤ x % n ∧ x % n < c0 + w then
    M (x / n - r0) (x % n - c0) else buf x

/-- `parameter_sizes` (covariance_impl.cc:298-306). -/
def paramSizes (P : Prob K) (lift : Bool) : List ℕ → Except Abort (List ℕ)
  | [] => .ok []
  | p :: ps => do
    let b ← P.find p
    let rest ← paramSizes P lift ps
    .ok ((if lift then b.size else b.tangent) :: rest)

/-- One iteration of the parallel loop (covariance_impl.cc:330-358): `ws` is what the workspace of
the thread holds when it starts. -/
def matrixStep [Field K] (P : Prob K) (st : State K) (lift : Bool) (params sizes : List ℕ)
    (ws : ℕ → ℕ → K) (s : Bool × (ℕ → K)) (k : ℕ) : Except Abort (Bool × (ℕ → K)) := do
  let n := sizes.sum
  let (i, j) := Util.linearToUpper k params.length
  let (ok, cb) ← getBlock P st (params.getD i 0) (params.getD j 0) lift (ws k)
  let si := sizes.getD i 0
  let sj := sizes.getD j 0
  let ri := (sizes.take i).sum
  let cj := (sizes.take j).sum
  let M : ℕ → ℕ → K := fun a b => cb (a * sj + b)
  let buf := writeBlock n s.2 ri cj si sj M
  let buf := if i ≠ j then writeBlock n buf cj ri sj si (tr M) else buf
  .ok (s.1 && ok, buf)

/-- `CovarianceImpl::GetCovarianceMatrixInTangentOrAmbientSpace` (covariance_impl.cc:280-360).
The iterations of the parallel loop happen in the order `order`: each works in the workspace of
its thread and writes cells of the result no other writes, so that schedules differ in the order
only. -/
def getMatrix [Field K] (P : Prob K) (st : State K) (params : List ℕ) (lift : Bool)
    (ws : ℕ → ℕ → K) (order : List ℕ) (buf : ℕ → K) : Except Abort (Bool × (ℕ → K)) := do
  if !st.valid then .error .notComputed
  else
    let sizes ← paramSizes P lift params
    if params = [] then .error .empty
    else order.foldlM (matrixStep P st lift params sizes ws) (true, buf)

end

end Ceres.Cov
