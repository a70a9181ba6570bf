import Verif.SchurJacobi.Model

/-!
# CGNR on flat storage and with threads

`cgnr_solver.cc` with its preconditioners `block_jacobi_preconditioner.cc` (`BlockSparseJacobiPreconditioner`),
`subset_preconditioner.cc` and `IdentityPreconditioner`.  The Jacobian is a `BlockSparseMatrix` in memory; loops are
programs on shared memory with mutexes as in `Verif.Tasks`, run on any number of threads; conjugate gradients are
those of `Verif.CG`.  Not modelled: the CUDA variant, rounding, the time at which a limit of time is reached.
-/

noncomputable section

namespace Ceres.Cgnr

open Matrix Ceres.Tasks Ceres.BlockSparse Ceres.Direct Ceres.InnerProduct
open Ceres.PartitionedView (Does layout diagPos gramOf onY setZero assign)
open Ceres.SchurJacobi (diagonal invert front extend)

/-- Loop bodies with the mutexes of the cells of a `BlockRandomAccessDiagonalMatrix`, by block. -/
abbrev Locked := Code Loc ℕ ℝ

/-! ## JACOBI -/

/-- One cell (block_jacobi_preconditioner.cc:72-90): `m += b'b` for the diagonal block `m` of its column block, under
the lock of `m`. -/
def jacobiCell (threads : ℕ) (bs d : BS) (r : BRow) (c : Cell) (k : Locked) : Locked :=
  let t := gramOf bs d 0 r c
  condLock threads c.blockId
    (readMat t.1.size t.2.1.size (valLoc t.2.2) fun A =>
      readMat t.1.size t.2.1.size (valLoc t.2.2) fun B =>
        adds (matEntries (Aᵀ * B) fun i j => .y (t.2.1.position + i * t.2.1.size + j))
          (condUnlock threads c.blockId k))

/-- The body of the loop over the row blocks (block_jacobi_preconditioner.cc:65-91). -/
def jacobiTask (threads : ℕ) (bs d : BS) (_tid i : ℕ) : Locked :=
  match bs.rows[i]? with
  | some r => r.cells.foldr (jacobiCell threads bs d r) .ret
  | none => .ret

/-- The body of the loop that adds the squares of `D` (block_jacobi_preconditioner.cc:93-111), which are the `x` of the
memory; no lock. -/
def squareTask (bs d : BS) (_tid i : ℕ) : Locked :=
  let b := bs.col i
  readVec b.size (fun k => .x (b.position + k)) fun D =>
    adds (vecEntries (fun k => D k ^ 2) fun k => .y (diagPos d i + k * b.size + k)) .ret

/-- `BlockSparseJacobiPreconditioner::UpdateImpl` (block_jacobi_preconditioner.cc:59-115): the values of `m_`, whose
array holds `old` before. -/
def jacobiUpdate (llt : (n : ℕ) → Matrix (Fin n) (Fin n) ℝ → Matrix (Fin n) (Fin n) ℝ) (threads : ℕ) (A : BMat ℝ)
    (D : Option Vec) (old : Vec) : Does Vec :=
  let d := diagonal A.bs.cols
  Does.bind (setZero threads (BMat.ofStructure d old).nnz old) fun v0 =>
  Does.bind (onY (ForRun (jacobiTask threads A.bs d) 0 A.bs.rows.length threads
    (PartitionedView.mem v0 v0 A.values))) fun v1 =>
  Does.bind (match D with
    | some D => onY (ForRun (squareTask A.bs d) 0 A.bs.cols.length threads (PartitionedView.mem D v1 v1))
    | none => fun o => o = some v1) fun v2 =>
  invert llt threads A.bs.cols v2

/-! ## The preconditioners between calls -/

/-- `preconditioner_type`; for SUBSET with `subset_preconditioner_start_row_block`. -/
inductive Prec where
  | identity
  | jacobi
  | subset (start : ℕ)

/-- What the preconditioner keeps between two calls: the values of `m_` of JACOBI; the inner product computer and the
factorisation of SUBSET (subset_preconditioner.h:85-88). -/
structure State (c : SparseChol) where
  values : Vec
  computer : Option (Computer ℝ)
  chol : c.State

/-- `SubsetPreconditioner::UpdateImpl` (subset_preconditioner.cc:70-117); `none`: a `CHECK` fails or row blocks that
are not there are read.  The matrix is changed and given back.  Whether the factorisation succeeds is returned, but
`CgnrSolver` does not look at it (cgnr_solver.cc:173).  As in SPARSE_NORMAL_CHOLESKY every call passes the same
object. -/
def subsetUpdate {c : SparseChol} (start : ℕ) (S : State c) (A : BMat ℝ) (D : Option Vec) (oldCols : ℕ → ℕ)
    (oldValues : Vec) : Option (State c × BMat ℝ) := do
  let A1 ← augment A D
  let C ← match S.computer with
    | some C => some C
    | none => create A1 start A1.bs.rows.length c.upper oldCols oldValues
  let C' ← C.compute A1
  some (⟨S.values, some C', (c.factorize S.chol C'.result).2⟩, restore D A1)

/-- `preconditioner_->Update(*A, D)` (cgnr_solver.cc:173): the preconditioner and the matrix. -/
def Update {c : SparseChol} (llt : (n : ℕ) → Matrix (Fin n) (Fin n) ℝ → Matrix (Fin n) (Fin n) ℝ) (threads : ℕ)
    (p : Prec) (S : State c) (A : BMat ℝ) (D : Option Vec) (o : Option (State c × BMat ℝ)) : Prop :=
  match p with
  | .identity => o = some (S, A)
  | .jacobi => ∃ v, jacobiUpdate llt threads A D S.values v ∧ o = v.map fun w => ({ S with values := w }, A)
  | .subset start => ∃ oldCols oldValues, o = subsetUpdate start S A D oldCols oldValues

/-- `RightMultiplyAndAccumulate` of the preconditioner (preconditioner.h:168-170,
block_random_access_diagonal_matrix.cc:104-119, subset_preconditioner.cc:62-68: SUBSET does not add to `y` but
overwrites it). -/
def apply {c : SparseChol} (threads : ℕ) (p : Prec) (S : State c) (A : BMat ℝ) (x y : Vec) : Does Vec :=
  match p with
  | .identity => fun o => o = some fun i => if i < A.numCols then y i + x i else y i
  | .jacobi => SchurJacobi.rightMultiply threads A.bs.cols S.values x y
  | .subset _ => fun o => o = some fun i => if i < A.numCols then (c.solve S.chol x).2 i else y i

/-! ## The linear operator -/

/-- One element of `y = y + D.square() * x` (cgnr_solver.cc:106-113). -/
def dtdTask (_tid i : ℕ) : Prog ℝ :=
  .read (.y i) fun a => .read (.val i) fun d => .read (.x i) fun b => .write (.y i) (a + d ^ 2 * b) .ret

/-- `CgnrLinearOperator::RightMultiplyAndAccumulate` (cgnr_solver.cc:98-114). -/
def normalMultiply (threads : ℕ) (A : BMat ℝ) (D : Option Vec) (x y : Vec) : Does Vec :=
  Does.bind (onY (RightRun A threads (memOf A x fun _ => 0))) fun z =>
  Does.bind (onY (LeftRun A threads (memOf A z y))) fun y1 =>
  match D with
  | some D => assign threads A.numCols dtdTask x y1 D
  | none => fun o => o = some y1

/-! ## The solver -/

/-- What `Solve` leaves. -/
structure Result (c : SparseChol) where
  state : State c
  A : BMat ℝ
  termination : CG.Term
  x : Vec

/-- `CgnrSolver::SolveImpl` (cgnr_solver.cc:146-207) on any number of threads; `none`: it does not return.  `lhs` and
`prec` are what the calls of the operator and of the preconditioner leave. -/
def Solve {c : SparseChol} (llt : (n : ℕ) → Matrix (Fin n) (Fin n) ℝ → Matrix (Fin n) (Fin n) ℝ) (o : CG.Options)
    (p : Prec) (threads : ℕ) (S : State c) (call : Call) (out : Option (Result c)) : Prop :=
  ∃ u, Update llt threads p S call.A call.D u ∧
    match u with
    | none => out = none
    | some (S', A) => ∃ r, onY (LeftRun A threads (memOf A call.b fun _ => 0)) r ∧
      match r with
      | none => out = none
      | some rhs =>
        (out = none ∧ ∃ x y, normalMultiply threads A call.D x y none ∨ apply threads p S' A x y none) ∨
        ∃ lhs prec : CG.Op A.numCols,
          (∀ x y, ∃ z, normalMultiply threads A call.D (extend x) (extend y) (some z) ∧ lhs x y = front _ z) ∧
          (∀ x y, ∃ z, apply threads p S' A (extend x) (extend y) (some z) ∧ prec x y = front _ z) ∧
          let s := CG.solver o lhs prec (front _ rhs) 0
          out = some ⟨S', A, s.termination, extend s.x⟩

/-- The preconditioner after some calls; the options of conjugate gradients may differ.  It is made in the first
call (cgnr_solver.cc:152-172), with an array that holds anything. -/
inductive After (c : SparseChol) (llt : (n : ℕ) → Matrix (Fin n) (Fin n) ℝ → Matrix (Fin n) (Fin n) ℝ) (p : Prec)
    (threads : ℕ) : List Call → State c → Prop where
  | nil (v : Vec) : After c llt p threads [] ⟨v, none, c.init⟩
  | snoc {calls : List Call} {S : State c} (o : CG.Options) (call : Call) (r : Result c) :
      After c llt p threads calls S → Solve llt o p threads S call (some r) →
      After c llt p threads (calls ++ [call]) r.state

end Ceres.Cgnr
