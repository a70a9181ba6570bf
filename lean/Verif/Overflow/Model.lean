import Verif.Evaluator.BlockLayout

/-!
# Jacobians that do not fit an int
(block_jacobian_writer.cc, compressed_row_jacobian_writer.cc, trust_region_preprocessor.cc, problem_impl.cc)

The functions that lay out a Jacobian, with the integers of the machine: `int` and `unsigned int` of 32 bits.
All values of type `int` here are at least 0, so only one that is too large is undefined.
-/
namespace Ceres.Overflow

open Ceres.Evaluator

/-- `std::numeric_limits<int>::max()`. -/
def intMax : ℕ := 2 ^ 31 - 1

/-- What a call may do: overflow of an `int` or a null pointer, a fatal error, an error that is returned, or a
result. -/
inductive Out (α : Type) where
  | undefined
  | aborts
  | refused
  | ok (a : α)

/-- One thing after the other. -/
def Out.bind {α β : Type} (o : Out α) (f : α → Out β) : Out β :=
  match o with
  | .undefined => .undefined
  | .aborts => .aborts
  | .refused => .refused
  | .ok a => f a

/-- `a * b` of two `int`s. -/
def mulInt (a b : ℕ) : Out ℕ := if a * b ≤ intMax then .ok (a * b) else .undefined

/-- `a + b` of two `int`s. -/
def addInt (a b : ℕ) : Out ℕ := if a + b ≤ intMax then .ok (a + b) else .undefined

/-- `a + b` of two `unsigned int`s. -/
def addUnsigned (a b : ℕ) : ℕ := (a + b) % 2 ^ 32

/-- `a - b` of two `unsigned int`s. -/
@[irreducible] def subUnsigned (a b : ℕ) : ℕ := (a + 2 ^ 32 - b) % 2 ^ 32

/-- `static_cast<int>` of an `unsigned int`. -/
def castInt (a : ℕ) : ℤ := if a ≤ intMax then a else (a : ℤ) - 2 ^ 32

/-! ## The block sparse writer -/

/-- The loop over the parameter blocks (block_jacobian_writer.cc:85-94): `num_jacobian_blocks` and
`f_block_pos`. -/
def countArgs (P : Prog) (numEliminate n : ℕ) : List (ℕ × ℕ) → ℕ → ℕ → Out (ℕ × ℕ)
  | [], blocks, f => .ok (blocks, f)
  | (i, _) :: l, blocks, f =>
    if i < numEliminate then
      (mulInt n (P.size i)).bind fun s => countArgs P numEliminate n l (addUnsigned blocks 1) (addUnsigned f s)
    else countArgs P numEliminate n l (addUnsigned blocks 1) f

/-- The first loop over the residual blocks (block_jacobian_writer.cc:80-100). -/
def countLoop (P : Prog) (numEliminate : ℕ) : List RB → ℕ → ℕ → Out (ℕ × ℕ)
  | [], blocks, f => .ok (blocks, f)
  | rb :: l, blocks, f =>
    (countArgs P numEliminate rb.numResiduals (activeArgs rb) blocks f).bind fun r =>
      if intMax < r.1 then .refused else countLoop P numEliminate l r.1 r.2

/-- The cells of a residual block (block_jacobian_writer.cc:145-163): the stores to `jacobian_pos`, `e_block_pos`
and `f_block_pos`. -/
def placeCells (P : Prog) (numEliminate n : ℕ) :
    List ((ℕ × ℕ) × ℕ) → ℕ → ℕ → Out (List (ℕ × ℤ) × ℕ × ℕ)
  | [], e, f => .ok ([], e, f)
  | ((i, _), k) :: l, e, f =>
    (mulInt n (P.size i)).bind fun s =>
      if i < numEliminate then
        (addInt e s).bind fun e' => (placeCells P numEliminate n l e' f).bind fun r => .ok ((k, (e : ℤ)) :: r.1, r.2)
      else if intMax < addUnsigned f s then .refused
      else (placeCells P numEliminate n l e (addUnsigned f s)).bind fun r => .ok ((k, castInt f) :: r.1, r.2)

/-- The second loop over the residual blocks (block_jacobian_writer.cc:110-165). -/
def layoutLoop (P : Prog) (numEliminate : ℕ) : List RB → ℕ → ℕ → Out (List (ℕ → ℤ))
  | [], _, _ => .ok []
  | rb :: l, e, f =>
    (placeCells P numEliminate rb.numResiduals (sortedActive rb) e f).bind fun r =>
      (layoutLoop P numEliminate l r.2.1 r.2.2).bind fun L => .ok (exec r.1 (fun _ => 0) :: L)

/-- `BuildJacobianLayout` (block_jacobian_writer.cc:68-167), on which `CreateJacobian` returns `nullptr` if it
returns false (199-203). -/
def buildLayout (P : Prog) (numEliminate : ℕ) : Out (List (ℕ → ℤ)) :=
  (countLoop P numEliminate P.residuals 0 0).bind fun r => layoutLoop P numEliminate P.residuals 0 r.2

/-! ## The compressed row writer -/

/-- The inner loop that counts (compressed_row_jacobian_writer.cc:106-117). -/
def nonzerosArgs (P : Prog) (n : ℕ) : List (ℕ × ℕ) → ℕ → Out ℕ
  | [], c => .ok c
  | (i, _) :: l, c =>
    (mulInt n (P.size i)).bind fun s =>
      if intMax < addUnsigned c s then .refused else nonzerosArgs P n l (addUnsigned c s)

/-- The loop that counts (compressed_row_jacobian_writer.cc:103-119). -/
def nonzerosLoop (P : Prog) : List RB → ℕ → Out ℕ
  | [], c => .ok c
  | rb :: l, c => (nonzerosArgs P rb.numResiduals (activeArgs rb) c).bind fun c => nonzerosLoop P l c

/-- The `int`s computed for a residual block (compressed_row_jacobian_writer.cc:142-193): `num_derivatives`, the
next `row_pos`, the elements of `rows`, and the places and values of the stores to `cols`. -/
def computed (P : Prog) (rb : RB) (rows' : ℕ → ℕ) (pos : ℕ) (stores : List (ℕ × ℕ)) : List ℕ :=
  [P.width rb, pos + rb.numResiduals] ++ (List.range rb.numResiduals).map (fun j => rows' (pos + j + 1)) ++
    stores.map Prod.fst ++ stores.map Prod.snd

/-- The loop that fills the structure (compressed_row_jacobian_writer.cc:135-194). -/
def createLoop (P : Prog) : List RB → (ℕ → ℕ) → (ℕ → ℕ) → ℕ → Out ((ℕ → ℕ) × (ℕ → ℕ) × ℕ)
  | [], rows, cols, pos => .ok (rows, cols, pos)
  | rb :: l, rows, cols, pos =>
    if hasAdjacent (sortedIndices rb) then .aborts
    else
      let rows' := setRows rows pos rb.numResiduals (P.width rb)
      let stores := blockStores P.size (fun r => rows' (pos + r)) rb.numResiduals
        (fun i _ _ c => P.offset i + c) 0 ((sortedIndices rb).map fun i => (i, 0))
      if (computed P rb rows' pos stores).all (· ≤ intMax) then
        createLoop P l rows' (exec stores cols) (pos + rb.numResiduals)
      else .undefined

/-- `CompressedRowJacobianWriter::CreateJacobian` (compressed_row_jacobian_writer.cc:91-201); `refused` is
`nullptr`.  The `CHECK_EQ` of lines 195-196 compares `unsigned int`s. -/
def createJacobian {α : Type} [Zero α] (P : Prog) : Out (CRS α) :=
  (nonzerosLoop P P.residuals P.sizes.sum).bind fun c =>
    (createLoop P P.residuals (fun _ => 0) (fun _ => 0) 0).bind fun r =>
      if subUnsigned c P.sizes.sum = r.1 P.numRows then .ok ⟨r.1, r.2.1, fun _ => 0⟩ else .aborts

/-! ## The callers -/

/-- `SetupMinimizerOptions` (trust_region_preprocessor.cc:349-354): `inl` is the error. -/
def setupMinimizer {J : Type} (created : Out J) : Out (String ⊕ J) :=
  match created with
  | .undefined => .undefined
  | .aborts => .aborts
  | .refused => .ok (.inl "Unable to create Jacobian matrix. Likely because it is too large.")
  | .ok J => .ok (.inr J)

/-- `Problem::Evaluate` with a Jacobian (problem_impl.cc:698-748): what it returns, and the structure of the
Jacobian if it is written.  `succeeds`: the evaluation does, which for a null pointer is one without Jacobian
(722-729).  `tmp_jacobian` is dereferenced on success without a test (741-743). -/
def evaluate {α : Type} [Zero α] (P : Prog) (succeeds : Bool) : Out (Bool × Option (CRS α)) :=
  match createJacobian P with
  | .undefined => .undefined
  | .aborts => .aborts
  | .refused => if succeeds then .undefined else .ok (false, none)
  | .ok M => .ok (succeeds, if succeeds then some M else none)

/-! ## Specification -/

/-- The number of stored entries of the Jacobian: a residual block has, for each of its variable parameter
blocks, a dense block. -/
def entries (P : Prog) : ℕ :=
  (P.residuals.map fun rb => ((activeArgs rb).map fun p => rb.numResiduals * P.size p.1).sum).sum

/-- What the theorems ask of a problem: it has as many residuals and tangent coordinates as an `int` can count,
no dense block has more entries than that, and no residual block more arguments; a residual block has residuals,
uses no variable block twice, and variable blocks have tangent coordinates. -/
structure Sane (P : Prog) : Prop where
  ok : P.Ok
  rows : P.numRows ≤ intMax
  cols : P.sizes.sum ≤ intMax
  block : ∀ rb ∈ P.residuals, ∀ p ∈ activeArgs rb, rb.numResiduals * P.size p.1 ≤ intMax
  args : ∀ rb ∈ P.residuals, rb.args.length ≤ intMax
  residuals : ∀ rb ∈ P.residuals, 0 < rb.numResiduals
  sizes : ∀ rb ∈ P.residuals, ∀ p ∈ activeArgs rb, 0 < P.size p.1

end Ceres.Overflow
