import Mathlib.LinearAlgebra.Matrix.PosDef
import Mathlib.LinearAlgebra.Matrix.NonsingularInverse
import Mathlib.Analysis.Real.Sqrt
import Mathlib.Data.Matrix.Mul

/-!
# Model of the conjugate gradients solver and of CGNR

`internal/ceres/conjugate_gradients_solver.h`, `internal/ceres/cgnr_solver.cc`,
`internal/ceres/preconditioner.h`, `internal/ceres/block_jacobi_preconditioner.cc`.

Doubles are real numbers: rounding, overflow to infinity and NaN are not modelled, so every
`std::isinf` test of the code is false.  The one division whose denominator can be zero,
`zeta = i * (Q1 - Q0) / Q1`, gets an arbitrary verdict there (`Options.zeroQVerdict`).
Messages, event logging, the context and the number of threads are not modelled; the four
scratch vectors are local values, because each is written before it is read.
-/

noncomputable section

namespace Ceres.CG

open Matrix

variable {m n : ℕ}

/-- A dense vector (`internal/eigen.h`, `Vector`). -/
abbrev Vec (n : ℕ) := Fin n → ℝ

/-- `Norm` (`eigen_vector_ops.h:46-62`). -/
def norm2 (v : Vec n) : ℝ := Real.sqrt (v ⬝ᵥ v)

/-- `Axpby(a, x, b, y, z)`: `z = a x + b y` (`eigen_vector_ops.h:66-74`). -/
def axpby (a : ℝ) (x : Vec n) (b : ℝ) (y : Vec n) : Vec n := a • x + b • y

/-- `ConjugateGradientsLinearOperator` (`conjugate_gradients_solver.h:52-59`, adapter `61-75`): what
`RightMultiplyAndAccumulate(x, y)` leaves in `y`. -/
abbrev Op (n : ℕ) := Vec n → Vec n → Vec n

/-- `LinearSolverTerminationType` (`linear_solver.h:57-74`), the values used here. -/
inductive Term where
  | success
  | noConvergence
  | failure
deriving DecidableEq, Repr

/-- `ConjugateGradientsSolverOptions` (`conjugate_gradients_solver.h:79-87`).
`zeroQVerdict i` is the outcome of `zeta < q_tolerance` in iteration `i` when `Q1 == 0`. -/
structure Options where
  minNumIterations : ℤ := 1
  maxNumIterations : ℤ := 1
  residualResetPeriod : ℤ := 10
  rTolerance : ℝ := 0
  qTolerance : ℝ := 0
  zeroQVerdict : ℕ → Bool := fun _ => false

/-- `LinearSolver::Summary` together with the solution vector the caller sees. -/
structure Summary (n : ℕ) where
  termination : Term
  numIterations : ℕ
  x : Vec n

/-- The loop variables of `ConjugateGradientsSolver`: `solution`, `r`, `p`, `rho`. -/
structure State (n : ℕ) where
  x : Vec n
  r : Vec n
  p : Vec n
  rho : ℝ

/-- What the body of the loop decides before it updates the solution. -/
inductive Pre (n : ℕ) where
  /-- `break` with this termination type -/
  | stop (t : Term)
  /-- go on with this direction `p`, `q = A p`, `rho` and `alpha` -/
  | go (p q : Vec n) (rho alpha : ℝ)

/-- The first half of the loop body (`conjugate_gradients_solver.h:162-217`), iteration `i`. -/
def pre (lhs prec : Op n) (i : ℕ) (s : State n) : Pre n :=
  let z := prec s.r 0
  let lastRho := s.rho
  let rho := s.r ⬝ᵥ z
  if rho = 0 then .stop .failure
  else
    let beta := rho / lastRho
    if i ≠ 1 ∧ beta = 0 then .stop .failure
    else
      let p := if i = 1 then z else axpby 1 z beta s.p
      let q := lhs p 0
      let pq := p ⬝ᵥ q
      if pq ≤ 0 then .stop .noConvergence
      else .go p q rho (rho / pq)

/-- The update of the solution and the residual (`conjugate_gradients_solver.h:219-243`). -/
def update (o : Options) (lhs : Op n) (b : Vec n) (i : ℕ) (s : State n)
    (p q : Vec n) (rho alpha : ℝ) : State n :=
  let x := axpby 1 s.x alpha p
  let r := if (i : ℤ) % o.residualResetPeriod = 0 then axpby 1 b (-1) (lhs x 0)
           else axpby 1 s.r (-alpha) q
  ⟨x, r, p, rho⟩

/-- `-solution.dot(rhs + r)` (`conjugate_gradients_solver.h:156-159`, `245-249`). -/
def quad (b x r : Vec n) : ℝ := -(x ⬝ᵥ axpby 1 b 1 r)

/-- `zeta < options.q_tolerance` (`conjugate_gradients_solver.h:273-274`). -/
def zetaTest (o : Options) (i : ℕ) (Q0 Q1 : ℝ) : Prop :=
  if Q1 = 0 then o.zeroQVerdict i = true else (i : ℝ) * (Q1 - Q0) / Q1 < o.qTolerance

open Classical in
/-- The loop (`conjugate_gradients_solver.h:161-305`) with at most `fuel` iterations, the next
one being number `i`.  `solver` supplies enough fuel (`loop_fuel`): running out of it is
never the reason to stop. -/
def loop (o : Options) (lhs prec : Op n) (b : Vec n) (tolR : ℝ) :
    ℕ → ℕ → State n → ℝ → Summary n
  | 0, i, s, _ => ⟨.noConvergence, i, s.x⟩
  | fuel + 1, i, s, Q0 =>
    match pre lhs prec i s with
    | .stop t => ⟨t, i, s.x⟩
    | .go p q rho alpha =>
      let s' := update o lhs b i s p q rho alpha
      let Q1 := quad b s'.x s'.r
      if zetaTest o i Q0 Q1 ∧ o.minNumIterations ≤ i then ⟨.success, i, s'.x⟩
      else if norm2 s'.r ≤ tolR ∧ o.minNumIterations ≤ i then ⟨.success, i, s'.x⟩
      else if o.maxNumIterations ≤ i then ⟨.noConvergence, i, s'.x⟩
      else loop o lhs prec b tolR fuel (i + 1) s' Q1

open Classical in
/-- `ConjugateGradientsSolver` (`conjugate_gradients_solver.h:108-306`), started from
`solution = x0`. -/
def solver (o : Options) (lhs prec : Op n) (b x0 : Vec n) : Summary n :=
  let normRhs := norm2 b
  if normRhs = 0 then ⟨.success, 0, 0⟩
  else
    let tolR := o.rTolerance * normRhs
    let r := axpby 1 b (-1) (lhs x0 0)
    if o.minNumIterations = 0 ∧ norm2 r ≤ tolR then ⟨.success, 0, x0⟩
    else loop o lhs prec b tolR (max 1 o.maxNumIterations.toNat) 1 ⟨x0, r, 0, 1⟩ (quad b x0 r)

/-! ## CGNR -/

/-- `CgnrLinearOperator::RightMultiplyAndAccumulate` (`cgnr_solver.cc:98-114`); `D = none` is
the null pointer. -/
def cgnrOp (A : Matrix (Fin m) (Fin n) ℝ) (D : Option (Vec n)) : Op n := fun x y =>
  let z := 0 + A *ᵥ x
  let y := y + Aᵀ *ᵥ z
  match D with
  | none => y
  | some D => y + fun j => D j ^ 2 * x j

/-- The preconditioners CGNR admits whose code is in the repository (`cgnr_solver.cc:125-135`);
`SUBSET` factors a matrix with a third party library and is not modelled.  `JACOBI` carries
the map from a column to its column block. -/
inductive PrecType (n : ℕ) where
  | identity
  | jacobi (blk : Fin n → ℕ)

/-- `BlockSparseJacobiPreconditioner::UpdateImpl` up to the inversion
(`block_jacobi_preconditioner.cc:59-111`): row by row, the outer product of every cell with
itself is added to the diagonal block of the cell's column block, then `D²` is added to the
diagonal.  The rows of a row block are added one after the other; entries outside the cells
are zero. -/
def jacobiBlocks (A : Matrix (Fin m) (Fin n) ℝ) (D : Option (Vec n)) (blk : Fin n → ℕ) :
    Matrix (Fin n) (Fin n) ℝ :=
  let M := (List.finRange m).foldl
    (fun (M : Matrix (Fin n) (Fin n) ℝ) r =>
      M + Matrix.of fun i j => if blk i = blk j then A r i * A r j else 0) 0
  match D with
  | none => M
  | some D => M + Matrix.of fun i j => if i = j then D i ^ 2 else 0

/-- `Preconditioner::RightMultiplyAndAccumulate` of the identity (`preconditioner.h:160-175`)
and of the block Jacobi preconditioner after `m_->Invert()`
(`block_jacobi_preconditioner.cc:113`, `block_random_access_diagonal_matrix.cc`: the blocks are inverted and applied one by one). -/
def precOp (A : Matrix (Fin m) (Fin n) ℝ) (D : Option (Vec n)) : PrecType n → Op n
  | .identity => fun x y => y + x
  | .jacobi blk => fun x y => y + (jacobiBlocks A D blk)⁻¹ *ᵥ x

/-- `CgnrSolver::SolveImpl` (`cgnr_solver.cc:146-207`). -/
def cgnrSolve (o : Options) (t : PrecType n) (A : Matrix (Fin m) (Fin n) ℝ) (b : Vec m)
    (D : Option (Vec n)) : Summary n :=
  solver o (cgnrOp A D) (precOp A D t) (0 + Aᵀ *ᵥ b) 0

end Ceres.CG
