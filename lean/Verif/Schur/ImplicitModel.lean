import Verif.CG.Cgnr

/-!
# Model of the implicit Schur complement and of ITERATIVE_SCHUR

`internal/ceres/implicit_schur_complement.cc`, `internal/ceres/iterative_schur_complement_solver.cc`,
`internal/ceres/power_series_expansion_preconditioner.cc`.

The Jacobian is `[E F]`; the products with `E` and `F` of `PartitionedMatrixView` are matrix
products.  `be` and `bf` give the block of a column.  `ParallelSetZero`, `ParallelAssign` write
the same values as the sequential loops.  Doubles are reals.
-/

noncomputable section

namespace Ceres.Schur

open Matrix Ceres.CG

variable {m p q : ℕ}

/-- The arguments of `ImplicitSchurComplement::Init` (`implicit_schur_complement.cc:49-97`): the
partitioned Jacobian, `D` cut at `num_cols_e` and the right hand side. -/
structure Sys (m p q : ℕ) where
  E : Matrix (Fin m) (Fin p) ℝ
  F : Matrix (Fin m) (Fin q) ℝ
  b : Vec m
  De : Option (Vec p)
  Df : Option (Vec q)
  be : Fin p → ℕ
  bf : Fin q → ℕ

/-- `CreateBlockDiagonalEtE`/`FtF` then `AddDiagonalAndInvert`
(`implicit_schur_complement.cc:66-93`, `179-204`): only the products within a block are kept. -/
def blockInverse {n : ℕ} (A : Matrix (Fin m) (Fin n) ℝ) (D : Option (Vec n)) (blk : Fin n → ℕ) :
    Matrix (Fin n) (Fin n) ℝ :=
  let M : Matrix (Fin n) (Fin n) ℝ :=
    Matrix.of fun i j => if blk i = blk j then (Aᵀ * A) i j else 0
  let M := match D with
    | none => M
    | some D => M + Matrix.diagonal fun i => D i ^ 2
  M⁻¹

/-- `block_diagonal_EtE_inverse_`. -/
def Sys.eteInv (s : Sys m p q) : Matrix (Fin p) (Fin p) ℝ := blockInverse s.E s.De s.be

/-- `block_diagonal_FtF_inverse_`. -/
def Sys.ftfInv (s : Sys m p q) : Matrix (Fin q) (Fin q) ℝ := blockInverse s.F s.Df s.bf

/-- `ImplicitSchurComplement::RightMultiplyAndAccumulate`
(`implicit_schur_complement.cc:106-144`).  In spite of its name it overwrites `y`. -/
def Sys.rightMultiply (s : Sys m p q) : Op q := fun x _y =>
  let y1 := 0 + s.F *ᵥ x
  let y2 := 0 + s.Eᵀ *ᵥ y1
  let y3 := 0 + s.eteInv *ᵥ y2
  let y3 := -y3
  let y1 := y1 + s.E *ᵥ y3
  let y : Vec q := match s.Df with
    | some D => fun j => D j ^ 2 * x j
    | none => 0
  y + s.Fᵀ *ᵥ y1

/-- `UpdateRhs` (`implicit_schur_complement.cc:251-276`). -/
def Sys.rhs (s : Sys m p q) : Vec q :=
  let y1 := 0 + s.Eᵀ *ᵥ s.b
  let y2 := 0 + s.eteInv *ᵥ y1
  let y3 := 0 + s.E *ᵥ y2
  let y3 := s.b - y3
  0 + s.Fᵀ *ᵥ y3

/-- `BackSubstitute` (`implicit_schur_complement.cc:208-243`): the e and the f part. -/
def Sys.backSubstitute (s : Sys m p q) (x : Vec q) : Vec p × Vec q :=
  let y1 := 0 + s.F *ᵥ x
  let y2 := s.b - y1
  let y3 := 0 + s.Eᵀ *ᵥ y2
  (0 + s.eteInv *ᵥ y3, x)

/-- `InversePowerSeriesOperatorRightMultiplyAccumulate`
(`implicit_schur_complement.cc:146-174`). -/
def Sys.powerOp (s : Sys m p q) : Op q := fun x y =>
  let y1 := 0 + s.F *ᵥ x
  let y2 := 0 + s.Eᵀ *ᵥ y1
  let y3 := 0 + s.eteInv *ᵥ y2
  let y1 := 0 + s.E *ᵥ y3
  let y4 := 0 + s.Fᵀ *ᵥ y1
  y + s.ftfInv *ᵥ y4

open Classical in
/-- The loop of `PowerSeriesExpansionPreconditioner::RightMultiplyAndAccumulate`
(`power_series_expansion_preconditioner.cc:71-81`); `fuel` is the number of passes left. -/
def Sys.seriesLoop (s : Sys m p q) (maxIterations : ℤ) (threshold : ℝ) :
    ℕ → ℕ → Vec q → Vec q → Vec q
  | 0, _, _, y => y
  | fuel + 1, i, prev, y =>
    let term := s.powerOp prev 0
    let y := y + term
    if maxIterations ≤ i ∨ norm2 term < threshold then y
    else s.seriesLoop maxIterations threshold fuel (i + 1) term y

/-- `PowerSeriesExpansionPreconditioner::RightMultiplyAndAccumulate`
(`power_series_expansion_preconditioner.cc:57-82`).  It overwrites `y`.  The loop stops at the
latest in pass `max 1 max_num_spse_iterations`. -/
def Sys.powerSeries (s : Sys m p q) (maxIterations : ℤ) (tolerance : ℝ) : Op q := fun x _y =>
  let y := 0 + s.ftfInv *ᵥ x
  let threshold := tolerance * norm2 y
  s.seriesLoop maxIterations threshold (max 1 maxIterations.toNat) 1 y y

/-- The preconditioners of `CreatePreconditioner`
(`iterative_schur_complement_solver.cc:159-199`).  SCHUR_JACOBI, CLUSTER_JACOBI and
CLUSTER_TRIDIAGONAL are given by the verdict of `Update` and the operator they apply. -/
inductive SchurPrec (q : ℕ) where
  | identity
  | jacobi
  | powerSeries (maxIterations : ℤ)
  | other (updated : Bool) (op : Op q)

/-- What the preconditioner does to a vector. -/
def Sys.prec (s : Sys m p q) : SchurPrec q → Op q
  | .identity => fun x y => y + x
  | .jacobi => fun x y => y + s.ftfInv *ᵥ x
  | .powerSeries n => s.powerSeries n 0
  | .other _ op => op

/-- `preconditioner_->Update`: the base class and the wrappers return true. -/
def SchurPrec.updates : SchurPrec q → Bool
  | .other u _ => u
  | _ => true

/-- `IterativeSchurComplementSolver::SolveImpl`
(`iterative_schur_complement_solver.cc:64-157`).  `spse` holds `max_num_spse_iterations` and
`spse_tolerance` if `use_spse_initialization`.  The second component is what is written to `x`,
`none` if it is left as it was.  Conjugate gradients never report FATAL_ERROR. -/
def Sys.solve (s : Sys m p q) (o : CG.Options) (t : SchurPrec q) (spse : Option (ℤ × ℝ)) :
    CG.Term × Option (Vec p × Vec q) :=
  if q = 0 then (.success, some (s.backSubstitute 0))
  else
    let x0 : Vec q := match spse with
      | none => 0
      | some (n, tol) => s.powerSeries n tol s.rhs 0
    if t.updates then
      let res := CG.solver o s.rightMultiply (s.prec t) s.rhs x0
      if res.termination ≠ .failure then
        (res.termination, some (s.backSubstitute res.x))
      else (res.termination, none)
    else (.failure, none)

end Ceres.Schur
