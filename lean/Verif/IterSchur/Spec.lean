import Verif.IterSchur.Model
import Verif.SchurDirect.Spec
import Verif.SchurJacobi.ExplicitSpec
import Verif.Visibility.MatrixSpec

/-!
# Specification of ITERATIVE_SCHUR on the implicit Schur complement (C92)
-/

noncomputable section

namespace Ceres.IterSchur

open Ceres.BlockSparse Ceres.Direct Ceres.SchurDirect

/-- What is asked of the calls: what all Schur solvers ask (`SchurDirect.Fits`), and that the least squares problem has
one solution only. -/
structure Asked (ne : ℕ) (bs : BS) (call : Call) : Prop where
  fits : SchurDirect.Fits ne bs call
  regular : Regular call.A.numRows call.A.numCols call.A.entry call.D

/-- No row block depends on two f blocks. -/
def OneFBlock (ne : ℕ) (bs : BS) : Prop :=
  ∀ r ∈ bs.rows, ∀ c ∈ r.cells, ∀ d ∈ r.cells, ne ≤ c.blockId → ne ≤ d.blockId → c.blockId = d.blockId

/-- CLUSTER_TRIDIAGONAL. -/
def Kind.Tridiagonal (k : Kind) : Prop := ∃ cfg, k = .cluster cfg ∧ cfg.tridiagonal = true

/-- What a call returns; `before` is what `x` was before it.  The columns from `eCols bs ne` on are those of the f
blocks. -/
structure Good {c : SparseChol} (o : Options) (ne : ℕ) (bs : BS) (call : Call) (before : Vec) (r : Result c) : Prop where
  /-- Nothing is written beyond the solution. -/
  beyond : ∀ p, call.A.numCols ≤ p → r.x p = before p
  /-- After a failure nothing is written at all. -/
  unwritten : r.termination = .failure → r.x = before
  /-- The eliminated part is the best for the rest. -/
  best : r.termination ≠ .failure → ∀ w : Vec, (∀ p, eCols bs ne ≤ p → p < call.A.numCols → w p = r.x p) →
    lsq call.A.numRows call.A.numCols call.A.entry call.b call.D r.x ≤
      lsq call.A.numRows call.A.numCols call.A.entry call.b call.D w
  /-- The step is as good as every step that moves eliminated blocks only, for example none.  With an initial guess this
  is so if no row block depends on two f blocks. -/
  descends : r.termination ≠ .failure → o.init = none ∨ OneFBlock ne bs →
    ∀ w : Vec, (∀ p, eCols bs ne ≤ p → p < call.A.numCols → w p = 0) →
    lsq call.A.numRows call.A.numCols call.A.entry call.b call.D r.x ≤
      lsq call.A.numRows call.A.numCols call.A.entry call.b call.D w
  /-- It is better if it moves an f block. -/
  strict : r.termination ≠ .failure → o.init = none →
    (∃ p, eCols bs ne ≤ p ∧ p < call.A.numCols ∧ r.x p ≠ 0) →
    ∀ w : Vec, (∀ p, eCols bs ne ≤ p → p < call.A.numCols → w p = 0) →
    lsq call.A.numRows call.A.numCols call.A.entry call.b call.D r.x <
      lsq call.A.numRows call.A.numCols call.A.entry call.b call.D w
  /-- Run to the end it minimises.  Only CLUSTER_TRIDIAGONAL can fail. -/
  solves : SchurJacobi.Exact o.cg (fCols bs ne) → o.init = none → (o.kind.Tridiagonal → Visibility.Definite c) →
    r.termination = .success ∧ Minimises call.A.numRows call.A.numCols call.A.entry call.b call.D r.x ∨
    r.termination = .failure ∧ o.kind.Tridiagonal

end Ceres.IterSchur
