import Verif.SchurDirect.Spec
import Verif.CG.Model

/-!
# What ITERATIVE_SCHUR with an explicit Schur complement is asked for
-/

noncomputable section

namespace Ceres.SchurJacobi

open Ceres.Direct Ceres.SchurDirect

/-- What a call returns; the first `e` columns belong to the eliminated blocks. -/
structure Returned (e : ℕ) (call : Call) (ok : Bool) (x : Vec) (t : CG.Term) : Prop where
  /-- Success is that of conjugate gradients. -/
  success : ok = true ↔ t = .success
  /-- The eliminated part is the best for the rest. -/
  best : ok = true → ∀ w : Vec, (∀ p, e ≤ p → p < call.A.numCols → w p = x p) →
    lsq call.A.numRows call.A.numCols call.A.entry call.b call.D x ≤
      lsq call.A.numRows call.A.numCols call.A.entry call.b call.D w
  /-- The step is as good as every step that moves eliminated blocks only, for example none. -/
  never_worse : ok = true → ∀ w : Vec, (∀ p, e ≤ p → p < call.A.numCols → w p = 0) →
    lsq call.A.numRows call.A.numCols call.A.entry call.b call.D x ≤
      lsq call.A.numRows call.A.numCols call.A.entry call.b call.D w
  /-- Without success the eliminated part is zero. -/
  zero : ok = false → ∀ p < e, x p = 0
  /-- Also then the rest is as good as none, if the eliminated part is chosen well. -/
  rest : ∃ w : Vec, (∀ p, e ≤ p → p < call.A.numCols → w p = x p) ∧
    lsq call.A.numRows call.A.numCols call.A.entry call.b call.D w ≤
      lsq call.A.numRows call.A.numCols call.A.entry call.b call.D fun _ => 0

/-- What is asked of the options of conjugate gradients for an exact solution of `n` equations. -/
structure Exact (o : CG.Options) (n : ℕ) : Prop where
  q : o.qTolerance ≤ 0
  r : o.rTolerance = 0
  min : o.minNumIterations ≤ 1
  max : n ≤ o.maxNumIterations

end Ceres.SchurJacobi
