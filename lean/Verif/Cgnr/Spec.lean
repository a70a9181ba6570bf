import Verif.Cgnr.Model
import Verif.SchurJacobi.ExplicitSpec
import Verif.PartitionedView.Inverse
import Verif.Direct.Sparse

/-!
# Specification of CGNR with its preconditioners (C90)
-/

noncomputable section

namespace Ceres.Cgnr

open Ceres.BlockSparse Ceres.Direct Ceres.InnerProduct

/-- What the calls of a history have in common: the block structure; for SUBSET also that there is a row block to
start from, and whether there is a diagonal. -/
structure Fits (p : Prec) (bs : BS) (regularised : Bool) (call : Call) : Prop where
  ok : call.A.Ok
  structure_ : call.A.bs = bs
  sorted : CellsSorted bs
  subset : ∀ start, p = .subset start → start ≤ bs.rows.length ∧ 0 < call.A.nnz ∧ call.D.isSome = regularised

/-- The rows before row block `start`. -/
def rowsBefore (A : BMat ℝ) (start : ℕ) : ℕ := ((A.bs.rows.take start).map fun r => r.block.size).sum

/-- The matrix the preconditioner stands for: the identity; the blocks on the diagonal of `A'A + D'D`;
`Q'Q + D'D` for the row blocks `Q` of `A` from `start` on. -/
def standsFor (p : Prec) (A : BMat ℝ) (D : Option Vec) : Buf := fun i j =>
  let d := if i = j then match D with | none => 0 | some d => d i ^ 2 else 0
  match p with
  | .identity => if i = j then 1 else 0
  | .jacobi => if blockOf A.bs.cols i = blockOf A.bs.cols j then
      ∑ k ∈ Finset.range A.numRows, A.entry k i * A.entry k j + d else 0
  | .subset start => ∑ k ∈ Finset.Ico (rowsBefore A start) A.numRows, A.entry k i * A.entry k j + d

/-- The problem has one solution; for SUBSET, already that of the rows it uses. -/
def Solvable (p : Prec) (A : BMat ℝ) (D : Option Vec) : Prop :=
  match p with
  | .subset start => Regular (A.numRows - rowsBefore A start) A.numCols (fun k j => A.entry (rowsBefore A start + k) j) D
  | _ => Regular A.numRows A.numCols A.entry D

/-- What a call of the preconditioner that finds `y` and leaves `z` makes of its argument: it adds to `y`, except
that SUBSET overwrites. -/
def made (p : Prec) (y z : Vec) : Vec :=
  match p with
  | .subset _ => z
  | _ => fun i => z i - y i

/-- What a call returns. -/
structure Good (c : SparseChol) (llt : (n : ℕ) → Matrix (Fin n) (Fin n) ℝ → Matrix (Fin n) (Fin n) ℝ) (o : CG.Options)
    (p : Prec) (threads : ℕ) (call : Call) (r : Result c) : Prop where
  /-- The Jacobian is given back. -/
  same : Same r.A call.A
  /-- The step is not worse than none, whatever the preconditioner does. -/
  descends : lsq call.A.numRows call.A.numCols call.A.entry call.b call.D r.x ≤
    lsq call.A.numRows call.A.numCols call.A.entry call.b call.D 0
  /-- A step that is not zero is better than none. -/
  strict : (∃ j < call.A.numCols, r.x j ≠ 0) → lsq call.A.numRows call.A.numCols call.A.entry call.b call.D r.x <
    lsq call.A.numRows call.A.numCols call.A.entry call.b call.D 0
  /-- Run to the end it minimises. -/
  solves : PartitionedView.LltOk llt → c.Correct → Solvable p call.A call.D → SchurJacobi.Exact o call.A.numCols →
    r.termination = .success ∧ Minimises call.A.numRows call.A.numCols call.A.entry call.b call.D r.x
  /-- Every call of the preconditioner returns the same for every schedule. -/
  applies : ∀ x y, ∃ z, (∀ out, apply threads p r.state r.A x y out ↔ out = some z) ∧
    ∀ i, call.A.numCols ≤ i → z i = y i
  /-- What is added (SUBSET: written) is the solution of the system of the matrix it stands for. -/
  preconditions : PartitionedView.LltOk llt → c.Correct → Solvable p call.A call.D → ∀ x y z,
    apply threads p r.state r.A x y (some z) →
    Eqs call.A.numCols (standsFor p call.A call.D) (made p y z) x

end Ceres.Cgnr
