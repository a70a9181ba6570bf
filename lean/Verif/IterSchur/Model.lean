import Verif.SchurJacobi.Model
import Verif.Visibility.Spec

/-!
# ITERATIVE_SCHUR without an explicit Schur complement, on flat storage and with threads

`iterative_schur_complement_solver.cc` with all its preconditioners (`power_series_expansion_preconditioner.cc`,
`preconditioner.h/.cc`, and those of `Verif.SchurJacobi` and `Verif.Visibility`) on the implicit Schur complement of
`Verif.PartitionedView`.  Loops are programs on shared memory, run on any number of threads; conjugate gradients are those
of `Verif.CG`.  Not modelled: rounding, and `DetectStructure`, which only chooses a template (C52).
-/

noncomputable section

namespace Ceres.IterSchur

open Ceres.Tasks Ceres.BlockSparse Ceres.Direct Ceres.SchurDirect
open Ceres.PartitionedView (Does View Implicit Tmp setZero assign mulBlocks copyTask powerSeriesOperator rightMultiply
  backSubstitute)
open Ceres.SchurJacobi (front extend)
open Ceres.Visibility (Orders Prec construct)

/-- `preconditioner_type`. -/
inductive Kind where
  | identity
  | jacobi
  | powerSeries
  | schurJacobi
  | cluster (cfg : Visibility.Config)

/-- The options.  `init` holds `spse_tolerance` if `use_spse_initialization` is set. -/
structure Options where
  cg : CG.Options
  kind : Kind
  maxSeries : ℤ
  init : Option ℝ

/-- `compute_ftf_inverse_` (implicit_schur_complement.cc:61-64). -/
def Options.compute (o : Options) : Bool :=
  match o.kind with
  | .jacobi => true
  | .powerSeries => true
  | _ => o.init.isSome

/-! ## The power series -/

/-- One element of `y = y + x` (power_series_expansion_preconditioner.cc:75-76). -/
def addTask (_tid i : ℕ) : BlockSparse.Prog ℝ := .read (.y i) fun a => .read (.x i) fun b => .write (.y i) (a + b) .ret

open Classical in
/-- The loop (power_series_expansion_preconditioner.cc:71-81): `fuel` is the number of passes left, `term` and `prev` are
`series_term` and `previous_series_term`, which are swapped.  The norm of a vector is computed exactly. -/
def seriesLoop (S : Implicit ℝ) (M : BMat ℝ) (maxIterations : ℤ) (threshold : ℝ) : ℕ → ℕ → Vec → Vec → Vec → Does Vec
  | 0, _, _, _, y => fun o => o = some y
  | fuel + 1, i, term, prev, y =>
    Does.bind (setZero S.A.threads S.A.numColsF term) fun t0 =>
    Does.bind (fun o => ∃ tmp, powerSeriesOperator S M tmp prev t0 o) fun t1 =>
    Does.bind (assign S.A.threads S.A.numColsF addTask t1 y t1) fun y1 =>
    if maxIterations ≤ i ∨ CG.norm2 (front S.A.numColsF t1) < threshold then fun o => o = some y1
    else seriesLoop S M maxIterations threshold fuel (i + 1) prev t1 y1

/-- `PowerSeriesExpansionPreconditioner::RightMultiplyAndAccumulate`
(power_series_expansion_preconditioner.cc:57-82).  The new vectors `term` and `prev` hold anything.  The loop stops at
the latest in pass `max 1 max_num_spse_iterations`.  Without the block diagonal of `F'F` a `CHECK` fails
(implicit_schur_complement.h:132-135). -/
def powerSeries (S : Implicit ℝ) (M : BMat ℝ) (maxIterations : ℤ) (tolerance : ℝ) (term prev x y : Vec) : Does Vec :=
  Does.bind (setZero S.A.threads S.A.numColsF y) fun y0 =>
  match S.ftf with
  | none => fun o => o = none
  | some f =>
    Does.bind (mulBlocks S.A.threads f x y0) fun y1 =>
    Does.bind (assign S.A.threads S.A.numColsF (copyTask 0) y1 prev y1) fun p1 =>
    seriesLoop S M maxIterations (tolerance * CG.norm2 (front S.A.numColsF y1)) (max 1 maxIterations.toNat) 1 term p1 y1

/-! ## The preconditioners between calls -/

/-- What the preconditioner keeps between calls: the values of `m_` of SCHUR_JACOBI; the clusters of CLUSTER_JACOBI and
CLUSTER_TRIDIAGONAL, once they are made, and what they keep. -/
structure State (c : SparseChol) where
  values : Vec
  clusters : Option (Prec × Kept c)

/-- `CreatePreconditioner` (iterative_schur_complement_solver.cc:159-199): made in the first call.  `none`: a `CHECK`
fails. -/
def Create {c : SparseChol} (k : Kind) (st : State c) (A : BMat ℝ) (ne : ℕ) : Does (State c) :=
  match k with
  | .cluster cfg =>
    match st.clusters with
    | some _ => fun o => o = some st
    | none => fun o => ∃ ord : Orders, ord.Ok ∧
        o = (construct cfg ord A.bs ne).map fun P => { st with clusters := some (P, ⟨none, c.init⟩) }
  | _ => fun o => o = some st

/-- `preconditioner_->Update(*A, D)` (iterative_schur_complement_solver.cc:114-122): what it returns and keeps.
IDENTITY, JACOBI and the power series keep nothing. -/
def Update {c : SparseChol} (llt : (n : ℕ) → Matrix (Fin n) (Fin n) ℝ → Matrix (Fin n) (Fin n) ℝ) (inv : Schur.Inverter)
    (k : Kind) (st : State c) (A : BMat ℝ) (D : Option Vec) (ne threads : ℕ) : Does (Bool × State c) :=
  match k with
  | .schurJacobi => fun o => ∃ w, SchurJacobi.Update llt inv ne A D threads w ∧
      o = w.map fun w => (true, { st with values := w })
  | .cluster cfg =>
    match st.clusters with
    | none => fun o => o = none
    | some (P, K) => fun o => ∃ fatal u, Visibility.Update cfg c fatal inv ne P K A D threads u ∧
        o = u.map fun q => (q.1, { st with clusters := some (P, q.2) })
  | _ => fun o => o = some (true, st)

/-- `RightMultiplyAndAccumulate` of the preconditioner: preconditioner.h:168-170 for IDENTITY; JACOBI wraps the block
diagonal that `Init` of this call has inverted (iterative_schur_complement_solver.cc:173-177, preconditioner.cc:59-68); the
power series stops after `max_num_spse_iterations` terms, with tolerance 0; the visibility based ones overwrite `y`
(visibility_based_preconditioner.cc:428-435). -/
def apply {c : SparseChol} (o : Options) (S : Implicit ℝ) (st : State c) (A : BMat ℝ) (ne : ℕ) (x y : Vec) : Does Vec :=
  match o.kind with
  | .identity => fun out => out = some fun i => if i < S.A.numColsF then y i + x i else y i
  | .jacobi =>
    match S.ftf with
    | none => fun out => out = none
    | some f => mulBlocks S.A.threads f x y
  | .powerSeries => fun out => ∃ term prev, powerSeries S A o.maxSeries 0 term prev x y out
  | .schurJacobi => SchurJacobi.rightMultiply S.A.threads (tail A.bs.cols ne) st.values x y
  | .cluster _ =>
    match st.clusters with
    | none => fun out => out = none
    | some (_, K) => fun out => out = some fun i => if i < S.A.numColsF then Visibility.apply K x i else y i

/-! ## The solver -/

/-- What `Solve` leaves. -/
structure Result (c : SparseChol) where
  state : State c
  termination : CG.Term
  x : Vec

/-- The calls of the operator and of the preconditioner in conjugate gradients
(iterative_schur_complement_solver.cc:124-148): `none` if one of them does not return.  `lhs` and `prec` are what they
leave; `n` is the size of the reduced system. -/
def Conjugate {c : SparseChol} (o : Options) (S : Implicit ℝ) (st : State c) (A : BMat ℝ) (ne n : ℕ) (x0 : Vec)
    (out : Option (CG.Summary n)) : Prop :=
  (out = none ∧ ∃ x y, (∃ tmp, rightMultiply S A tmp x y none) ∨ apply o S st A ne x y none) ∨
  ∃ lhs prec : CG.Op n,
    (∀ x y, ∃ tmp z, rightMultiply S A tmp (extend x) (extend y) (some z) ∧ lhs x y = front _ z) ∧
    (∀ x y, ∃ z, apply o S st A ne (extend x) (extend y) (some z) ∧ prec x y = front _ z) ∧
    out = some (CG.solver o.cg lhs prec (front _ S.rhs) (front _ x0))

/-- The initial guess (iterative_schur_complement_solver.cc:95-111). -/
def Guess (o : Options) (S : Implicit ℝ) (A : BMat ℝ) : Does Vec :=
  match o.init with
  | none => fun out => out = some fun _ => 0
  | some tolerance => fun out => ∃ term prev, powerSeries S A o.maxSeries tolerance term prev S.rhs (fun _ => 0) out

/-- What follows `Init` (iterative_schur_complement_solver.cc:84-157); `x` is what the array holds before. -/
def SolveFrom {c : SparseChol} (llt : (n : ℕ) → Matrix (Fin n) (Fin n) ℝ → Matrix (Fin n) (Fin n) ℝ) (inv : Schur.Inverter)
    (o : Options) (ne threads : ℕ) (st : State c) (call : Call) (x : Vec) (S : Implicit ℝ) : Does (Result c) :=
  if call.A.bs.cols.length - ne = 0 then
    Does.bind (fun out => ∃ tmp null, backSubstitute S call.A tmp null x out) fun x' out => out = some ⟨st, .success, x'⟩
  else
    Does.bind (Guess o S call.A) fun x0 =>
    Does.bind (Create o.kind st call.A ne) fun st1 =>
    Does.bind (Update llt inv o.kind st1 call.A call.D ne threads) fun u =>
    if u.1 = false then fun out => out = some ⟨u.2, .failure, x⟩
    else
      Does.bind (Conjugate o S u.2 call.A ne S.A.numColsF x0) fun s =>
      if s.termination ≠ .failure then
        Does.bind (fun out => ∃ tmp, backSubstitute S call.A tmp (extend s.x) x out) fun x' out =>
          out = some ⟨u.2, s.termination, x'⟩
      else fun out => out = some ⟨u.2, s.termination, x⟩

/-- `IterativeSchurComplementSolver::SolveImpl` (iterative_schur_complement_solver.cc:64-157) on any number of threads;
`none`: it does not return.  `Init` makes a new view, and finds anything in the arrays of the last call. -/
def Solve {c : SparseChol} (llt : (n : ℕ) → Matrix (Fin n) (Fin n) ℝ → Matrix (Fin n) (Fin n) ℝ) (inv : Schur.Inverter)
    (o : Options) (ne threads : ℕ) (st : State c) (call : Call) (x : Vec) : Does (Result c) :=
  match PartitionedView.create call.A ne threads with
  | none => fun out => out = none
  | some V =>
    Does.bind (fun out => ∃ oldE oldF oldRhs tmp,
      PartitionedView.init llt V call.A call.D call.b o.compute oldE oldF oldRhs tmp out) fun S =>
    SolveFrom llt inv o ne threads st call x S

/-- The solver after some calls.  The tolerances of conjugate gradients may differ from call to call. -/
inductive After (c : SparseChol) (llt : (n : ℕ) → Matrix (Fin n) (Fin n) ℝ → Matrix (Fin n) (Fin n) ℝ)
    (inv : Schur.Inverter) (o : Options) (ne threads : ℕ) : List Call → State c → Prop where
  | nil (v : Vec) : After c llt inv o ne threads [] ⟨v, none⟩
  | snoc {calls : List Call} {st : State c} (cg : CG.Options) (call : Call) (x : Vec) (r : Result c) :
      After c llt inv o ne threads calls st → Solve llt inv { o with cg := cg } ne threads st call x (some r) →
      After c llt inv o ne threads (calls ++ [call]) r.state

end Ceres.IterSchur
