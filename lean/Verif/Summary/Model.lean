import Verif.Reorder.Model
import Verif.Program.Model
import Verif.SchurDirect.Model
import Verif.EvalCallback.Model

/-!
# What the summary of a solve says about the problem and about the work
(solver.cc, program.cc, schur_templates.cc, execution_summary.h, program_evaluator.h)
-/
namespace Ceres.Summary

open Ceres.Reorder (World Outcome Library Prepared Solver SparseLib OrderType)
open Ceres.Graph (Groups orderingToGroupSizes)
open Ceres.Detect (Sizes dynamic detectStructure)

variable {X C V : Type}

/-! ## Counts -/

/-- The five numbers of `SummarizeGivenProgram` and `SummarizeReducedProgram` (solver.cc:524-544). -/
structure Counts where
  parameterBlocks : ℕ
  parameters : ℕ
  effectiveParameters : ℕ
  residualBlocks : ℕ
  residuals : ℕ
  deriving DecidableEq

/-- `for (auto* block : blocks) n += f(block)` (program.cc:487-509). -/
def accumulate {α : Type} (f : α → ℕ) (l : List α) : ℕ := l.foldl (fun n a => n + f a) 0

/-- `NumParameterBlocks`, `NumParameters`, `NumEffectiveParameters`, `NumResidualBlocks`, `NumResiduals`
(program.cc:483-509) for the blocks of a program; `size` is `ParameterBlock::Size()`. -/
def countsOf {B R : Type} (W : World B R V) (size : B → ℕ) (blocks : List B) (residuals : List R) : Counts where
  parameterBlocks := blocks.length
  parameters := accumulate size blocks
  effectiveParameters := accumulate W.tangentSize blocks
  residualBlocks := residuals.length
  residuals := accumulate W.numResiduals residuals

/-! ## Preparation -/

/-- The preparation of a program (trust_region_preprocessor.cc:378-411): `CreateReducedProgram`
(program.cc:283-307, which copies the program and removes the fixed blocks), nothing more if no parameter block is
left, else `ReorderProgram`.  `solver` and `given` are the linear solver and the ordering after the removed blocks
have been taken out of it.  Not modelled: what is left in `pp` when the preparation fails. -/
inductive Preparation (V X C : Type) where
  | failed
  | trivial (p : Program.Prog X C)
  | ready (r : Prepared ℕ (Program.RB X C) V)

/-- See `Preparation`. -/
def prepare [Add C] [Zero C] [DecidableEq V] (W : World ℕ (Program.RB X C) V) (L : Library ℕ (Program.RB X C))
    (x : ℕ → X) (known : V → Bool) (solver : Solver) (lib : SparseLib) (ot : OrderType)
    (bottom : Program.RB X C → Bool) (given : Option (Groups V)) (p : Program.Prog X C) : Preparation V X C :=
  match Program.removeFixedBlocks W.isConst x p with
  | .error _ => .failed
  | .ok red =>
    if red.prog.pblocks.length = 0 then .trivial red.prog
    else
      match Reorder.reorderProgram W L known solver lib ot bottom given
          (Reorder.Program.setIndex ⟨red.prog.pblocks, red.prog.rblocks, fun _ => none⟩) with
      | .ok r => .ready r
      | _ => .failed

/-- `pp->reduced_program`, `none` if it is null or if the preparation has failed. -/
def Preparation.blocks : Preparation V X C → Option (List ℕ × List (Program.RB X C))
  | .failed => none
  | .trivial p => some (p.pblocks, p.rblocks)
  | .ready r => some (r.program.blocks, r.program.residuals)

/-! ## The structure of the Schur complement -/

/-- `GetBestSchurTemplateSpecialization` (schur_templates.cc:49-205): the cases in their order; what is
`Eigen::Dynamic` is not tested.  `CERES_RESTRICT_SCHUR_SPECIALIZATION` is not defined. -/
def bestCases : List Sizes :=
  [⟨2, 2, 2⟩, ⟨2, 2, 3⟩, ⟨2, 2, 4⟩, ⟨2, 2, dynamic⟩,
   ⟨2, 3, 3⟩, ⟨2, 3, 4⟩, ⟨2, 3, 6⟩, ⟨2, 3, 9⟩, ⟨2, 3, dynamic⟩,
   ⟨2, 4, 3⟩, ⟨2, 4, 4⟩, ⟨2, 4, 6⟩, ⟨2, 4, 8⟩, ⟨2, 4, 9⟩, ⟨2, 4, dynamic⟩,
   ⟨2, dynamic, dynamic⟩,
   ⟨3, 3, 3⟩,
   ⟨4, 4, 2⟩, ⟨4, 4, 3⟩, ⟨4, 4, 4⟩, ⟨4, 4, dynamic⟩]

/-- One `if` of the chain. -/
def applies (o t : Sizes) : Prop :=
  (t.row = dynamic ∨ o.row = t.row) ∧ (t.e = dynamic ∨ o.e = t.e) ∧ (t.f = dynamic ∨ o.f = t.f)

instance (o t : Sizes) : Decidable (applies o t) := by unfold applies; infer_instance

/-- The chain. -/
def bestFrom (o : Sizes) : List Sizes → Sizes
  | [] => ⟨dynamic, dynamic, dynamic⟩
  | t :: ts => if applies o t then t else bestFrom o ts

/-- `GetBestSchurTemplateSpecialization`. -/
def best (o : Sizes) : Sizes := bestFrom o bestCases

/-- One component of `SchurStructureToString` (solver.cc:675-690). -/
def sizeString (s : ℤ) : String := if s = dynamic then "d" else toString s

/-- `SchurStructureToString` (solver.cc:675-693). -/
def structureString (s : Sizes) : String := sizeString s.row ++ "," ++ sizeString s.e ++ "," ++ sizeString s.f

/-- `schur_structure_given` and `schur_structure_used` (solver.cc:794-819) for a Jacobian with block structure `bs`
and `ne` blocks to eliminate; `none`: a `CHECK` of `DetectStructure` fails. -/
def schurStrings (bs : BlockSparse.BS) (ne : ℕ) : Option (String × String) :=
  (detectStructure (SchurDirect.shape bs) ne).map fun s => (structureString s, structureString (best s))

/-! ## Statistics -/

/-- `ExecutionSummary` (execution_summary.h:45-69): for each name the number of calls.  Simplification: without the
times. -/
abbrev Stats := String → ℕ

/-- `IncrementTimeBy` (execution_summary.h:55-60), called by the destructor of `ScopedExecutionTimer`
(execution_summary.h:76-78); the mutex makes it one step. -/
def Stats.increment (s : Stats) (name : String) : Stats := Function.update s name (s name + 1)

/-- `ProgramEvaluator::Evaluate` with its two timers (program_evaluator.h:142-148), which are destroyed in the
opposite order whatever the call returns. -/
def timedEvaluate {U Y R : Type} (c : EvalCallback.UserCode U Y R) (hasCallback : Bool)
    (w : EvalCallback.World U Y × Stats) (q : EvalCallback.Call Y) : (EvalCallback.World U Y × Stats) × R :=
  let a := EvalCallback.evaluate c hasCallback w.1 q
  ((a.1, (w.2.increment (if q.jacobians then "Evaluator::Jacobian" else "Evaluator::Residual")).increment
    "Evaluator::Total"), a.2)

/-- A minimizer running with this evaluator. -/
def timedRun {U Y R A : Type} (c : EvalCallback.UserCode U Y R) (hasCallback : Bool) :
    EvalCallback.Prog (EvalCallback.Call Y) R A → EvalCallback.World U Y × Stats →
      (EvalCallback.World U Y × Stats) × A
  | .ret a, w => (w, a)
  | .ask q k, w =>
    timedRun c hasCallback (k (timedEvaluate c hasCallback w q).2) (timedEvaluate c hasCallback w q).1

/-- `num_residual_evaluations` (solver.cc:614-621). -/
def numResidualEvaluations (s : Stats) : ℕ := s "Evaluator::Residual"

/-- `num_jacobian_evaluations` (solver.cc:622-629). -/
def numJacobianEvaluations (s : Stats) : ℕ := s "Evaluator::Jacobian"

/-! ## The summary -/

/-- The fields of `Solver::Summary` modelled here; `reduced` is `none` where the numbers stay `-1`. -/
structure Report where
  given : Counts
  reduced : Option Counts
  orderingUsed : List ℕ
  schur : Option (Option (String × String))

/-- `PreSolveSummarize`, the structure of the Schur complement and `PostSolveSummarize` (solver.cc:546-549, 794-819,
581-601) for a problem `p`, whose ordering is `user`, and its preparation.  `schur`: `none` if the strings stay empty,
`some none` if a `CHECK` fails. -/
def report (W : World ℕ (Program.RB X C) V) (size : ℕ → ℕ) (solver : Solver) (p : Program.Prog X C)
    (user : Option (Groups V)) (r : Preparation V X C) : Report where
  given := countsOf W size p.pblocks p.rblocks
  reduced := r.blocks.map fun b => countsOf W size b.1 b.2
  orderingUsed := match r with
    | .ready r => orderingToGroupSizes (some r.ordering)
    | _ => orderingToGroupSizes user
  schur := match r, solver with
    | .ready r, .schur _ => some (schurStrings (Reorder.structureOf (r.program.toEval W) r.numEliminate) r.numEliminate)
    | _, _ => none

end Ceres.Summary
