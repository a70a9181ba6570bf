import Verif.Summary.Model
import Verif.Program.Reduce
import Verif.Detect.Props

/-!
# Specification of the summary (C95)
-/
namespace Ceres.Summary

open Ceres.Reorder (World)
open Ceres.Program (RB Prog Used Depends)
open Ceres.Detect (Sizes)

variable {X C V : Type}

/-- A problem as the API makes it: the parameter blocks are different, the residual blocks use them and no one twice,
and have residuals; what is not constant has a tangent space. -/
structure WellFormed (W : World ℕ (RB X C) V) (p : Prog X C) : Prop where
  args : W.args = RB.params
  injective : Function.Injective W.user
  nodup : p.pblocks.Nodup
  closed : ∀ r ∈ p.rblocks, ∀ b ∈ r.params, b ∈ p.pblocks
  argsNodup : ∀ r ∈ p.rblocks, r.params.Nodup
  residuals : ∀ r ∈ p.rblocks, 0 < W.numResiduals r
  sizes : ∀ b, W.isConst b = false → 0 < W.tangentSize b

/-- The numbers of the problem as the user has made it. -/
def given (W : World ℕ (RB X C) V) (size : ℕ → ℕ) (p : Prog X C) : Counts :=
  ⟨p.pblocks.length, (p.pblocks.map size).sum, (p.pblocks.map W.tangentSize).sum,
    p.rblocks.length, (p.rblocks.map W.numResiduals).sum⟩

open Classical in
/-- The parameter blocks that are optimised: those that are not constant and used by a residual block. -/
noncomputable def optimised (W : World ℕ (RB X C) V) (p : Prog X C) : List ℕ :=
  p.pblocks.filter fun b => W.isConst b = false ∧ ∃ r ∈ p.rblocks, b ∈ r.params

open Classical in
/-- The residual blocks that depend on such a block. -/
noncomputable def dependent (W : World ℕ (RB X C) V) (p : Prog X C) : List (RB X C) :=
  p.rblocks.filter fun r => ∃ b ∈ r.params, W.isConst b = false

/-- The numbers of the reduced problem. -/
noncomputable def reduced (W : World ℕ (RB X C) V) (size : ℕ → ℕ) (p : Prog X C) : Counts :=
  ⟨(optimised W p).length, ((optimised W p).map size).sum, ((optimised W p).map W.tangentSize).sum,
    (dependent W p).length, ((dependent W p).map W.numResiduals).sum⟩

/-- `s` says what is eliminated: the numbers of residuals of the residual blocks that depend on a parameter block
in `E`, the sizes of these parameter blocks, and the sizes of the other variable parameter blocks of these residual
blocks; each a number if they are all the same. -/
structure SaysStructure (W : World ℕ (RB X C) V) (p : Prog X C) (E : ℕ → Prop) (s : Sizes) : Prop where
  row : Detect.Describes (fun n => ∃ r ∈ p.rblocks, ∃ e ∈ r.params, E e ∧ (W.numResiduals r : ℤ) = n) s.row
  e : Detect.Describes (fun n => ∃ r ∈ p.rblocks, ∃ e ∈ r.params, E e ∧ (W.tangentSize e : ℤ) = n) s.e
  f : Detect.Describes (fun n => ∃ r ∈ p.rblocks, ∃ e ∈ r.params, E e ∧
    ∃ b ∈ r.params, b ≠ e ∧ W.isConst b = false ∧ (W.tangentSize b : ℤ) = n) s.f

/-- How the sizes are written. -/
def written (s : Sizes) : String := ",".intercalate ([s.row, s.e, s.f].map fun n => if n = -1 then "d" else toString n)

/-- The evaluations of a run: whether each had derivatives. -/
def asked {U Y R A : Type} (c : EvalCallback.UserCode U Y R) (hasCallback : Bool) :
    EvalCallback.Prog (EvalCallback.Call Y) R A → EvalCallback.World U Y → List Bool
  | .ret _, _ => []
  | .ask q k, w => q.jacobians :: asked c hasCallback (k (EvalCallback.evaluate c hasCallback w q).2)
      (EvalCallback.evaluate c hasCallback w q).1

/-- How often the user's cost functions were run, with derivatives or without. -/
def runs {Y : Type} (jacobians : Bool) (l : List (EvalCallback.Event Y)) : ℕ :=
  l.countP fun
    | .residuals _ j => j == jacobians
    | .prepare .. => false

/-- How often `PrepareForEvaluation` was called, with derivatives or without. -/
def prepares {Y : Type} (jacobians : Bool) (l : List (EvalCallback.Event Y)) : ℕ :=
  l.countP fun
    | .residuals .. => false
    | .prepare _ j _ => j == jacobians

end Ceres.Summary
