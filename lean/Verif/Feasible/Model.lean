import Verif.Program.Props
import Verif.TrustRegion.Descent

/-!
# C58: the step of the trust region minimizer under bounds

The minimizer moves from `x` to `Plus(x, delta)`.  `programPlus` is that function on points given
block by block; `Program.PlusRun` is the parallel loop on the vectors.
-/
namespace Ceres.Feasible

open Ceres.Program (PB PlusRes)

variable {α : Type} [LinearOrder α] [Add α]

/-- The result of a block's `Plus`, if it succeeds. -/
def okOf : PlusRes α → Option (List α)
  | .ok r => some r
  | .fail => none
  | .ub => none

/-- `ProgramEvaluator::Plus` (program_evaluator.h:306-311), that is `Program::Plus`
(program.cc:114-142), on points given block by block: `x b` is the part of the state vector that
belongs to block `b` and `d b` the part of the step.  `none`: it returns false.
Simplified: the vectors are functions from blocks, see `plus_refines` for the loop on the vectors. -/
def programPlus (pb : ℕ → PB α) (blocks : List ℕ) (x d : ℕ → List α) : Option (ℕ → List α) :=
  if blocks.all fun b => (okOf ((pb b).plus (x b) (d b))).isSome then
    some fun b => if b ∈ blocks then (okOf ((pb b).plus (x b) (d b))).getD [] else x b
  else none

/-! ## Specification -/

/-- The coordinates of a value of block `b` satisfy the bounds set for it. -/
def InBox (b : PB α) (v : List α) : Prop := ∀ (j : ℕ) (y : α), v[j]? = some y → b.InBounds j y

/-- A point is feasible: every block is within its bounds. -/
def Feasible (pb : ℕ → PB α) (blocks : List ℕ) (x : ℕ → List α) : Prop :=
  ∀ b ∈ blocks, InBox (pb b) (x b)

/-- The bound arrays have one entry per coordinate. -/
structure BoundsSized (b : PB α) : Prop where
  lower : ∀ l, b.lower = some l → l.length = b.size
  upper : ∀ u, b.upper = some u → u.length = b.size

end Ceres.Feasible
