import Verif.CApi.Props
import Mathlib.Order.Nat
/-! Concrete histories of the C interface. -/
namespace Ceres.CApi

open Ceres.Problem (Err)

/-- Two problems share the data of one stock loss function; the second is solved after the
first was freed, and the data is freed last. -/
def exCalls : List (Call Nat) :=
  [.createProblem, .createStock (.tolerant 2 3), .createProblem,
   .add 0 ⟨5, 50⟩ 1 0 2 [(10, 3), (20, 2)],
   .add 1 ⟨6, 60⟩ 1 0 1 [(20, 2)],
   .add 0 ⟨7, 70⟩ 0 9 1 [(20, 2)],
   .add 0 ⟨8, 80⟩ 4 9 1 [(10, 3)],
   .solve 0 [(0, true), (2, true), (1, true), (0, false)],
   .freeProblem (some 0),
   .solve 1 [(0, true)],
   .freeProblem (some 1), .freeStock (some 0)]

/-- The callbacks are called with the data they were given, and only the first and third
block of the first problem have a loss function. -/
theorem example_log : (match run World.empty exCalls with
    | .ok w => w.log
    | .error _ => []) =
    [.cost ⟨5, 50⟩ 2 [10, 20], .stock (.tolerant 2 3),
     .cost ⟨8, 80⟩ 1 [10], .loss ⟨4, 9⟩,
     .cost ⟨7, 70⟩ 1 [20],
     .cost ⟨5, 50⟩ 2 [10, 20],
     .cost ⟨6, 60⟩ 1 [20], .stock (.tolerant 2 3)] := by decide +kernel

/-- Whether a history ends normally, and if not how. -/
def outcome (calls : List (Call Nat)) : Option Err :=
  match run World.empty calls with
  | .ok _ => none
  | .error e => some e

/-- A residual block does not keep the data of its stock loss function alive: freeing the data
before the problem is solved is undefined behaviour.  So is freeing it, or a problem, twice. -/
theorem freed_too_early :
    outcome [.createProblem, .createStock (.huber 1), .add 0 ⟨5, 50⟩ 1 0 1 [(10, 3)],
      .freeStock (some 0), .solve 0 [(0, true)]] = some .ub ∧
    outcome [.createProblem, .createStock (.huber 1), .add 0 ⟨5, 50⟩ 1 0 1 [(10, 3)],
      .freeStock (some 0), .freeProblem (some 0)] = none ∧
    outcome [.createStock (.huber 1), .freeStock (some 0), .freeStock (some 0)] = some .ub ∧
    outcome [.createProblem, .freeProblem (some 0), .freeProblem (some 0)] = some .ub := by
  decide +kernel

/-- A block that overlaps another, has another size than before, is null or is given twice is
refused with a failed check. -/
theorem refused :
    outcome [.createProblem, .add 0 ⟨5, 50⟩ 0 0 1 [(10, 3), (12, 1)]] = some .abort ∧
    outcome [.createProblem, .add 0 ⟨5, 50⟩ 0 0 1 [(10, 3)], .add 0 ⟨5, 50⟩ 0 0 1 [(10, 2)]] =
      some .abort ∧
    outcome [.createProblem, .add 0 ⟨5, 50⟩ 0 0 1 [(0, 3)]] = some .abort ∧
    outcome [.createProblem, .add 0 ⟨5, 50⟩ 0 0 1 [(10, 3), (10, 3)]] = some .abort ∧
    outcome [.createStock (.tolerant 1 0)] = some .abort := by
  decide +kernel

end Ceres.CApi
