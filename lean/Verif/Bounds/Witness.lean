import Verif.Bounds.History
import Mathlib.Algebra.Order.Group.Int

/-! # Concrete histories, and what the theorem cannot say -/
namespace Ceres.Bounds

open Ceres.Problem

/-- Options as by default. -/
def wEnv : Env :=
  { fastRemoval := false, disableSafety := false, ownCost := true, ownLoss := true, ownManifold := true,
    sizes := fun _ => [2], ambient := fun _ => 2, tangent := fun _ => 1, order := id, order_perm := fun _ => .rfl }

/-- A block of two at 8 whose bounds are set and set again, and a block of one at 40. -/
def wCalls : List (Call ℤ) :=
  [.other (.addParameter 8 2), .setLower 8 0 (-3), .setUpper 8 1 7, .setUpper 8 1 5, .other (.addParameter 40 1),
   .setLower 40 0 2]

/-- The history meets the hypotheses of `bounds_history`, ... -/
example : ∀ o ∈ wCalls, Finite (-100) 100 o := by
  simp [wCalls, Finite]

/-- ... it succeeds, and the bounds asked back are those set last. -/
example : ∃ s, run wEnv (-100) 100 init wCalls = .ok s ∧
    getLower (-100) s 8 0 = .ok (-3) ∧ getLower (-100) s 8 1 = .ok (-100) ∧ getUpper 100 s 8 0 = .ok 100 ∧
    getUpper 100 s 8 1 = .ok 5 ∧ getLower (-100) s 40 0 = .ok 2 ∧ getLower (-100) s 48 0 = .error .abort :=
  ⟨_, rfl, rfl, rfl, rfl, rfl, rfl, rfl⟩

/-- A block removed and added again has no bounds. -/
example : ∃ s, run wEnv (-100) 100 init (wCalls ++ [.other (.removeParameter 8), .other (.addParameter 8 2)]) = .ok s ∧
    getLower (-100) s 8 0 = .ok (-100) ∧ getUpper 100 s 8 1 = .ok 100 ∧ getLower (-100) s 40 0 = .ok 2 :=
  ⟨_, rfl, rfl, rfl, rfl⟩

/-- A bound on a coordinate the block has not fails. -/
example : run wEnv (-100) 100 init (wCalls ++ [.setLower 40 1 0]) = .error .abort := rfl

/-- The hypothesis `Finite` is needed: an infinite upper bound (101 here, above the largest finite number) is asked
back as the largest number if it is the first bound of the block, and as itself if any coordinate of the block was
bounded before. -/
theorem infinite_bound :
    (∃ s, run wEnv (-100 : ℤ) 100 init [.other (.addParameter 8 2), .setUpper 8 0 101] = .ok s ∧
      getUpper 100 s 8 0 = .ok 100) ∧
    (∃ s, run wEnv (-100 : ℤ) 100 init [.other (.addParameter 8 2), .setUpper 8 1 5, .setUpper 8 0 101] = .ok s ∧
      getUpper 100 s 8 0 = .ok 101) :=
  ⟨⟨_, rfl, rfl⟩, ⟨_, rfl, rfl⟩⟩

/-- Asking for a coordinate the block has not is not checked: the largest number is returned if the block has no bound,
and otherwise the read is past the end of the array. -/
theorem index_unchecked :
    (∃ s, run wEnv (-100 : ℤ) 100 init [.other (.addParameter 8 2)] = .ok s ∧ getUpper 100 s 8 9 = .ok 100) ∧
    (∃ s, run wEnv (-100 : ℤ) 100 init [.other (.addParameter 8 2), .setUpper 8 0 5] = .ok s ∧
      getUpper 100 s 8 9 = .error .ub) :=
  ⟨⟨_, rfl, rfl⟩, ⟨_, rfl, rfl⟩⟩

end Ceres.Bounds
