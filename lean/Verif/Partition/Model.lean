/-!
# Model of `partition_range_for_parallel_for.h`

`cum i` is `cumulative_cost_fun(cumulative_cost_data[i])`, the inclusive cumulative cost of
index `i`.  Simplifications: integers do not overflow; `std::partition_point` is modelled by
a linear scan for the first element that fails the predicate (they agree when the costs are
non-decreasing, which is the documented precondition).
-/
namespace Ceres.Partition

/-- `std::partition_point` with `cost ≤ target` over `[ps, stop)` (lines 67-74). -/
def partPoint (cum : Nat → Int) (target : Int) (ps stop : Nat) : Nat :=
  if ps < stop ∧ cum ps ≤ target then partPoint cum target (ps + 1) stop else ps
termination_by stop - ps

theorem partPoint_ge (cum : Nat → Int) (target : Int) (ps stop : Nat) :
    ps ≤ partPoint cum target ps stop := by
  fun_induction partPoint cum target ps stop with
  | case1 ps h ih => omega
  | case2 ps h => exact Nat.le_refl _

/-- The loop of `MaxPartitionCostIsFeasible` (lines 60-87).  `acc` is `*partition`;
`none` is `return false`. -/
def feasLoop (cum : Nat → Int) (stop maxParts : Nat) (cost : Int) (ps : Nat) (off : Int)
    (acc : List Nat) : Option (List Nat) :=
  if ps < stop then
    if acc.length > maxParts then none
    else
      if partPoint cum (cost + off) ps stop = ps then none
      else feasLoop cum stop maxParts cost (partPoint cum (cost + off) ps stop)
        (cum (partPoint cum (cost + off) ps stop - 1))
        (acc ++ [partPoint cum (cost + off) ps stop])
  else some acc
termination_by stop - ps
decreasing_by
  have := partPoint_ge cum (cost + off) ps stop
  omega

/-- `MaxPartitionCostIsFeasible` (lines 47-88). -/
def feasible (cum : Nat → Int) (start stop maxParts : Nat) (cost off : Int) :
    Option (List Nat) :=
  feasLoop cum stop maxParts cost start off [start]

/-- The binary search (lines 124-145). -/
def search (cum : Nat → Int) (start stop maxParts : Nat) (off : Int) (lo hi : Int)
    (best : List Nat) : List Nat :=
  if hi - lo > 1 then
    match feasible cum start stop maxParts (lo + (hi - lo) / 2) off with
    | some p => search cum start stop maxParts off lo (lo + (hi - lo) / 2) p
    | none => search cum start stop maxParts off (lo + (hi - lo) / 2) hi best
  else best
termination_by (hi - lo).toNat
decreasing_by all_goals omega

/-- `PartitionRangeForParallelFor` (lines 94-148). `Int` division rounds down; here both
operands are non-negative so it is the C++ division. -/
def partitionRange (cum : Nat → Int) (start stop maxParts : Nat) : List Nat :=
  let off := if start = 0 then 0 else cum (start - 1)
  let total := cum (stop - 1) - off
  search cum start stop maxParts off (total / maxParts - 1) total [start, stop]

end Ceres.Partition
