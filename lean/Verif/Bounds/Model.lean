import Verif.Problem.Inv4
import Mathlib.Order.Defs.LinearOrder

/-!
# Bounds on parameters, through the `Problem` (problem_impl.cc, parameter_block.h)

The container of C01 with the two arrays of bounds that every parameter block has.  Numbers are of a linear order
with a largest one `big` (`std::numeric_limits<double>::max()`) and a least one `small` (its negative); NaN is not
modelled.
-/
namespace Ceres.Bounds

open Ceres.Problem

/-- The problem, and for every parameter block (not: address) `lower_bounds_` and `upper_bounds_`
(parameter_block.h:365-371); `none` is the null pointer. -/
structure State (K : Type) where
  problem : Problem.State
  lower : ℕ → Option (ℕ → K)
  upper : ℕ → Option (ℕ → K)

variable {K : Type} [LinearOrder K]

/-- A new problem. -/
def init : State K := ⟨Problem.init, fun _ => none, fun _ => none⟩

/-- `ParameterBlock::SetUpperBound` (parameter_block.h:191-206) on a block of the given size: the array afterwards.
`none` is a failed `CHECK_LT`. -/
def setArrayUpper (big : K) (size : ℕ) (arr : Option (ℕ → K)) (i : ℕ) (v : K) : Option (Option (ℕ → K)) :=
  if size ≤ i then none
  else if big ≤ v ∧ arr.isNone then some arr
  else some (some (upd (arr.getD fun _ => big) i v))

/-- `ParameterBlock::SetLowerBound` (parameter_block.h:208-223). -/
def setArrayLower (small : K) (size : ℕ) (arr : Option (ℕ → K)) (i : ℕ) (v : K) : Option (Option (ℕ → K)) :=
  if size ≤ i then none
  else if v ≤ small ∧ arr.isNone then some arr
  else some (some (upd (arr.getD fun _ => small) i v))

/-- `ProblemImpl::SetParameterUpperBound` (problem_impl.cc:549-560). -/
def setUpper (big : K) (s : State K) (a i : ℕ) (v : K) : Except Err (State K) :=
  match mapFind s.problem.pmap a with
  | none => .error .abort
  | some p => do
    let b ← getP s.problem p
    match setArrayUpper big b.size (s.upper p) i v with
    | none => .error .abort
    | some arr => .ok { s with upper := upd s.upper p arr }

/-- `ProblemImpl::SetParameterLowerBound` (problem_impl.cc:535-547). -/
def setLower (small : K) (s : State K) (a i : ℕ) (v : K) : Except Err (State K) :=
  match mapFind s.problem.pmap a with
  | none => .error .abort
  | some p => do
    let b ← getP s.problem p
    match setArrayLower small b.size (s.lower p) i v with
    | none => .error .abort
    | some arr => .ok { s with lower := upd s.lower p arr }

/-- A call: one of those of C01, or one that sets a bound. -/
inductive Call (K : Type) where
  | other (o : Op)
  | setLower (a i : ℕ) (v : K)
  | setUpper (a i : ℕ) (v : K)

/-- One call.  The blocks allocated by it have no arrays (parameter_block.h:66-84, 365-371: the pointers are empty);
arrays of blocks that are deleted are not touched, nobody can ask for them. -/
def step (env : Env) (small big : K) (s : State K) : Call K → Except Err (State K)
  | .other o => do
    let p ← Problem.step env s.problem o
    .ok ⟨p, fun k => if k < s.problem.nextP then s.lower k else none,
      fun k => if k < s.problem.nextP then s.upper k else none⟩
  | .setLower a i v => setLower small s a i v
  | .setUpper a i v => setUpper big s a i v

/-- A history of calls. -/
def run (env : Env) (small big : K) : State K → List (Call K) → Except Err (State K)
  | s, [] => .ok s
  | s, o :: os => do
    let s1 ← step env small big s o
    run env small big s1 os

/-- `ParameterBlock::UpperBound`, `LowerBound` (parameter_block.h:123-131): reading past the end is undefined. -/
def readArray (dflt : K) (size : ℕ) (arr : Option (ℕ → K)) (i : ℕ) : Except Err K :=
  match arr with
  | none => .ok dflt
  | some f => if i < size then .ok (f i) else .error .ub

/-- `ProblemImpl::GetParameterLowerBound` (problem_impl.cc:562-572). -/
def getLower (small : K) (s : State K) (a i : ℕ) : Except Err K :=
  match mapFind s.problem.pmap a with
  | none => .error .abort
  | some p => do
    let b ← getP s.problem p
    readArray small b.size (s.lower p) i

/-- `ProblemImpl::GetParameterUpperBound` (problem_impl.cc:574-584). -/
def getUpper (big : K) (s : State K) (a i : ℕ) : Except Err K :=
  match mapFind s.problem.pmap a with
  | none => .error .abort
  | some p => do
    let b ← getP s.problem p
    readArray big b.size (s.upper p) i

/-! ## Specification -/

/-- What a user knows: the problem of C01, and for every address and coordinate the bounds. -/
structure Known (K : Type) where
  problem : Spec
  lower : ℕ → ℕ → K
  upper : ℕ → ℕ → K

/-- The new value of one coordinate. -/
def put (f : ℕ → ℕ → K) (a i : ℕ) (v : K) : ℕ → ℕ → K := fun a' i' => if a' = a ∧ i' = i then v else f a' i'

/-- A bound can be set on the coordinates of the blocks of the problem.  Any other call keeps the bounds of the blocks
that are in the problem before and after, and leaves everything else without bounds. -/
noncomputable def Known.step (env : Env) (small big : K) (k : Known K) : Call K → Except Err (Known K)
  | .other o => do
    let p ← specStep env k.problem o
    .ok ⟨p, fun a i => if (k.problem.params a).isSome ∧ (p.params a).isSome then k.lower a i else small,
      fun a i => if (k.problem.params a).isSome ∧ (p.params a).isSome then k.upper a i else big⟩
  | .setLower a i v =>
    match k.problem.params a with
    | none => .error .abort
    | some b => if i < b.size then .ok { k with lower := put k.lower a i v } else .error .abort
  | .setUpper a i v =>
    match k.problem.params a with
    | none => .error .abort
    | some b => if i < b.size then .ok { k with upper := put k.upper a i v } else .error .abort

noncomputable def Known.run (env : Env) (small big : K) : Known K → List (Call K) → Except Err (Known K)
  | k, [] => .ok k
  | k, o :: os => do
    let k1 ← k.step env small big o
    Known.run env small big k1 os

/-- Nothing is known of an empty problem. -/
def Known.empty (small big : K) : Known K := ⟨Spec.empty, fun _ _ => small, fun _ _ => big⟩

/-- The bounds set are numbers: not infinite the other way round, which the code stores differently
(`infinite_bound` in Witness.lean). -/
def Finite (small big : K) : Call K → Prop
  | .other _ => True
  | .setLower _ _ v => small ≤ v
  | .setUpper _ _ v => v ≤ big

end Ceres.Bounds
