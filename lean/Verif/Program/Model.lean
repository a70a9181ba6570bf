import Mathlib.Order.Defs.LinearOrder
import Mathlib.Order.Lattice
import Mathlib.Algebra.Group.Defs

/-!
# Model of `ParameterBlock` and `Program` (parameter_block.h, program.cc)

Values are elements of an arbitrary linearly ordered type with an addition (doubles without
NaN, rounding not modelled); `big` stands for `std::numeric_limits<double>::max()` and
`nbig` for its negative.  User memory is one flat array of cells.
-/
namespace Ceres.Program

/-- A manifold as the parameter block uses it: `TangentSize`, `Plus` (may fail) and whether
`PlusJacobian` succeeds with finite entries (manifold.h:192-260, parameter_block.h:316-343). -/
structure Manifold (α : Type) where
  tangent : Nat
  plus : List α → List α → Option (List α)
  jacOk : List α → Bool

/-- The members of `ParameterBlock` (parameter_block.h:345-384).  `user` and `state` are the
addresses `user_state_` and `state_`. -/
structure PB (α : Type) where
  user : Nat
  size : Nat
  state : Nat
  setConst : Bool
  manifold : Option (Manifold α)
  lower : Option (List α)
  upper : Option (List α)
  index : Int
  stateOff : Nat
  deltaOff : Nat

variable {α : Type}

/-- `TangentSize` (parameter_block.h:155-157). -/
def PB.tangentSize (b : PB α) : Nat :=
  match b.manifold with
  | none => b.size
  | some m => m.tangent

/-- `IsConstant` (parameter_block.h:121). -/
def PB.isConstant (b : PB α) : Bool := b.setConst || b.tangentSize == 0

/-! ### Memory -/

/-- A flat memory. -/
abbrev Mem (α : Type) := Nat → α

/-- The `n` cells from address `a`. -/
def readMem (m : Mem α) (a n : Nat) : List α := (List.range n).map (fun i => m (a + i))

/-- Overwrite the cells from address `a` with `l`. -/
def writeMem (m : Mem α) (a : Nat) (l : List α) : Mem α := fun i =>
  if a ≤ i then
    match l[i - a]? with
    | some v => v
    | none => m i
  else m i

/-- `GetState(x)` (parameter_block.h:105-109): copy `state_` to `x` unless they are the same
pointer (source and destination never overlap partially). -/
def PB.getState (b : PB α) (m : Mem α) (x : Nat) : Mem α :=
  if x ≠ b.state then writeMem m x (readMem m b.state b.size) else m

/-- `UpdatePlusJacobian` (parameter_block.h:316-343), result only. -/
def PB.jacOk (b : PB α) (m : Mem α) : Bool :=
  match b.manifold with
  | none => true
  | some mf => mf.jacOk (readMem m b.state b.size)

/-- `SetState(x)` (parameter_block.h:92-100) for a block that is not constant. -/
def PB.setState (b : PB α) (m : Mem α) (x : Nat) : PB α × Bool :=
  ({ b with state := x }, ({ b with state := x } : PB α).jacOk m)

/-- `StateVectorToParameterBlocks` (program.cc:81-89). -/
def stateVectorToParameterBlocks (m : Mem α) : List (PB α) → Nat → List (PB α) × Bool
  | [], _ => ([], true)
  | b :: bs, x =>
    if b.isConstant then
      (b :: (stateVectorToParameterBlocks m bs (x + b.size)).1,
        (stateVectorToParameterBlocks m bs (x + b.size)).2)
    else if (b.setState m x).2 then
      ((b.setState m x).1 :: (stateVectorToParameterBlocks m bs (x + b.size)).1,
        (stateVectorToParameterBlocks m bs (x + b.size)).2)
    else ((b.setState m x).1 :: bs, false)

/-- `ParameterBlocksToStateVector` (program.cc:91-96). -/
def parameterBlocksToStateVector : List (PB α) → Mem α → Nat → Mem α
  | [], m, _ => m
  | b :: bs, m, x => parameterBlocksToStateVector bs (b.getState m x) (x + b.size)

/-- `CopyParameterBlockStateToUserState` (program.cc:98-102). -/
def copyToUserState : List (PB α) → Mem α → Mem α
  | [], m => m
  | b :: bs, m => copyToUserState bs (b.getState m b.user)

/-- `SetParameterBlockStatePtrsToUserStatePtrs` (program.cc:104-112). -/
def setStatePtrsToUser (m : Mem α) : List (PB α) → List (PB α) × Bool
  | [] => ([], true)
  | b :: bs =>
    if b.isConstant then
      (b :: (setStatePtrsToUser m bs).1, (setStatePtrsToUser m bs).2)
    else if (b.setState m b.user).2 then
      ((b.setState m b.user).1 :: (setStatePtrsToUser m bs).1, (setStatePtrsToUser m bs).2)
    else ((b.setState m b.user).1 :: bs, false)

/-- The second loop of `SetParameterOffsetsAndIndex` (program.cc:152-161).  The first loop
(lines 147-151) gives every block used by a residual index `-1`; blocks of the program are
then overwritten here. -/
def setOffsets : List (PB α) → Int → Nat → Nat → List (PB α)
  | [], _, _, _ => []
  | b :: bs, i, so, d =>
    { b with
      index := i
      stateOff := so
      deltaOff := d } :: setOffsets bs (i + 1) (so + b.size) (d + b.tangentSize)

/-! ### Bounds -/

variable [LinearOrder α]

/-- `SetUpperBound` (parameter_block.h:191-206).  `none` is the failed `CHECK_LT`. -/
def PB.setUpper (big : α) (b : PB α) (i : Nat) (v : α) : Option (PB α) :=
  if i < b.size then
    match b.upper with
    | none =>
      if big ≤ v then some b
      else some { b with upper := some ((List.replicate b.size big).set i v) }
    | some u => some { b with upper := some (u.set i v) }
  else none

/-- `SetLowerBound` (parameter_block.h:208-223). -/
def PB.setLower (nbig : α) (b : PB α) (i : Nat) (v : α) : Option (PB α) :=
  if i < b.size then
    match b.lower with
    | none =>
      if v ≤ nbig then some b
      else some { b with lower := some ((List.replicate b.size nbig).set i v) }
    | some u => some { b with lower := some (u.set i v) }
  else none

/-- `UpperBoundForParameter` (parameter_block.h:307-313). -/
def PB.upperAt (big : α) (b : PB α) (i : Nat) : α :=
  match b.upper with
  | none => big
  | some u => u.getD i big

/-- `LowerBoundForParameter` (parameter_block.h:299-305). -/
def PB.lowerAt (nbig : α) (b : PB α) (i : Nat) : α :=
  match b.lower with
  | none => nbig
  | some u => u.getD i nbig

/-- The body of `IsFeasible` for one block (program.cc:235-286): `true` = no early return. -/
def PB.feasible (nbig big : α) (m : Mem α) (b : PB α) : Bool :=
  if b.isConstant then
    (List.range b.size).all (fun j =>
      !(decide (m (b.user + j) < b.lowerAt nbig j) || decide (b.upperAt big j < m (b.user + j))))
  else
    (List.range b.size).all (fun j => !decide (b.upperAt big j ≤ b.lowerAt nbig j))

/-- `IsFeasible` (program.cc:233-289). -/
def isFeasible (nbig big : α) (m : Mem α) (bs : List (PB α)) : Bool :=
  bs.all (PB.feasible nbig big m)

/-- `IsBoundsConstrained` (program.cc:215-231). -/
def isBoundsConstrained (nbig big : α) (bs : List (PB α)) : Bool :=
  bs.any (fun b => !b.isConstant && (List.range b.size).any (fun j =>
    decide (nbig < b.lowerAt nbig j) || decide (b.upperAt big j < big)))

/-! ### Plus -/

/-- Result of `ParameterBlock::Plus`. `ub` is `std::clamp` with `hi < lo`. -/
inductive PlusRes (α : Type) where
  | ok (x : List α)
  | fail
  | ub

/-- The clamp loop (parameter_block.h:239-243).  `none`: `std::clamp` called with
`upper < lower`, which is undefined behaviour. -/
def clampAll : List α → List α → List α → Option (List α)
  | x :: xs, l :: ls, u :: us =>
    if u < l then none
    else
      match clampAll xs ls us with
      | none => none
      | some r => some ((if x < l then l else if u < x then u else x) :: r)
  | xs, _, _ => some xs

/-- The projection (parameter_block.h:238-252).  `std::max(a, b)` is `a < b ? b : a` and
`std::min(a, b)` is `b < a ? b : a`. -/
def PB.project (b : PB α) (x : List α) : PlusRes α :=
  match b.lower, b.upper with
  | some l, some u =>
    match clampAll x l u with
    | none => .ub
    | some r => .ok r
  | some l, none => .ok (x.zipWith (fun v lo => if v < lo then lo else v) l)
  | none, some u => .ok (x.zipWith (fun v hi => if hi < v then hi else v) u)
  | none, none => .ok x

/-- `ParameterBlock::Plus` (parameter_block.h:228-255). -/
def PB.plus [Add α] (b : PB α) (x delta : List α) : PlusRes α :=
  match b.manifold with
  | some mf =>
    match mf.plus x delta with
    | none => .fail
    | some y => b.project y
  | none => b.project (x.zipWith (· + ·) delta)

/-- State of the parallel loop of `Program::Plus`: the output buffer, the flag `abort`, and
whether undefined behaviour happened. -/
structure PlusState (α : Type) where
  out : Mem α
  abort : Bool
  ub : Bool

/-- The loop body for one block that does not see `abort` (program.cc:130-139). -/
def plusBody [Add α] (b : PB α) (state delta : Mem α) (s : PlusState α) : PlusState α :=
  match b.plus (readMem state b.stateOff b.size) (readMem delta b.deltaOff b.tangentSize) with
  | .ok r => { s with out := writeMem s.out b.stateOff r }
  | .fail => { s with abort := true }
  | .ub => { s with ub := true }

/-- A parallel execution of the loop of `Program::Plus` (program.cc:121-140) over the block
ids in the order in which the bodies take effect.  A body may be skipped only when `abort` is
already set; it may still be executed then, because the test and the call are not atomic.
(Bodies write disjoint parts of the output, so considering them one after the other loses
nothing; a manifold that fails leaves unspecified values in its own part, which is not
modelled since the result is then discarded.) -/
inductive PlusRun [Add α] (bs : List (PB α)) (state delta : Mem α) :
    List Nat → PlusState α → PlusState α → Prop where
  | nil (s : PlusState α) : PlusRun bs state delta [] s s
  | exec (i : Nat) (b : PB α) (rest : List Nat) (s s' : PlusState α) : bs[i]? = some b →
      PlusRun bs state delta rest (plusBody b state delta s) s' →
      PlusRun bs state delta (i :: rest) s s'
  | skip (i : Nat) (rest : List Nat) (s s' : PlusState α) : s.abort = true →
      PlusRun bs state delta rest s s' → PlusRun bs state delta (i :: rest) s s'

/-! ### Removal of fixed blocks -/

/-- The in-place compaction pattern of program.cc:331-350/393 and 396-406: iterate over the
array by position, write each kept element at the next free position of the same array, then
shrink. `n` is `num_active_...`, `i` the loop position, `fuel` the remaining length. -/
def compactLoop {β : Type} (keep : β → Bool) : Nat → Nat → Nat → List β → List β
  | 0, _, n, arr => arr.take n
  | fuel + 1, i, n, arr =>
    match arr[i]? with
    | none => arr.take n
    | some x =>
      if keep x then compactLoop keep fuel (i + 1) (n + 1) (arr.set n x)
      else compactLoop keep fuel (i + 1) n arr

/-- The whole loop. -/
def compact {β : Type} (keep : β → Bool) (arr : List β) : List β :=
  compactLoop keep arr.length 0 0 arr

/-- A residual block as `RemoveFixedBlocks` sees it: the parameter blocks it depends on, and
its cost (loss applied) as a function of their values, `none` if evaluation fails
(residual_block.cc:70-198 with `residuals` and `jacobians` null). -/
structure RB (V C : Type) where
  params : List Nat
  cost : List V → Option C

/-- A program: parameter blocks (by identity) and residual blocks. -/
structure Prog (V C : Type) where
  pblocks : List Nat
  rblocks : List (RB V C)

/-- Whether all parameter blocks of a residual are constant (program.cc:338-345). -/
def RB.allConstant {V C : Type} (isConst : Nat → Bool) (r : RB V C) : Bool := r.params.all isConst

/-- Cost of one residual block at an assignment of values to parameter blocks. -/
def RB.eval {V C : Type} (r : RB V C) (x : Nat → V) : Option C := r.cost (r.params.map x)

/-- The marking: blocks with index `1` after the loop of lines 332-345. -/
def marked {V C : Type} (isConst : Nat → Bool) (rs : List (RB V C)) : List Nat :=
  rs.flatMap (fun r => r.params.filter (fun p => !isConst p))

/-- Accumulation of `fixed_cost` (lines 378-391); `none` = evaluation failed. -/
def fixedCost {V C : Type} [Add C] (isConst : Nat → Bool) (x : Nat → V) :
    List (RB V C) → C → Option C
  | [], acc => some acc
  | r :: rs, acc =>
    if r.allConstant isConst then
      match r.eval x with
      | none => none
      | some c => fixedCost isConst x rs (acc + c)
    else fixedCost isConst x rs acc

/-- Result of `RemoveFixedBlocks` (program.cc:309-415). -/
structure Reduced (V C : Type) where
  prog : Prog V C
  removed : List Nat
  fixedCost : C

/-- Errors: evaluation of a fixed residual failed (line 384), or the message of line 410. -/
inductive RemoveErr where
  | evaluation
  | bug
  deriving DecidableEq

/-- `RemoveFixedBlocks` (program.cc:309-415); `x` is the current state of the blocks. -/
def removeFixedBlocks {V C : Type} [Add C] [Zero C] (isConst : Nat → Bool) (x : Nat → V)
    (p : Prog V C) : Except RemoveErr (Reduced V C) :=
  match fixedCost isConst x p.rblocks 0 with
  | none => .error .evaluation
  | some fc =>
    let rb := compact (fun r => !r.allConstant isConst) p.rblocks
    let mk := marked isConst p.rblocks
    let pb := compact (fun b => decide (b ∈ mk)) p.pblocks
    if (rb.length = 0 ∧ pb.length = 0) ∨ (rb.length ≠ 0 ∧ pb.length ≠ 0) then
      .ok { prog := { pblocks := pb, rblocks := rb },
            removed := p.pblocks.filter (fun b => decide (b ∉ mk)), fixedCost := fc }
    else .error .bug

end Ceres.Program
