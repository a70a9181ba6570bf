/-!
# Model of `ProblemImpl` (internal/ceres/problem_impl.cc)

State machine of the `Problem` container: the two block vectors of the `Program`, the
address-ordered parameter map, the residual set and dependency sets used by fast removal,
the reference counts of owned cost and loss functions and the list of owned manifolds.

Simplifications (all of them):
* Pointers to `ParameterBlock`/`ResidualBlock`/`CostFunction`/`LossFunction`/`Manifold`
  objects are natural numbers; freshly allocated blocks get ids never used before (an
  allocator may reuse the address of a freed block, the model does not).
* `double*` is a natural number counting doubles; `nullptr` is `0`.
* `absl::btree_map<double*, ...>` is an association list kept sorted by key.
* `absl::flat_hash_set` is a duplicate-free list; the unspecified iteration order used by
  fast removal is the arbitrary permutation `Env.order`.
* Numerical state, bounds and evaluation are not part of this file.
-/

namespace Ceres.Problem

/-- Outcomes other than normal return: `abort` is a failed `CHECK` or `LOG(FATAL)`;
`ub` is a dereference of a dead object, an out-of-range vector access, or a dangling
pointer handed in by the caller. -/
inductive Err where
  | abort
  | ub
  deriving DecidableEq, Repr

/-- `Problem::Options` (include/ceres/problem.h) as used by problem_impl.cc, plus the facts
about user objects that `ProblemImpl` reads: `sizes c` is
`c->parameter_block_sizes()`; `ambient m`, `tangent m` are the manifold's sizes.
`order` is the hash-set iteration order (problem_impl.cc:447-449). -/
structure Env where
  fastRemoval : Bool
  disableSafety : Bool
  ownCost : Bool
  ownLoss : Bool
  ownManifold : Bool
  sizes : Nat → List Nat
  ambient : Nat → Nat
  tangent : Nat → Int
  order : List Nat → List Nat
  order_perm : ∀ l, (order l).Perm l

/-- `ParameterBlock` (parameter_block.h:64-371), the fields used by `ProblemImpl`.
`deps` models `residual_blocks_`: `none` is the null `unique_ptr`. -/
structure PBlock where
  addr : Nat
  size : Nat
  index : Nat
  isConst : Bool
  manifold : Option Nat
  deps : Option (List Nat)
  deriving DecidableEq, Repr

/-- `ResidualBlock` (residual_block.h:69-150). -/
structure RBlock where
  cost : Nat
  loss : Option Nat
  params : List Nat
  index : Nat
  deriving DecidableEq, Repr

/-- `ProblemImpl` members (problem_impl.h:190-221) with an explicit heap.
`cDel c`, `lDel l`, `mDel m` count how often the object was deleted. -/
structure State where
  pheap : Nat → Option PBlock
  rheap : Nat → Option RBlock
  nextP : Nat
  nextR : Nat
  pmap : List (Nat × Nat)
  pvec : List Nat
  rvec : List Nat
  rset : List Nat
  cRef : Nat → Option Nat
  lRef : Nat → Option Nat
  mOwned : List Nat
  cDel : Nat → Nat
  lDel : Nat → Nat
  mDel : Nat → Nat

/-- Function update, used for heaps and maps. -/
def upd {α : Type} (f : Nat → α) (k : Nat) (v : α) : Nat → α :=
  fun j => if j = k then v else f j

/-- A default constructed problem (problem_impl.cc:229-238). -/
def init : State where
  pheap := fun _ => none
  rheap := fun _ => none
  nextP := 0
  nextR := 0
  pmap := []
  pvec := []
  rvec := []
  rset := []
  cRef := fun _ => none
  lRef := fun _ => none
  mOwned := []
  cDel := fun _ => 0
  lDel := fun _ => 0
  mDel := fun _ => 0

/-- Dereference a `ParameterBlock*`. -/
def getP (s : State) (p : Nat) : Except Err PBlock :=
  match s.pheap p with
  | some b => .ok b
  | none => .error .ub

/-- Dereference a `ResidualBlock*`. -/
def getR (s : State) (r : Nat) : Except Err RBlock :=
  match s.rheap r with
  | some b => .ok b
  | none => .error .ub

/-- `parameter_block_map_.find(values)` (problem_impl.cc:128). -/
def mapFind (m : List (Nat × Nat)) (a : Nat) : Option Nat :=
  match m.find? (fun e => e.1 == a) with
  | some e => some e.2
  | none => none

/-- Insertion of a new key, `parameter_block_map_[values] = ...` (problem_impl.cc:172). -/
def mapInsert : List (Nat × Nat) → Nat → Nat → List (Nat × Nat)
  | [], a, p => [(a, p)]
  | e :: m, a, p =>
    if a < e.1 then (a, p) :: e :: m
    else if a = e.1 then (a, p) :: m
    else e :: mapInsert m a p

/-- `parameter_block_map_.erase(key)` (problem_impl.cc:225). -/
def mapErase (m : List (Nat × Nat)) (a : Nat) : List (Nat × Nat) :=
  m.filter (fun e => e.1 != a)

/-- `parameter_block_map_.lower_bound(values)` (problem_impl.cc:144): first entry with
key not less than `a`. -/
def mapLowerBound (m : List (Nat × Nat)) (a : Nat) : Option (Nat × Nat) :=
  m.find? (fun e => decide (a ≤ e.1))

/-- `--lower_bound` (problem_impl.cc:147-149): last entry with key less than `a`. -/
def mapPrevious (m : List (Nat × Nat)) (a : Nat) : Option (Nat × Nat) :=
  (m.filter (fun e => decide (e.1 < a))).getLast?

/-- `RegionsAlias` (problem_impl.cc:71-73). -/
def regionsAlias (a sa b sb : Nat) : Bool :=
  if a < b then decide (b < a + sa) else decide (a < b + sb)

/-- `CheckForNoAliasing` (problem_impl.cc:75-86) against an optional neighbour. -/
def checkNeighbour (s : State) (nb : Option (Nat × Nat)) (values size : Nat) :
    Except Err Unit :=
  match nb with
  | none => .ok ()
  | some e => do
    let b ← getP s e.2
    if regionsAlias e.1 b.size values size then .error .abort else .ok ()

/-- `ProblemImpl::InternalAddParameterBlock` (problem_impl.cc:123-175). -/
def internalAddParameterBlock (env : Env) (s : State) (values size : Nat) :
    Except Err (State × Nat) :=
  if values = 0 then .error .abort
  else
    match mapFind s.pmap values with
    | some p => do
      if env.disableSafety then .ok (s, p)
      else do
        let b ← getP s p
        if size = b.size then .ok (s, p) else .error .abort
    | none => do
      if env.disableSafety then pure ()
      else do
        checkNeighbour s (mapPrevious s.pmap values) values size
        checkNeighbour s (mapLowerBound s.pmap values) values size
      let p := s.nextP
      let b : PBlock :=
        { addr := values, size := size, index := s.pvec.length, isConst := false,
          manifold := none, deps := if env.fastRemoval then some [] else none }
      .ok ({ s with
        pheap := upd s.pheap p (some b)
        nextP := p + 1
        pmap := mapInsert s.pmap values p
        pvec := s.pvec ++ [p] }, p)

/-- The loop of problem_impl.cc:307-311. -/
def addBlocks (env : Env) : State → List (Nat × Nat) → Except Err (State × List Nat)
  | s, [] => .ok (s, [])
  | s, (a, n) :: rest => do
    let (s1, p) ← internalAddParameterBlock env s a n
    let (s2, ps) ← addBlocks env s1 rest
    .ok (s2, p :: ps)

/-- `ParameterBlock::AddResidualBlock` (parameter_block.h:279-284). -/
def pbAddResidual (s : State) (p r : Nat) : Except Err State := do
  let b ← getP s p
  match b.deps with
  | none => .error .abort
  | some d =>
    .ok { s with pheap := upd s.pheap p (some { b with deps := some (if r ∈ d then d else d ++ [r]) }) }

/-- `ParameterBlock::RemoveResidualBlock` (parameter_block.h:286-293). -/
def pbRemoveResidual (s : State) (p r : Nat) : Except Err State := do
  let b ← getP s p
  match b.deps with
  | none => .error .abort
  | some d =>
    if r ∈ d then
      .ok { s with pheap := upd s.pheap p (some { b with deps := some (d.erase r) }) }
    else .error .abort

/-- Size check loop of problem_impl.cc:316-323. -/
def checkSizes (s : State) : List (Nat × Nat) → Except Err Unit
  | [] => .ok ()
  | (p, n) :: rest => do
    let b ← getP s p
    if n = b.size then checkSizes s rest else .error .abort

/-- Loop adding the dependency to each parameter block (problem_impl.cc:333-337). -/
def addDeps : State → List Nat → Nat → Except Err State
  | s, [], _ => .ok s
  | s, p :: ps, r => do
    let s1 ← pbAddResidual s p r
    addDeps s1 ps r

/-- `++ref_count_[key]` (problem_impl.cc:349, 354). -/
def incr (m : Nat → Option Nat) (k : Nat) : Nat → Option Nat :=
  upd m k (some ((m k).getD 0 + 1))

/-- `loss_function != nullptr` guard around the count (problem_impl.cc:352-354). -/
def incrOpt (m : Nat → Option Nat) : Option Nat → Nat → Option Nat
  | some l => incr m l
  | none => m

/-- The loss function passed by the caller was already deleted. -/
def danglingLoss (s : State) : Option Nat → Bool
  | some l => s.lDel l != 0
  | none => false

/-- Creation and registration of the residual block (problem_impl.cc:325-356). -/
def registerResidual (env : Env) (s : State) (c : Nat) (loss : Option Nat) (ids : List Nat) :
    Except Err (State × Nat) := do
  let r := s.nextR
  let rb : RBlock := { cost := c, loss := loss, params := ids, index := s.rvec.length }
  let s2 := { s with rheap := upd s.rheap r (some rb), nextR := r + 1 }
  let s3 ← if env.fastRemoval then addDeps s2 ids r else .ok s2
  .ok ({ s3 with
    rvec := s3.rvec ++ [r]
    rset := if env.fastRemoval then s3.rset ++ [r] else s3.rset
    cRef := if env.ownCost then incr s3.cRef c else s3.cRef
    lRef := if env.ownLoss then incrOpt s3.lRef loss else s3.lRef }, r)

/-- `ProblemImpl::AddResidualBlock` (problem_impl.cc:268-357).  A null cost function is
`none`.  A cost or loss function that was already deleted is a dangling pointer passed by
the caller. -/
def addResidualBlock (env : Env) (s : State) (cost : Option Nat) (loss : Option Nat)
    (ps : List Nat) : Except Err (State × Nat) :=
  match cost with
  | none => .error .abort
  | some c =>
    if s.cDel c ≠ 0 then .error .ub
    else if danglingLoss s loss then .error .ub
    else if ps.length ≠ (env.sizes c).length then .error .abort
    else if env.disableSafety = false ∧ ¬ ps.Nodup then .error .abort
    else do
      let (s1, ids) ← addBlocks env s (ps.zip (env.sizes c))
      if env.disableSafety then pure () else checkSizes s1 (ids.zip (env.sizes c))
      registerResidual env s1 c loss ids

/-- `DecrementValueOrDeleteKey` (problem_impl.cc:88-98) on a reference-count map and the
deletion counter.  A missing key dereferences `end()`. -/
def decrementOrDelete (m : Nat → Option Nat) (del : Nat → Nat) (k : Nat) :
    Except Err ((Nat → Option Nat) × (Nat → Nat)) :=
  match m k with
  | none => .error .ub
  | some n =>
    if n = 1 then .ok (upd m k none, upd del k (del k + 1))
    else .ok (upd m k (some (n - 1)), del)

/-- problem_impl.cc:206-210. -/
def releaseCost (env : Env) (s : State) (c : Nat) : Except Err State :=
  if env.ownCost then do
    let x ← decrementOrDelete s.cRef s.cDel c
    .ok { s with cRef := x.1, cDel := x.2 }
  else .ok s

/-- problem_impl.cc:212-217. -/
def releaseLoss (env : Env) (s : State) (loss : Option Nat) : Except Err State :=
  match loss with
  | none => .ok s
  | some l =>
    if env.ownLoss then do
      let x ← decrementOrDelete s.lRef s.lDel l
      .ok { s with lRef := x.1, lDel := x.2 }
    else .ok s

/-- `ProblemImpl::DeleteBlock(ResidualBlock*)` (problem_impl.cc:202-220). -/
def deleteResidual (env : Env) (s : State) (r : Nat) : Except Err State := do
  let rb ← getR s r
  let s1 ← releaseCost env s rb.cost
  let s2 ← releaseLoss env s1 rb.loss
  .ok { s2 with rheap := upd s2.rheap r none }

/-- `ProblemImpl::DeleteBlock(ParameterBlock*)` (problem_impl.cc:224-227). -/
def deleteParameter (s : State) (p : Nat) : Except Err State := do
  let b ← getP s p
  .ok { s with pmap := mapErase s.pmap b.addr, pheap := upd s.pheap p none }

/-- `DeleteBlockInVector<ResidualBlock>` (problem_impl.cc:383-404). -/
def deleteResidualInVector (env : Env) (s : State) (r : Nat) : Except Err State := do
  let rb ← getR s r
  match s.rvec[rb.index]? with
  | none => .error .ub
  | some r' =>
    if r' ≠ r then .error .abort
    else
      match s.rvec.getLast? with
      | none => .error .ub
      | some t => do
        let tb ← getR s t
        let s1 := { s with rheap := upd s.rheap t (some { tb with index := rb.index }) }
        let s2 := { s1 with rvec := s1.rvec.set rb.index t }
        let s3 ← deleteResidual env s2 r
        .ok { s3 with rvec := s3.rvec.dropLast }

/-- `DeleteBlockInVector<ParameterBlock>` (problem_impl.cc:383-404). -/
def deleteParameterInVector (s : State) (p : Nat) : Except Err State := do
  let b ← getP s p
  match s.pvec[b.index]? with
  | none => .error .ub
  | some p' =>
    if p' ≠ p then .error .abort
    else
      match s.pvec.getLast? with
      | none => .error .ub
      | some t => do
        let tb ← getP s t
        let s1 := { s with pheap := upd s.pheap t (some { tb with index := b.index }) }
        let s2 := { s1 with pvec := s1.pvec.set b.index t }
        let s3 ← deleteParameter s2 p
        .ok { s3 with pvec := s3.pvec.dropLast }

/-- Loop of problem_impl.cc:186-189. -/
def removeDeps : State → List Nat → Nat → Except Err State
  | s, [], _ => .ok s
  | s, p :: ps, r => do
    let s1 ← pbRemoveResidual s p r
    removeDeps s1 ps r

/-- `ProblemImpl::InternalRemoveResidualBlock` (problem_impl.cc:177-195). -/
def internalRemoveResidualBlock (env : Env) (s : State) (r : Nat) : Except Err State := do
  let s1 ←
    if env.fastRemoval then do
      let rb ← getR s r
      let s0 ← removeDeps s rb.params r
      if r ∈ s0.rset then .ok { s0 with rset := s0.rset.erase r } else .error .ub
    else .ok s
  deleteResidualInVector env s1 r

/-- `ProblemImpl::RemoveResidualBlock` (problem_impl.cc:406-434). -/
def removeResidualBlock (env : Env) (s : State) (r : Nat) : Except Err State :=
  if env.fastRemoval then
    if r ∈ s.rset then internalRemoveResidualBlock env s r else .error .abort
  else
    if r ∈ s.rvec then internalRemoveResidualBlock env s r else .error .abort

/-- Loop of problem_impl.cc:450-452. -/
def removeAll (env : Env) : State → List Nat → Except Err State
  | s, [] => .ok s
  | s, r :: rs => do
    let s1 ← internalRemoveResidualBlock env s r
    removeAll env s1 rs

/-- The backward scan of problem_impl.cc:457-469: `n` blocks remain to be examined, the
next index is `n - 1`. -/
def backwardScan (env : Env) (p : Nat) : Nat → State → Except Err State
  | 0, s => .ok s
  | i + 1, s => do
    match s.rvec[i]? with
    | none => .error .ub
    | some r => do
      let rb ← getR s r
      let s1 ← if p ∈ rb.params then internalRemoveResidualBlock env s r else .ok s
      backwardScan env p i s1

/-- Removal of all residual blocks depending on `p` (problem_impl.cc:445-470). -/
def removeDependents (env : Env) (s : State) (p : Nat) : Except Err State :=
  if env.fastRemoval then do
    let b ← getP s p
    match b.deps with
    | none => .error .ub
    | some d => removeAll env s (env.order d)
  else backwardScan env p s.rvec.length s

/-- `ProblemImpl::RemoveParameterBlock` (problem_impl.cc:436-472). -/
def removeParameterBlock (env : Env) (s : State) (values : Nat) : Except Err State :=
  match mapFind s.pmap values with
  | none => .error .abort
  | some p => do
    let s1 ← removeDependents env s p
    deleteParameterInVector s1 p

/-- `ParameterBlock::SetConstant`/`SetVarying` through the problem
(problem_impl.cc:474-484, 495-505). -/
def setConst (s : State) (values : Nat) (c : Bool) : Except Err State :=
  match mapFind s.pmap values with
  | none => .error .abort
  | some p => do
    let b ← getP s p
    .ok { s with pheap := upd s.pheap p (some { b with isConst := c }) }

/-- `manifolds_to_delete_.push_back` in `InternalSetManifold` (problem_impl.cc:366-368). -/
def recordManifold (env : Env) (s : State) : Option Nat → State
  | some k => if env.ownManifold then { s with mOwned := s.mOwned ++ [k] } else s
  | none => s

/-- `ProblemImpl::SetManifold`, `InternalSetManifold` (problem_impl.cc:363-370, 507-517) and
`ParameterBlock::SetManifold` (parameter_block.h:161-189).  `jacOk` is the outcome of the
user's `PlusJacobian` at the current state (parameter_block.h:186). -/
def setManifold (env : Env) (s : State) (values : Nat) (m : Option Nat) (jacOk : Bool) :
    Except Err State :=
  match mapFind s.pmap values with
  | none => .error .abort
  | some p => do
    let s1 := recordManifold env s m
    let b ← getP s1 p
    if m = b.manifold then .ok s1
    else
      match m with
      | none => .ok { s1 with pheap := upd s1.pheap p (some { b with manifold := none }) }
      | some k =>
        if env.ambient k ≠ b.size then .error .abort
        else if env.tangent k < 0 then .error .abort
        else if jacOk then
          .ok { s1 with pheap := upd s1.pheap p (some { b with manifold := some k }) }
        else .error .abort

/-- Public mutating calls. -/
inductive Op where
  | addParameter (values size : Nat)
  | addParameterWithManifold (values size : Nat) (m : Option Nat) (jacOk : Bool)
  | addResidual (cost loss : Option Nat) (params : List Nat)
  | removeResidual (r : Nat)
  | removeParameter (values : Nat)
  | setConstant (values : Nat)
  | setVariable (values : Nat)
  | setManifold (values : Nat) (m : Option Nat) (jacOk : Bool)

/-- One public call.  `AddParameterBlock` is problem_impl.cc:359-361; the overload with a
manifold is 372-377 (the model looks the block up again instead of reusing the pointer). -/
def step (env : Env) (s : State) : Op → Except Err State
  | .addParameter a n => do
    let (s1, _) ← internalAddParameterBlock env s a n
    .ok s1
  | .addParameterWithManifold a n m ok => do
    let (s1, _) ← internalAddParameterBlock env s a n
    setManifold env s1 a m ok
  | .addResidual c l ps => do
    let (s1, _) ← addResidualBlock env s c l ps
    .ok s1
  | .removeResidual r => removeResidualBlock env s r
  | .removeParameter a => removeParameterBlock env s a
  | .setConstant a => setConst s a true
  | .setVariable a => setConst s a false
  | .setManifold a m ok => setManifold env s a m ok

/-- A whole history of calls, in order, on a given problem. -/
def run (env : Env) : State → List Op → Except Err State
  | s, [] => .ok s
  | s, o :: os => do
    let s1 ← step env s o
    run env s1 os

/-- `ProblemImpl::~ProblemImpl` (problem_impl.cc:240-266): the deletion counters after the
destructor.  Residual blocks are deleted directly (line 241), then every key of the
reference-count maps (244-252), then the manifolds, each once (259-261). -/
def destroy (env : Env) (s : State) : (Nat → Nat) × (Nat → Nat) × (Nat → Nat) :=
  (fun c => s.cDel c + (if env.ownCost = true ∧ (s.cRef c).isSome then 1 else 0),
   fun l => s.lDel l + (if env.ownLoss = true ∧ (s.lRef l).isSome then 1 else 0),
   fun m => s.mDel m + (if m ∈ s.mOwned then 1 else 0))

/-! ### Queries -/

/-- `HasParameterBlock` (problem_impl.cc:824-827). -/
def hasParameterBlock (s : State) (a : Nat) : Bool := (mapFind s.pmap a).isSome

/-- `GetParameterBlocks` (problem_impl.cc:829-837). -/
def getParameterBlocks (s : State) : List Nat := s.pmap.map (·.1)

/-- `NumParameterBlocks` (problem_impl.cc:788-790). -/
def numParameterBlocks (s : State) : Nat := s.pvec.length

/-- `GetResidualBlocks` (problem_impl.cc:839-843). -/
def getResidualBlocks (s : State) : List Nat := s.rvec

/-- `NumResidualBlocks` (problem_impl.cc:794-796). -/
def numResidualBlocks (s : State) : Nat := s.rvec.length

/-- `ParameterBlockSize` (problem_impl.cc:800-810). -/
def parameterBlockSize (s : State) (a : Nat) : Except Err Nat :=
  match mapFind s.pmap a with
  | none => .error .abort
  | some p => do
    let b ← getP s p
    .ok b.size

/-- `IsParameterBlockConstant` (problem_impl.cc:486-493) with
`ParameterBlock::IsConstant` and `TangentSize` (parameter_block.h:121, 155-157). -/
def isParameterBlockConstant (env : Env) (s : State) (a : Nat) : Except Err Bool :=
  match mapFind s.pmap a with
  | none => .error .abort
  | some p => do
    let b ← getP s p
    let t : Int := match b.manifold with
      | none => b.size
      | some m => env.tangent m
    .ok (b.isConst || t == 0)

/-- `GetManifold` (problem_impl.cc:519-529). -/
def getManifold (s : State) (a : Nat) : Except Err (Option Nat) :=
  match mapFind s.pmap a with
  | none => .error .abort
  | some p => do
    let b ← getP s p
    .ok b.manifold

/-- User addresses of a list of parameter blocks. -/
def userStates (s : State) : List Nat → Except Err (List Nat)
  | [] => .ok []
  | p :: ps => do
    let b ← getP s p
    let rest ← userStates s ps
    .ok (b.addr :: rest)

/-- `GetParameterBlocksForResidualBlock` (problem_impl.cc:845-855). -/
def getParameterBlocksForResidualBlock (s : State) (r : Nat) : Except Err (List Nat) := do
  let rb ← getR s r
  userStates s rb.params

/-- The scan of problem_impl.cc:889-900. -/
def scanResiduals (s : State) (p : Nat) : List Nat → Except Err (List Nat)
  | [] => .ok []
  | r :: rs => do
    let rb ← getR s r
    let rest ← scanResiduals s p rs
    .ok (if p ∈ rb.params then r :: rest else rest)

/-- `GetResidualBlocksForParameterBlock` (problem_impl.cc:867-901). -/
def getResidualBlocksForParameterBlock (env : Env) (s : State) (a : Nat) :
    Except Err (List Nat) :=
  match mapFind s.pmap a with
  | none => .error .abort
  | some p =>
    if env.fastRemoval then do
      let b ← getP s p
      match b.deps with
      | none => .error .ub
      | some d => .ok (env.order d)
    else scanResiduals s p s.rvec

end Ceres.Problem
