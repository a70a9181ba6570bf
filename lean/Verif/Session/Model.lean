import Verif.Problem.Model
/-!
# A problem in use: what solving and evaluating do to the blocks of a problem

`Problem/Model.lean` models the container.  Between two calls on the container the user
solves and evaluates, and all of that works on the *same* `ParameterBlock` objects: the
solver borrows their `index_` as a mark and as a column number, sets and clears
`is_set_constant_`, and points `state_` into vectors that die before the call returns.  This
file models those borrowed fields.

Simplifications:
* a parameter vector (a `Vector` of the minimizer, `PreprocessedProblem::reduced_parameters`,
  the local `parameters` of `ProblemImpl::Evaluate`) is a numbered buffer holding one value per
  block; `state + offset` is "the value for this block in buffer `i`".  The layout of such
  vectors is the subject of `Program/` (C05, C06).  Reading through a pointer into a buffer
  that has been freed is undefined behaviour;
* the value of a whole block is one element of the type `V`; user memory maps the address of
  a block to its value;
* what the minimizer does between two uses of the blocks is arbitrary: a solve is given by the
  list of points it evaluates, publishes to the user and runs inner iterations from, and by the
  order of the blocks in its reduced program, all of them arbitrary;
* the vector gathered for the minimizer (preprocessor.cc:76-84) is read by nobody else, so it
  is not built; a solve with an evaluation callback, which copies every point to the user
  before evaluating (program_evaluator.h:155-160), is one in which every `eval x` is preceded
  by `publish x`;
* `plus_jacobian_`, bounds, offsets, the numbers that the cost functions return and the
  evaluation callback are not part of this file.  Which residual blocks get evaluated before a
  cost function fails (or in which order threads do it) is an arbitrary selection.
-/
namespace Ceres.Session

open Ceres.Problem (Err State PBlock RBlock upd mapFind getR)

/-- The container's environment and the user's `Manifold::PlusJacobian`, as a function of
manifold and point: whether it succeeds. -/
structure Env (V : Type) where
  base : Problem.Env
  jac : Nat → V → Bool

/-- `ParameterBlock::state_` (parameter_block.h:351): the user's memory or the block's place in
a parameter vector. -/
inductive Ptr where
  | user
  | buf (i : Nat)
  deriving DecidableEq, Repr

/-- The borrowed fields of all parameter blocks, user memory and the parameter vectors. -/
structure Work (V : Type) where
  index : Nat → Int
  isConst : Nat → Bool
  ptr : Nat → Ptr
  mem : Nat → V
  bufs : Nat → Option (Nat → V)
  next : Nat

variable {V : Type}

/-- The address of a block (`user_state_`, parameter_block.h:381). -/
def addrOf (s : State) (p : Nat) : Nat :=
  match s.pheap p with
  | some b => b.addr
  | none => 0

/-- `ResidualBlock::parameter_blocks` (residual_block.h:114). -/
def paramsOf (s : State) (r : Nat) : List Nat :=
  match s.rheap r with
  | some rb => rb.params
  | none => []

/-- `ParameterBlock::TangentSize() == 0` (parameter_block.h:155-157). -/
def noTangent (env : Env V) (s : State) (p : Nat) : Bool :=
  match s.pheap p with
  | some b =>
    match b.manifold with
    | none => decide (b.size = 0)
    | some m => decide (env.base.tangent m = 0)
  | none => false

/-- `ParameterBlock::IsConstant` (parameter_block.h:121). -/
def isConstant (env : Env V) (s : State) (w : Work V) (p : Nat) : Bool :=
  w.isConst p || noTangent env s p

/-- `ParameterBlock::UpdatePlusJacobian` (parameter_block.h:316-343): its success. -/
def jacOk (env : Env V) (s : State) (p : Nat) (v : V) : Bool :=
  match s.pheap p with
  | some b =>
    match b.manifold with
    | none => true
    | some m => env.jac m v
  | none => true

/-- Reading through `state_`. -/
def val (s : State) (w : Work V) (p : Nat) : Except Err V :=
  match w.ptr p with
  | .user => .ok (w.mem (addrOf s p))
  | .buf i =>
    match w.bufs i with
    | some c => .ok (c p)
    | none => .error .ub

/-- `ParameterBlock::SetState` (parameter_block.h:92-100): the pointer is stored before
`PlusJacobian` is tried. -/
def setState (env : Env V) (s : State) (w : Work V) (p : Nat) (q : Ptr) :
    Except Err (Work V × Bool) :=
  if isConstant env s w p then .error .abort
  else do
    let w1 := { w with ptr := upd w.ptr p q }
    let v ← val s w1 p
    .ok (w1, jacOk env s p v)

/-- The loop of `Program::StateVectorToParameterBlocks` (program.cc:81-89) and of
`Program::SetParameterBlockStatePtrsToUserStatePtrs` (program.cc:104-112): both stop at the
first block whose `PlusJacobian` fails. -/
def setStates (env : Env V) (s : State) (q : Ptr) :
    List Nat → Work V → Except Err (Work V × Bool)
  | [], w => .ok (w, true)
  | p :: ps, w =>
    if isConstant env s w p then setStates env s q ps w
    else do
      let (w1, ok) ← setState env s w p q
      if ok then setStates env s q ps w1 else .ok (w1, false)

/-- A new parameter vector. -/
def newBuf (w : Work V) (c : Nat → V) : Work V :=
  { w with bufs := upd w.bufs w.next (some c), next := w.next + 1 }

/-- Every parameter vector dies. -/
def freeAll (w : Work V) : Work V := { w with bufs := fun _ => none }

/-- `set_index(-1)` on a list of blocks (program.cc:147-151, 325-327). -/
def unmark (ps : List Nat) (w : Work V) : Work V :=
  { w with index := fun p => if p ∈ ps then -1 else w.index p }

/-- The second loop of `Program::SetParameterOffsetsAndIndex` (program.cc:153-161). -/
def number : List Nat → Nat → Work V → Work V
  | [], _, w => w
  | p :: ps, i, w => number ps (i + 1) { w with index := upd w.index p (i : Int) }

/-- `Program::SetParameterOffsetsAndIndex` (program.cc:144-162) of a program with residual
blocks `rs` and parameter blocks `ps`. -/
def setIndex (s : State) (rs ps : List Nat) (w : Work V) : Work V :=
  number ps 0 (unmark (rs.flatMap (paramsOf s)) w)

/-- The values that a residual block reads through `state()` of its blocks
(residual_block.cc:80-83). -/
def args (s : State) (w : Work V) : List Nat → Except Err (List V)
  | [] => .ok []
  | p :: ps => do
    let v ← val s w p
    let vs ← args s w ps
    .ok (v :: vs)

/-- What a run of cost functions is given: residual block and values. -/
abbrev Log (V : Type) := List (Nat × List V)

/-- Evaluating residual blocks one after the other (program_evaluator.h:189-270). -/
def evalResiduals (s : State) (w : Work V) : List Nat → Except Err (Log V)
  | [] => .ok []
  | r :: rs => do
    let vs ← args s w (paramsOf s r)
    let rest ← evalResiduals s w rs
    .ok ((r, vs) :: rest)

/-- `ProgramEvaluator::Evaluate` (program_evaluator.h:136-152) at the vector in buffer `i`,
for the program `(rs, ps)`; `sel` is the set of residual blocks that get evaluated. -/
def evaluator (env : Env V) (s : State) (ps rs : List Nat) (sel : Nat → Bool) (i : Nat)
    (w : Work V) : Except Err (Work V × Log V) := do
  let (w1, ok) ← setStates env s (.buf i) ps w
  if ok then do
    let log ← evalResiduals s w1 (rs.filter sel)
    .ok (w1, log)
  else .ok (w1, [])

/-- `Program::CopyParameterBlockStateToUserState` (program.cc:98-102). -/
def copyToUser (s : State) : List Nat → Work V → Except Err (Work V)
  | [], w => .ok w
  | p :: ps, w => do
    let v ← val s w p
    copyToUser s ps { w with mem := upd w.mem (addrOf s p) v }

/-- `Program::ParameterBlocksToStateVector` (program.cc:91-96): the new vector holds the value
read through each block's pointer. -/
def gather (s : State) (w : Work V) : List Nat → (Nat → V) → Except Err (Nat → V)
  | [], c => .ok c
  | p :: ps, c => do
    let v ← val s w p
    gather s w ps (upd c p v)

/-! ### `Problem::Evaluate` -/

/-- Step 1 of `ProblemImpl::Evaluate` (problem_impl.cc:620-630). -/
def lookup (s : State) : List Nat → Except Err (List Nat)
  | [] => .ok []
  | a :: as =>
    match mapFind s.pmap a with
    | none => .error .abort
    | some p => do
      let ps ← lookup s as
      .ok (p :: ps)

/-- Step 2 (problem_impl.cc:641-662): `set_difference`, and `SetConstant` on the varying
blocks found, which are remembered. -/
def exclude (env : Env V) (s : State) (included : List Nat) (w : Work V) :
    Work V × List Nat :=
  let made := s.pvec.filter (fun p => !(decide (p ∈ included)) && !(isConstant env s w p))
  ({ w with isConst := fun p => if p ∈ made then true else w.isConst p }, made)

/-- `SetVarying` on a list of blocks (problem_impl.cc:732-734,
coordinate_descent_minimizer.cc:207-209). -/
def setVarying (ps : List Nat) (w : Work V) : Work V :=
  { w with isConst := fun p => if p ∈ ps then false else w.isConst p }

/-- The end of a solve (solver.cc:836-841) and of an evaluation (problem_impl.cc:745-746), on
the user's program; the result of the first call is ignored.  On return all temporary vectors
are gone. -/
def leave (env : Env V) (s : State) (w : Work V) : Except Err (Work V) := do
  let (w1, _) ← setStates env s .user s.pvec w
  .ok (freeAll (setIndex s s.rvec s.pvec w1))

/-- Whether every residual block handle is live; passing a dead one is a dangling pointer. -/
def allLive (s : State) (rs : List Nat) : Bool := rs.all (fun r => (s.rheap r).isSome)

/-- `ProblemImpl::Evaluate` (problem_impl.cc:585-748) with the two block lists of
`EvaluateOptions`; an empty list stands for everything.  At least one output is requested. -/
def evaluate (env : Env V) (s : State) (rsel psel : List Nat) (sel : Nat → Bool) (w : Work V) :
    Except Err (Work V × Log V) :=
  if ¬ allLive s rsel then .error .ub
  else do
    let rs := if rsel = [] then s.rvec else rsel
    let found ← lookup s psel
    let ps := if psel = [] then s.pvec else found
    let (w1, made) := if psel = [] then (w, []) else exclude env s found w
    let w2 := setIndex s rs ps w1
    let (w3, _) ← setStates env s .user ps w2
    let c ← gather s w3 ps (fun p => w3.mem (addrOf s p))
    let (w4, log) ← evaluator env s ps rs sel w3.next (newBuf w3 c)
    let w5 ← leave env s (setVarying made w4)
    .ok (w5, log)

/-! ### `Problem::EvaluateResidualBlock` -/

/-- The loop of `ProblemImpl::EvaluateResidualBlock` (problem_impl.cc:763-776) over the blocks
of the residual block; `want` says for which of them a Jacobian is requested.  `false` is the
early return. -/
def pointAll (env : Env V) (s : State) (want : Nat → Bool) :
    List Nat → Nat → Work V → Except Err (Work V × Bool)
  | [], _, w => .ok (w, true)
  | p :: ps, i, w =>
    if isConstant env s w p then
      if want i then .ok (w, false) else pointAll env s want ps (i + 1) w
    else do
      let (w1, ok) ← setState env s w p .user
      if ok then pointAll env s want ps (i + 1) w1 else .error .abort

/-- `ProblemImpl::EvaluateResidualBlock` (problem_impl.cc:750-786). -/
def evaluateResidualBlock (env : Env V) (s : State) (r : Nat) (want : Nat → Bool) (w : Work V) :
    Except Err (Work V × Log V) := do
  let rb ← getR s r
  let (w1, ok) ← pointAll env s want rb.params 0 w
  if ok then do
    let log ← evalResiduals s w1 [r]
    .ok (w1, log)
  else .ok (w1, [])

/-! ### `Solve` -/

/-- One visit to a block by the inner iterations: the values tried and the value left in the
vector. -/
structure Visit (V : Type) where
  block : Nat
  tried : List V
  result : V

/-- What a minimizer does with the blocks while it runs. -/
inductive Act (V : Type) where
  /-- the evaluator is asked about the point `x` -/
  | eval (x : Nat → V) (sel : Nat → Bool)
  /-- `StateUpdatingCallback` (callbacks.cc:49-54) at the point `x` -/
  | publish (x : Nat → V)
  /-- inner iterations (coordinate_descent_minimizer.cc:130-210) starting from `x` -/
  | inner (x : Nat → V) (visits : List (Visit V))
  /-- a callback of the user writes to the user's memory -/
  | write (a : Nat) (v : V)
  /-- the minimizer gives back its vectors -/
  | free

/-- How a solve goes.  `ps`, `rs` are the blocks of the reduced program in the order that the
preprocessor has given them. -/
inductive Course (V : Type) where
  /-- the options are rejected (solver.cc:747-750) -/
  | rejected
  /-- the `k`-th constant residual block cannot be evaluated (program.cc:379-389) -/
  | fixedFails (k : Nat)
  /-- the preprocessor gives up later on -/
  | setupFails (ps rs : List Nat)
  /-- the minimizer runs and `final` is copied to the user (solver.cc:664-672): the original
  vector if the solution is not usable -/
  | minimized (ps rs : List Nat) (acts : List (Act V)) (final : Nat → V)

/-- The varying blocks of a residual block get the mark 1 (program.cc:338-345). -/
def markVarying (env : Env V) (s : State) : List Nat → Work V → Work V
  | [], w => w
  | p :: ps, w =>
    if isConstant env s w p then markVarying env s ps w
    else markVarying env s ps { w with index := upd w.index p 1 }

/-- The residual loop of `Program::RemoveFixedBlocks` (program.cc:331-393): marks, the residual
blocks that stay, and what the constant ones read.  `fail` counts down to the constant
residual block whose evaluation fails; the third component is success. -/
def fixedLoop (env : Env V) (s : State) :
    List Nat → Option Nat → Work V → Except Err (Work V × List Nat × Log V × Bool)
  | [], _, w => .ok (w, [], [], true)
  | r :: rs, fail, w =>
    let w1 := markVarying env s (paramsOf s r) w
    if (paramsOf s r).all (isConstant env s w) then
      do
        let log ← evalResiduals s w1 [r]
        match fail with
        | some 0 => .ok (w1, [], log, false)
        | some (k + 1) => do
          let (w2, keep, rest, ok) ← fixedLoop env s rs (some k) w1
          .ok (w2, keep, log ++ rest, ok)
        | none => do
          let (w2, keep, rest, ok) ← fixedLoop env s rs none w1
          .ok (w2, keep, log ++ rest, ok)
    else do
      let (w2, keep, rest, ok) ← fixedLoop env s rs fail w1
      .ok (w2, r :: keep, rest, ok)

/-- `Program::RemoveFixedBlocks` (program.cc:309-415): all marks are cleared, the residual
blocks are scanned, and the blocks still unmarked are dropped (program.cc:396-406).  The result
is the reduced program `(ps, rs)`. -/
def removeFixed (env : Env V) (s : State) (fail : Option Nat) (w : Work V) :
    Except Err (Work V × List Nat × List Nat × Log V × Bool) := do
  let w1 := unmark s.pvec w
  let (w2, keep, log, ok) ← fixedLoop env s s.rvec fail w1
  .ok (w2, s.pvec.filter (fun p => decide (w2.index p ≠ -1)), keep, log, ok)

/-- `SetState` followed by `SetConstant` for every block of the reduced program
(coordinate_descent_minimizer.cc:134-137); the Boolean of `SetState` is dropped. -/
def freeze (env : Env V) (s : State) (i : Nat) : List Nat → Work V → Except Err (Work V)
  | [], w => .ok w
  | p :: ps, w => do
    let (w1, _) ← setState env s w p (.buf i)
    freeze env s i ps { w1 with isConst := upd w1.isConst p true }

/-- The evaluations of the one-block minimizer (coordinate_descent_minimizer.cc:213-239): each
candidate lives in a vector of its own. -/
def tries (env : Env V) (s : State) (p : Nat) (rs : List Nat) :
    List V → Work V → Except Err (Work V × Log V)
  | [], w => .ok (w, [])
  | v :: vs, w => do
    let (w1, log) ← evaluator env s [p] rs (fun _ => true) w.next (newBuf w (fun _ => v))
    let (w2, rest) ← tries env s p rs vs w1
    .ok (w2, log ++ rest)

/-- One visit (coordinate_descent_minimizer.cc:170-204): the block is made varying and number 0
for the duration, then everything is put back; the new value has been written into the vector
in buffer `i`. -/
def visit (env : Env V) (s : State) (rs : List Nat) (i : Nat) (v : Visit V) (w : Work V) :
    Except Err (Work V × Log V) := do
  let p := v.block
  let oldIndex := w.index p
  let w1 := { w with isConst := upd w.isConst p false, index := upd w.index p 0 }
  let mine := rs.filter (fun r => decide (p ∈ paramsOf s r))
  let (w2, log) ← tries env s p mine v.tried w1
  let w3 := { w2 with
    bufs := upd w2.bufs i ((w2.bufs i).map (fun c => upd c p v.result))
    index := upd w2.index p oldIndex }
  let (w4, _) ← setState env s w3 p (.buf i)
  .ok ({ w4 with isConst := upd w4.isConst p true }, log)

/-- The visits of one run of inner iterations, one after the other (that a parallel run has
the same effect is C56). -/
def visits (env : Env V) (s : State) (rs : List Nat) (i : Nat) :
    List (Visit V) → Work V → Except Err (Work V × Log V)
  | [], w => .ok (w, [])
  | v :: vs, w => do
    let (w1, log) ← visit env s rs i v w
    let (w2, rest) ← visits env s rs i vs w1
    .ok (w2, log ++ rest)

/-- `CoordinateDescentMinimizer::Minimize` (coordinate_descent_minimizer.cc:130-210). -/
def innerIterations (env : Env V) (s : State) (ps rs : List Nat) (x : Nat → V)
    (vs : List (Visit V)) (w : Work V) : Except Err (Work V × Log V) := do
  let i := w.next
  let w1 ← freeze env s i ps (newBuf w x)
  let (w2, log) ← visits env s rs i vs w1
  .ok (setVarying ps w2, log)

/-- `StateVectorToParameterBlocks` and `CopyParameterBlockStateToUserState`
(callbacks.cc:51-52, solver.cc:669-672); the Boolean of the first is dropped. -/
def publish (env : Env V) (s : State) (ps : List Nat) (i : Nat) (w : Work V) :
    Except Err (Work V) := do
  let (w1, _) ← setStates env s (.buf i) ps w
  copyToUser s ps w1

/-- One thing the minimizer does. -/
def act (env : Env V) (s : State) (ps rs : List Nat) (w : Work V) :
    Act V → Except Err (Work V × Log V)
  | .eval x sel => evaluator env s ps rs sel w.next (newBuf w x)
  | .publish x => do
    let w1 ← publish env s ps w.next (newBuf w x)
    .ok (w1, [])
  | .inner x vs => innerIterations env s ps rs x vs w
  | .write a v => .ok ({ w with mem := upd w.mem a v }, [])
  | .free => .ok (freeAll w, [])

/-- Everything the minimizer does. -/
def actAll (env : Env V) (s : State) (ps rs : List Nat) :
    List (Act V) → Work V → Except Err (Work V × Log V)
  | [], w => .ok (w, [])
  | a :: as, w => do
    let (w1, log) ← act env s ps rs w a
    let (w2, rest) ← actAll env s ps rs as w1
    .ok (w2, log ++ rest)

/-- `Solver::Solve` (solver.cc:733-855) between the check of the options and the return:
`SetParameterBlockStatePtrsToUserStatePtrs` (solver.cc:784), the preprocessor
(program.cc:290-307, reorder_program.cc:402,464,535,619), the minimizer
(solver.cc:646-673) and the exit. -/
def solve (env : Env V) (s : State) (c : Course V) (w : Work V) :
    Except Err (Work V × Log V) :=
  match c with
  | .rejected => .ok (w, [])
  | .fixedFails k => do
    let (w1, _) ← setStates env s .user s.pvec w
    let (w2, _, _, log, _) ← removeFixed env s (some k) w1
    let w3 ← leave env s w2
    .ok (w3, log)
  | .setupFails ps rs => do
    let (w1, _) ← setStates env s .user s.pvec w
    let (w2, ps0, rs0, log, _) ← removeFixed env s none w1
    let w3 := setIndex s rs0 ps0 w2
    let w4 := if ps0 = [] then w3 else setIndex s rs ps w3
    let w5 ← leave env s w4
    .ok (w5, log)
  | .minimized ps rs acts final => do
    let (w1, _) ← setStates env s .user s.pvec w
    let (w2, ps0, rs0, log, _) ← removeFixed env s none w1
    let w3 := setIndex s rs0 ps0 w2
    if ps0 = [] then do
      let w4 ← leave env s w3
      .ok (w4, log)
    else do
      let w4 := setIndex s rs ps w3
      let (w5, log1) ← actAll env s ps rs acts w4
      let w6 ← publish env s ps w5.next (newBuf w5 final)
      let w7 ← leave env s w6
      .ok (w7, log ++ log1)

/-! ### A session -/

/-- A problem in the user's hands: the container, the state pointer of every block, the user's
memory. -/
structure Sess (V : Type) where
  prob : State
  ptr : Nat → Ptr
  mem : Nat → V

/-- The borrowed fields at the beginning of a call; no parameter vector is alive. -/
def enter (t : Sess V) : Work V where
  index := fun p => match t.prob.pheap p with | some b => (b.index : Int) | none => -1
  isConst := fun p => match t.prob.pheap p with | some b => b.isConst | none => false
  ptr := t.ptr
  mem := t.mem
  bufs := fun _ => none
  next := 0

/-- `index_` as the container reads it; a negative one is out of range. -/
def asIndex (s : State) (i : Int) : Nat := if 0 ≤ i then i.toNat else s.pvec.length

/-- The blocks as the call leaves them. -/
def exit (t : Sess V) (w : Work V) : Sess V where
  prob := { t.prob with
    pheap := fun p => (t.prob.pheap p).map fun b =>
      { b with index := asIndex t.prob (w.index p), isConst := w.isConst p } }
  ptr := w.ptr
  mem := w.mem

/-- What the user does. -/
inductive Op (V : Type) where
  /-- a call on the container; the outcome of `PlusJacobian` that it carries is not used -/
  | container (o : Problem.Op)
  /-- the user writes to the memory of a block -/
  | write (a : Nat) (v : V)
  | evaluate (rsel psel : List Nat) (sel : Nat → Bool)
  | evaluateResidualBlock (r : Nat) (want : Nat → Bool)
  | solve (c : Course V)

/-- The point at which a new manifold is tried: through `state_` of the block
(parameter_block.h:316-343), which for a new block is the user's memory
(parameter_block.h:71-76). -/
def current (t : Sess V) (a : Nat) : Except Err V :=
  match mapFind t.prob.pmap a with
  | some p => val t.prob (enter t) p
  | none => .ok (t.mem a)

/-- The outcome of `PlusJacobian` in a call that sets a manifold. -/
def resolve (env : Env V) (t : Sess V) : Problem.Op → Except Err Problem.Op
  | .setManifold a (some m) _ => do
    let v ← current t a
    .ok (.setManifold a (some m) (env.jac m v))
  | .addParameterWithManifold a n (some m) _ => do
    let v ← current t a
    .ok (.addParameterWithManifold a n (some m) (env.jac m v))
  | o => .ok o

/-- One thing the user does.  A new block points to the user's memory
(parameter_block.h:71-76). -/
def step (env : Env V) (t : Sess V) : Op V → Except Err (Sess V × Log V)
  | .container o => do
    let o' ← resolve env t o
    let s ← Problem.step env.base t.prob o'
    .ok ({ t with
      prob := s
      ptr := fun p => if (t.prob.pheap p).isSome then t.ptr p else .user }, [])
  | .write a v => .ok ({ t with mem := upd t.mem a v }, [])
  | .evaluate rsel psel sel => do
    let (w, log) ← evaluate env t.prob rsel psel sel (enter t)
    .ok (exit t w, log)
  | .evaluateResidualBlock r want => do
    let (w, log) ← evaluateResidualBlock env t.prob r want (enter t)
    .ok (exit t w, log)
  | .solve c => do
    let (w, log) ← solve env t.prob c (enter t)
    .ok (exit t w, log)

/-- A history: the session after it and what each step showed to the cost functions. -/
def run (env : Env V) : Sess V → List (Op V) → Except Err (Sess V × List (Log V))
  | t, [] => .ok (t, [])
  | t, o :: os => do
    let (t1, log) ← step env t o
    let (t2, logs) ← run env t1 os
    .ok (t2, log :: logs)

/-- A new, empty problem. -/
def init (mem : Nat → V) : Sess V := ⟨Problem.init, fun _ => .user, mem⟩

end Ceres.Session
