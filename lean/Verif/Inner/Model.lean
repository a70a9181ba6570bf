import Verif.Graph.Groups
import Verif.Parallel.Model

/-!
# Model of the inner iterations (coordinate_descent_minimizer.cc, trust_region_preprocessor.cc)

Parameter blocks are elements of `B`, the addresses of their user states elements of `V`, and the
contents of a parameter block an element of `α`.  A residual block is a position in the list
`P.residuals`.

The array `parameters` handed to `Minimize` is a function from state offsets to block contents: the
ranges of two blocks of a program do not overlap (C06), so a range is one cell named by its offset.

The memory that the concurrent solves share is the fields of the parameter blocks and that array.
The solves are code trees whose nodes are single accesses to it, interleaved arbitrarily by the
transition system of `ParallelFor` (`Verif/Parallel`).

Simplifications: reading a block's fields together with the contents its state pointer points to is
one access, as the fields and the contents are only written by the same task; sequentially
consistent interleaving.  `TangentSize() > 0` for the blocks of a reduced program, so `IsConstant()`
is `is_set_constant_`.  `SetState` also recomputes the Jacobian of the manifold, which is a function
of the state.  The linear solvers keep no state between solves that affects their results.
-/
namespace Ceres.Inner

open Ceres.Graph (Prog Groups)

/-! ## Memory -/

/-- `ParameterBlock::state_`: a pointer to `parameters + off`, a pointer to other memory with the
given contents (the user's state, or a vector owned by a running minimizer), or a pointer to freed
memory. -/
inductive Ptr (α : Type) where
  | array (off : ℤ)
  | buffer (v : α)
  | dangling
  deriving DecidableEq

/-- The fields of a `ParameterBlock` that change (parameter_block.h:333-365). -/
structure Cell (α : Type) where
  state : Ptr α
  constant : Bool
  index : ℤ
  deltaOffset : ℤ
  stateOffset : ℤ
  deriving DecidableEq

/-- The shared memory. -/
structure Mem (B α : Type) where
  cell : B → Cell α
  array : ℤ → α

variable {B V α : Type} [DecidableEq B] [DecidableEq V]

/-- What `state_` points to; `none` if it is dangling. -/
def Ptr.deref (array : ℤ → α) : Ptr α → Option α
  | .array o => some (array o)
  | .buffer v => some v
  | .dangling => none

/-- The contents of block `b` as an evaluation sees them. -/
def Mem.value (m : Mem B α) (b : B) : Option α := (m.cell b).state.deref m.array

/-- Assignment to fields of block `b`. -/
def Mem.setCell (m : Mem B α) (b : B) (f : Cell α → Cell α) : Mem B α :=
  { m with cell := fun b' => if b' = b then f (m.cell b') else m.cell b' }

/-- Assignment to `parameters[off]`. -/
def Mem.setArray (m : Mem B α) (off : ℤ) (v : α) : Mem B α :=
  { m with array := fun o => if o = off then v else m.array o }

/-! ## Programs of the tasks -/

/-- Straight-line code with accesses to the shared memory.  `abort` is a failed `CHECK` or an access
that is not allowed. -/
inductive Code (B α : Type) where
  | ret
  | abort
  | read (b : B) (k : Cell α → Option α → Code B α)
  | write (b : B) (f : Cell α → Cell α) (k : Code B α)
  | load (off : ℤ) (k : α → Code B α)
  | store (off : ℤ) (v : α) (k : Code B α)

/-- One access; `none` for `ret` and `abort`. -/
def Code.step (m : Mem B α) : Code B α → Option (Code B α × Mem B α)
  | .ret => none
  | .abort => none
  | .read b k => some (k (m.cell b) (m.value b), m)
  | .write b f k => some (k, m.setCell b f)
  | .load o k => some (k (m.array o), m)
  | .store o v k => some (k, m.setArray o v)

/-- The code run without interruption; `none` if it aborts. -/
def Code.exec : Code B α → Mem B α → Option (Mem B α)
  | .ret, m => some m
  | .abort, _ => none
  | .read b k, m => (k (m.cell b) (m.value b)).exec m
  | .write b f k, m => k.exec (m.setCell b f)
  | .load o k, m => (k (m.array o)).exec m
  | .store o v k, m => k.exec (m.setArray o v)

/-- What a solve sees of a parameter block: its contents, `is_set_constant_`, `index_`,
`delta_offset_` and `state_offset_`. -/
structure View (α : Type) where
  value : α
  constant : Bool
  index : ℤ
  deltaOffset : ℤ
  stateOffset : ℤ
  deriving DecidableEq

/-- `CoordinateDescentMinimizer::Solve` (coordinate_descent_minimizer.cc:213-239), that is
`TrustRegionMinimizer::Minimize` on a program with one parameter block, as an arbitrary sequence of
accesses each of which may depend on what was read before:
* `loadX`, `storeX`: reads and writes of the array `parameter`;
* `setState v`: `ParameterBlock::SetState` to a vector of the minimizer with contents `v`
  (program_evaluator.h, `StateVectorToParameterBlocks`);
* `look n i`: during the evaluation of the `n`-th residual block of the inner program, the access to
  its `i`-th parameter block (residual_block.cc:75-90);
* `own`: access to the fields of the parameter block of the inner program.
The computations between the accesses are those of the functions `k`. -/
inductive Solver (α : Type) where
  | done
  | abort
  | loadX (k : α → Solver α)
  | storeX (v : α) (k : Solver α)
  | setState (v : α) (k : Solver α)
  | look (n i : ℕ) (k : View α → Solver α)
  | own (k : View α → Solver α)

/-- What is read of a block; `none` if its state pointer is dangling. -/
def viewOf (c : Cell α) (v : Option α) : Option (View α) :=
  v.map fun v => ⟨v, c.constant, c.index, c.deltaOffset, c.stateOffset⟩

/-- `ParameterBlock::SetState` (parameter_block.h:92-100), the `CHECK` included. -/
def setStateCode (b : B) (p : Cell α → Ptr α) (k : Code B α) : Code B α :=
  .read b fun c _ =>
    if c.constant then .abort
    else .write b (fun c => { c with state := p c }) k

/-- The accesses of `Solve` for block `b`, residual blocks `res` and `parameter = parameters + off`,
followed by `k`. -/
def Solver.code (P : Prog B) (res : List ℕ) (b : B) (off : ℤ) : Solver α → Code B α → Code B α
  | .done, k => k
  | .abort, _ => .abort
  | .loadX f, k => .load off fun v => (f v).code P res b off k
  | .storeX v s, k => .store off v (s.code P res b off k)
  | .setState v s, k => setStateCode b (fun _ => .buffer v) (s.code P res b off k)
  | .look n i f, k =>
    match (res[n]?.bind fun r => P.residuals[r]?).bind fun ps => ps[i]? with
    | none => .abort
    | some b' => .read b' fun c v =>
        match viewOf c v with
        | none => .abort
        | some w => (f w).code P res b off k
  | .own f, k => .read b fun c v =>
      match viewOf c v with
      | none => .abort
      | some w => (f w).code P res b off k

/-! ## `Init` -/

/-- The members of `CoordinateDescentMinimizer` and the local map `parameter_block_index` of `Init`
(coordinate_descent_minimizer.h:81-92). -/
structure Setup (B : Type) where
  /-- `parameter_blocks_` -/
  blocks : List B
  /-- `independent_set_offsets_` -/
  offsets : List ℕ
  /-- `parameter_block_index` -/
  index : B → Option ℕ
  /-- `residual_blocks_` -/
  residuals : List (List ℕ)

/-- The body of the loop over the elements of a group (lines 85-89).  `known` is the parameter map
of the problem.  `none`: the iterator returned by `find` is dereferenced although nothing was
found. -/
def addElement (known : V → Option B) (S : Setup B) (v : V) : Option (Setup B) :=
  (known v).map fun b =>
    { S with
      blocks := S.blocks ++ [b]
      index := fun b' => if b' = b then some S.blocks.length else S.index b' }

/-- The body of the loop over the groups (lines 83-92). -/
def addGroup (known : V → Option B) (S : Setup B) (g : ℕ × List V) : Option (Setup B) :=
  (g.2.foldlM (addElement known) S).map fun T =>
    { T with offsets := T.offsets ++ [T.offsets.getLastD 0 + g.2.length] }

/-- The blocks that are not in the ordering (lines 97-104). -/
def addRest (G : Groups V) (user : B → V) (S : Setup B) (b : B) : Setup B :=
  if G.isMember (user b) then S
  else
    { S with
      blocks := S.blocks ++ [b]
      offsets := S.offsets ++ [S.offsets.getLastD 0] }

/-- The body of the loop over the parameter blocks of residual block `r` (lines 113-119). -/
def addResidual (index : B → Option ℕ) (r : ℕ) (res : List (List ℕ)) (b : B) : List (List ℕ) :=
  match index b with
  | none => res
  | some i => res.modify i (· ++ [r])

/-- `Init` (coordinate_descent_minimizer.cc:66-128).  `user b` is the address of block `b`.  The size
of `parameter_block_index` is the number of blocks of the ordering, as these are distinct. -/
def init (P : Prog B) (known : V → Option B) (G : Groups V) (user : B → V) : Option (Setup B) :=
  (G.groupToElements.foldlM (addGroup known) ⟨[], [0], fun _ => none, []⟩).map fun S =>
    let T := P.blocks.foldl (addRest G user) S
    { T with
      residuals := P.residuals.zipIdx.foldl
        (fun res r => r.1.foldl (addResidual S.index r.2) res)
        (List.replicate S.blocks.length []) }

/-! ## `Minimize` -/

/-- A pointer after the vectors of the inner minimizer, which are local to `Solve`
(coordinate_descent_minimizer.cc:213-239), have been freed. -/
def Ptr.freed : Ptr α → Ptr α
  | .buffer _ => .dangling
  | p => p

/-- The lambda (coordinate_descent_minimizer.cc:170-204) for thread `tid` and index `j`.
`numThreads` is the length of `linear_solvers`.  After `Solve` the vectors of the inner minimizer are
freed. -/
def task (P : Prog B) (S : Setup B) (numThreads : ℕ) (solver : B → List ℕ → Solver α)
    (tid j : ℕ) : Code B α :=
  match S.blocks[j]?, S.residuals[j]? with
  | some b, some res =>
    .read b fun old _ =>
    .write b (fun c => { c with constant := false }) <|
    .write b (fun c => { c with index := 0 }) <|
    .write b (fun c => { c with deltaOffset := 0 }) <|
    .write b (fun c => { c with stateOffset := 0 }) <|
    if numThreads ≤ tid then .abort else
    (solver b res).code P res b old.stateOffset <|
    .write b (fun c => { c with state := c.state.freed }) <|
    .write b (fun c => { c with index := old.index }) <|
    .write b (fun c => { c with deltaOffset := old.deltaOffset }) <|
    .write b (fun c => { c with stateOffset := old.stateOffset }) <|
    setStateCode b (fun c => .array c.stateOffset) <|
    .write b (fun c => { c with constant := true }) <|
    .ret
  | _, _ => .abort

/-- The state of `ParallelFor` joined with the memory and, for each worker inside the function, the
code it still has to run. -/
structure ParState (B α : Type) where
  par : Parallel.State
  mem : Mem B α
  code : ℕ → Code B α

/-- Worker `w` is inside the function. -/
def Calling (s : Parallel.State) (w tid jobs i stop : ℕ) : Prop :=
  s.workers[w]? = some (.calling tid jobs i stop)

/-- One step of some thread.  A call starts the code of the task; while a worker is inside the
function it makes one access at a time; it returns when its code has ended.  All other steps of
`ParallelFor` neither start nor end a call. -/
inductive ParStep (c : Parallel.Cfg) (task : ℕ → ℕ → Code B α) :
    ParState B α → ParState B α → Prop where
  | call (s : ParState B α) (w tid jobs i stop : ℕ) :
      s.par.workers[w]? = some (.segment tid jobs i stop) → i ≠ stop →
      ParStep c task s
        { s with
          par := { s.par with workers := s.par.workers.set w (.calling tid jobs i stop) }
          code := fun w' => if w' = w then task tid i else s.code w' }
  | access (s : ParState B α) (w tid jobs i stop : ℕ) (k : Code B α) (m : Mem B α) :
      Calling s.par w tid jobs i stop → (s.code w).step s.mem = some (k, m) →
      ParStep c task s
        { s with
          mem := m
          code := fun w' => if w' = w then k else s.code w' }
  | ret (s : ParState B α) (w tid jobs i stop : ℕ) :
      Calling s.par w tid jobs i stop → s.code w = .ret →
      ParStep c task s
        { s with
          par := { s.par with
            log := s.par.log ++ [(tid, i)]
            workers := s.par.workers.set w (.segment tid jobs (i + 1) stop) } }
  | other (s : ParState B α) (p : Parallel.State) :
      Parallel.Step c s.par p → p.log = s.par.log →
      (∀ w tid jobs i stop, Calling p w tid jobs i stop ↔ Calling s.par w tid jobs i stop) →
      ParStep c task s { s with par := p }

/-- States reachable from the call of `ParallelFor` with memory `m`. -/
inductive ParReach (c : Parallel.Cfg) (task : ℕ → ℕ → Code B α) (m : Mem B α) :
    ParState B α → Prop where
  | init (code : ℕ → Code B α) : ParReach c task m ⟨Parallel.init, m, code⟩
  | step (s s' : ParState B α) : ParReach c task m s → ParStep c task s s' → ParReach c task m s'

/-- The sequential path of `ParallelFor` (parallel_for.h:81-84). -/
def seqRun (task : ℕ → ℕ → Code B α) : List ℕ → Mem B α → Option (Mem B α)
  | [], m => some m
  | i :: l, m => ((task 0 i).exec m).bind (seqRun task l)

/-- `ParallelFor` (parallel_for.h:69-93, `min_block_size = 1`) on `[start, stop)`: the memory when it
returns, or `none` if the process aborts. -/
inductive ForRun (task : ℕ → ℕ → Code B α) (start stop threads : ℕ) (m : Mem B α) :
    Option (Mem B α) → Prop where
  | badThreads : threads = 0 → ForRun task start stop threads m none
  | empty : 0 < threads → stop ≤ start → ForRun task start stop threads m (some m)
  | sequential : 0 < threads → start < stop → (threads = 1 ∨ stop - start < 2) →
      ForRun task start stop threads m (seqRun task (List.range' start (stop - start)) m)
  | parallel (s : ParState B α) : 0 < threads → start < stop →
      ¬ (threads = 1 ∨ stop - start < 2) →
      ParReach ⟨start, stop, threads, Parallel.numWorkBlocks start stop threads 1⟩ task m s →
      s.par.returned = true → ForRun task start stop threads m (some s.mem)
  | aborted (s : ParState B α) (w tid jobs i e : ℕ) : 0 < threads → start < stop →
      ¬ (threads = 1 ∨ stop - start < 2) →
      ParReach ⟨start, stop, threads, Parallel.numWorkBlocks start stop threads 1⟩ task m s →
      Calling s.par w tid jobs i e → s.code w = .abort →
      ForRun task start stop threads m none

/-- The loop over the independent sets (coordinate_descent_minimizer.cc:150-205), on the list of
`independent_set_offsets_` from the current one on. -/
inductive SetsRun (task : ℕ → ℕ → Code B α) (numThreads : ℕ) :
    List ℕ → Mem B α → Option (Mem B α) → Prop where
  | nil (m : Mem B α) : SetsRun task numThreads [] m (some m)
  | last (a : ℕ) (m : Mem B α) : SetsRun task numThreads [a] m (some m)
  | skip (a b : ℕ) (l : List ℕ) (m : Mem B α) (r : Option (Mem B α)) : b - a = 0 →
      SetsRun task numThreads (b :: l) m r → SetsRun task numThreads (a :: b :: l) m r
  | run (a b : ℕ) (l : List ℕ) (m m' : Mem B α) (r : Option (Mem B α)) : b - a ≠ 0 →
      ForRun task a b (min numThreads (b - a)) m (some m') →
      SetsRun task numThreads (b :: l) m' r → SetsRun task numThreads (a :: b :: l) m r
  | abort (a b : ℕ) (l : List ℕ) (m : Mem B α) : b - a ≠ 0 →
      ForRun task a b (min numThreads (b - a)) m none →
      SetsRun task numThreads (a :: b :: l) m none

/-- The first loop of `Minimize` (lines 134-137). -/
def freezeAll : List B → Mem B α → Option (Mem B α)
  | [], m => some m
  | b :: l, m =>
    if (m.cell b).constant then none
    else freezeAll l (m.setCell b fun c =>
      { c with
        state := .array c.stateOffset
        constant := true })

/-- The last loop of `Minimize` (lines 207-209). -/
def thawAll (l : List B) (m : Mem B α) : Mem B α :=
  l.foldl (fun m b => m.setCell b fun c => { c with constant := false }) m

/-- `Minimize` (coordinate_descent_minimizer.cc:130-210): the memory when it returns, or `none` if
the process aborts. -/
inductive MinimizeRun (P : Prog B) (S : Setup B) (numThreads : ℕ)
    (solver : B → List ℕ → Solver α) (m : Mem B α) : Option (Mem B α) → Prop where
  | frozen : freezeAll S.blocks m = none → MinimizeRun P S numThreads solver m none
  | run (m' : Mem B α) (r : Option (Mem B α)) : freezeAll S.blocks m = some m' →
      SetsRun (task P S numThreads solver) numThreads S.offsets m' r →
      MinimizeRun P S numThreads solver m (r.map (thawAll S.blocks))

/-! ## Preprocessing -/

/-- `Program::IsParameterBlockSetIndependent` (program.cc:417-436). -/
def isSetIndependent (P : Prog B) (user : B → V) (set : List V) : Bool :=
  P.residuals.all fun r => !decide (1 < (r.map fun b => set.count (user b)).sum)

/-- `IsOrderingValid` (coordinate_descent_minimizer.cc:241-261). -/
def isOrderingValid (P : Prog B) (user : B → V) (G : Groups V) : Bool :=
  G.groupToElements.all fun g => isSetIndependent P user g.2

/-- `ComputeRecursiveIndependentSetOrdering` filling the ordering (parameter_block_ordering.cc:101-123):
the groups found in the rounds, with the numbers of the rounds. -/
def addRounds (user : B → V) (groups : List (List B)) : Groups V :=
  groups.zipIdx.foldl (fun G g => g.1.foldl (fun G b => (G.add (user b) g.2).1) G) Groups.empty

/-- `CreateOrdering` (coordinate_descent_minimizer.cc:267-273). -/
def createOrdering (sort : Graph.Graph B → List B) (P : Prog B) (user : B → V) (fuel : ℕ) :
    Graph.Run (Groups V) :=
  match Graph.recursiveOrdering sort P fuel with
  | .done groups => .done (addRounds user groups).reverse
  | .aborted => .aborted
  | .out => .out

/-- How `SetupInnerIterationMinimizer` ends.  `undefined`: `Init` dereferences the end iterator of
the parameter map. -/
inductive SetupResult (B : Type) where
  | off
  | error
  | undefined
  | aborted
  | on (S : Setup B)

/-- `SetupInnerIterationMinimizer` (trust_region_preprocessor.cc:292-340): the result, and the
ordering that the user's shared pointer then points to. -/
def setupInner (sort : Graph.Graph B → List B) (fuel : ℕ) (useInner evaluationCallback : Bool)
    (P : Prog B) (known : V → Option B) (user : B → V) (removed : List V)
    (given : Option (Groups V)) : SetupResult B × Option (Groups V) :=
  if !useInner then (.off, given)
  else if evaluationCallback then (.error, given)
  else if P.blocks.length = 1 then (.off, given)
  else
    match given with
    | some G =>
      let G' := (G.removeAll removed).1
      if G'.numElements = 0 then (.off, some G')
      else if !isOrderingValid P user G' then (.error, some G')
      else
        match init P known G' user with
        | none => (.undefined, some G')
        | some S => (.on S, some G')
    | none =>
      match createOrdering sort P user fuel with
      | .done G =>
        match init P known G user with
        | none => (.undefined, none)
        | some S => (.on S, none)
      | _ => (.aborted, none)

end Ceres.Inner
