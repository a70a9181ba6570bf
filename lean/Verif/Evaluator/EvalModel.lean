import Verif.Evaluator.BlockLayout

/-!
# Model of the parallel evaluation (program_evaluator.h)

`ProgramEvaluator::Evaluate` as a transition system: threads pick residual blocks in any order and
run the memory operations of a block one at a time, interleaved in any way with the other
threads.  What the model takes from `ParallelFor` (proved about its own model in `Verif.Parallel`):
every index is handed out once, and at any time a thread id belongs to one running body.
-/
namespace Ceres.Evaluator

/-- Memory locations used by the loop body: the caller's `residuals`, the values of `jacobian`,
and for every thread its `residual_block_residuals`, the scratch Jacobians of its preparer, its
`cost` and its `gradient` (program_evaluator.h:326-348). -/
inductive Loc where
  | res (p : ℕ)
  | jac (p : ℕ)
  | sres (t p : ℕ)
  | sjac (t p : ℕ)
  | cost (t : ℕ)
  | grad (t p : ℕ)
  deriving DecidableEq

/-- One memory operation. -/
inductive Op (K : Type) where
  | set (l : Loc) (v : K)
  | copy (l s : Loc)
  | add (l : Loc) (v : K)
  | mac (l a b : Loc)

/-- Effect of an operation on memory. -/
def Op.run {K : Type} [Add K] [Mul K] : Op K → (Loc → K) → Loc → K
  | .set l v, m => Function.update m l v
  | .copy l s, m => Function.update m l (m s)
  | .add l v, m => Function.update m l (m l + v)
  | .mac l a b, m => Function.update m l (m l + m a * m b)

/-- A sequence of operations. -/
def runOps {K : Type} [Add K] [Mul K] (os : List (Op K)) (m : Loc → K) : Loc → K :=
  os.foldl (fun m o => o.run m) m

/-- What is asked of `Evaluate` (program_evaluator.h:137-142) and whether the Jacobian writer is
the one whose preparer points straight into the Jacobian (`BlockJacobianWriter`). -/
structure Config where
  wantR : Bool
  wantG : Bool
  wantJ : Bool
  direct : Bool

/-- What `ResidualBlock::Evaluate` yields for a block at the current state: whether it succeeds,
the cost, the (corrected) residuals and the (corrected, tangent) Jacobians, row major. -/
structure BlockVal (K : Type) where
  ok : Bool
  cost : K
  res : ℕ → K
  jac : ℕ → ℕ → K

/-- `block_residuals` (program_evaluator.h:203-209). -/
def resLoc (c : Config) (P : Prog) (t i r : ℕ) : Loc :=
  if c.wantR then .res (P.rowOffset i + r) else .sres t r

/-- Position of argument `j` among positions given by a preparer. -/
def posOf (l : List (Option ℕ)) (j : ℕ) : ℕ := (l.getD j none).getD 0

/-- `block_jacobians[j][k]` (program_evaluator.h:211-219): the block preparer uses the Jacobian if
there is one and its scratch area otherwise (block_evaluate_preparer.cc:49-59), the other writers
always use scratch. -/
def jacLoc (c : Config) (P : Prog) (layout : ℕ → ℕ) (t : ℕ) (rb : RB) (j k : ℕ) : Loc :=
  if c.wantJ && c.direct then .jac (posOf (preparePositions layout rb.args 0) j + k)
  else .sjac t (posOf (scratchPositions P rb.numResiduals rb.args 0) j + k)

/-- The stores of `ResidualBlock::Evaluate` into the residuals (program_evaluator.h:223-228).
Without residuals and gradient they go to a private area that nothing else reads. -/
def resOps {K : Type} (c : Config) (P : Prog) (t i : ℕ) (rb : RB) (b : BlockVal K) :
    List (Op K) :=
  if c.wantR || c.wantG then
    (List.range rb.numResiduals).map fun r => .set (resLoc c P t i r) (b.res r)
  else []

/-- The stores of `ResidualBlock::Evaluate` into the Jacobians. -/
def jacOps {K : Type} (c : Config) (P : Prog) (layout : ℕ → ℕ) (t : ℕ) (rb : RB)
    (b : BlockVal K) : List (Op K) :=
  if c.wantJ || c.wantG then
    if c.wantJ && c.direct then
      (prepStores P rb layout b.jac).map fun w => .set (.jac w.1) w.2
    else
      (scratchStores P rb b.jac).map fun w => .set (.sjac t w.1) w.2
  else []

/-- `jacobian_writer_.Write` (program_evaluator.h:235-239): nothing for the block writer, copies
from the scratch Jacobians for the compressed row writer. -/
def writeOps {K : Type} (c : Config) (P : Prog) (rows : ℕ → ℕ) (t i : ℕ) (rb : RB) :
    List (Op K) :=
  if c.wantJ && !c.direct then
    (crsWrite P rows i rb fun j k =>
      posOf (scratchPositions P rb.numResiduals rb.args 0) j + k).map
      fun w => .copy (.jac w.1) (.sjac t w.2)
  else []

/-- The gradient (program_evaluator.h:241-259): for every active argument the product of the
transposed Jacobian with the residuals is added to the thread's gradient.  (One multiply and add
per entry; the order of the additions is immaterial without rounding.) -/
def gradOps {K : Type} (c : Config) (P : Prog) (layout : ℕ → ℕ) (t i : ℕ) (rb : RB) :
    List (Op K) :=
  if c.wantG then
    (activeArgs rb).flatMap fun q =>
      (List.range (P.size q.1)).flatMap fun col =>
        (List.range rb.numResiduals).map fun r =>
          .mac (.grad t (P.offset q.1 + col))
            (jacLoc c P layout t rb q.2 (r * P.size q.1 + col)) (resLoc c P t i r)
  else []

/-- The body of the loop for a block whose evaluation succeeds (program_evaluator.h:194-260). -/
def blockOps {K : Type} (c : Config) (P : Prog) (rows layout : ℕ → ℕ) (t i : ℕ) (rb : RB)
    (b : BlockVal K) : List (Op K) :=
  resOps c P t i rb b ++ jacOps c P layout t rb b ++ [.add (.cost t) b.cost] ++
    writeOps c P rows t i rb ++ gradOps c P layout t i rb

/-- The tasks of a parallel loop with an abort flag: what block `i` does on thread `t`, and
whether it fails (in which case its operations are whatever it did before it failed). -/
structure Tasks (K : Type) where
  num : ℕ
  threads : ℕ
  ops : ℕ → ℕ → List (Op K)
  fails : ℕ → Bool

/-- State of the loop: indices not yet picked, what each thread is running (index and remaining
operations), the flag and the memory. -/
structure St (K : Type) where
  todo : List ℕ
  run : ℕ → Option (ℕ × List (Op K))
  abort : Bool
  mem : Loc → K

/-- One step of one thread (program_evaluator.h:188-260). -/
inductive Step {K : Type} [Add K] [Mul K] (E : Tasks K) : St K → St K → Prop
  /-- `if (abort) return;` -/
  | skip (s : St K) (t i : ℕ) : t < E.threads → s.run t = none → i ∈ s.todo → s.abort = true →
      Step E s { s with todo := s.todo.erase i }
  | start (s : St K) (t i : ℕ) : t < E.threads → s.run t = none → i ∈ s.todo → s.abort = false →
      Step E s { s with todo := s.todo.erase i,
                        run := Function.update s.run t (some (i, E.ops t i)) }
  | op (s : St K) (t i : ℕ) (o : Op K) (os : List (Op K)) : t < E.threads →
      s.run t = some (i, o :: os) →
      Step E s { s with mem := o.run s.mem, run := Function.update s.run t (some (i, os)) }
  /-- The body returns; `abort = true` if the block failed. -/
  | finish (s : St K) (t i : ℕ) : t < E.threads → s.run t = some (i, []) →
      Step E s { s with run := Function.update s.run t none, abort := s.abort || E.fails i }

/-- The state before the loop. -/
def St.init {K : Type} (E : Tasks K) (m : Loc → K) : St K :=
  ⟨List.range E.num, fun _ => none, false, m⟩

/-- States that can be reached from a state. -/
inductive Reach {K : Type} [Add K] [Mul K] (E : Tasks K) (s₀ : St K) : St K → Prop
  | refl : Reach E s₀ s₀
  | tail (s s' : St K) : Reach E s₀ s → Step E s s' → Reach E s₀ s'

/-- The loop is over: all indices handed out, all threads idle. -/
def St.Final {K : Type} (E : Tasks K) (s : St K) : Prop :=
  s.todo = [] ∧ ∀ t < E.threads, s.run t = none

/-- Memory when the loop starts (program_evaluator.h:162-182): requested outputs, costs and
gradients are zero, the scratch areas hold anything. -/
def InitMem {K : Type} [Zero K] (m : Loc → K) : Prop :=
  (∀ p, m (.res p) = 0) ∧ (∀ p, m (.jac p) = 0) ∧ (∀ t, m (.cost t) = 0) ∧
    ∀ t p, m (.grad t p) = 0

/-- The tasks of `Evaluate`: `bv i` is what residual block `i` evaluates to; a failing block does
`garbage t i` before it fails. -/
def evalTasks {K : Type} (c : Config) (P : Prog) (rows : ℕ → ℕ) (ne threads : ℕ)
    (bv : ℕ → BlockVal K) (garbage : ℕ → ℕ → List (Op K)) : Tasks K where
  num := P.residuals.length
  threads := threads
  ops t i :=
    if (bv i).ok then
      blockOps c P rows (layoutOf P ne i) t i (P.residuals.getD i ⟨0, []⟩) (bv i)
    else garbage t i
  fails i := !(bv i).ok

/-- What `Evaluate` returns after the loop (program_evaluator.h:262-284): nothing if the flag is
set, otherwise the sum of the costs and of the gradients of the threads.  The check that the
accumulated cost is finite is left out: the arithmetic is exact. -/
def evalResult {K : Type} [AddMonoid K] (threads : ℕ) (s : St K) : Option (K × (ℕ → K)) :=
  if s.abort then none
  else some (((List.range threads).map fun t => s.mem (.cost t)).sum,
    fun p => ((List.range threads).map fun t => s.mem (.grad t p)).sum)

end Ceres.Evaluator
