/-!
# Model of `ParallelFor` / `ParallelInvoke` (parallel_for.h, parallel_invoke.h/.cc)

A transition system: every atomic operation of every thread is one step, and all
interleavings are allowed.  Worker `0` of the list is the calling thread; every other worker
is one execution of the task by some thread of the pool.

Simplifications: sequentially consistent interleaving; the pool may start any queued task at
any time or never (so every pool size and every competing load is covered); the mutex
protected body of `Finished` and the predicate test of `Block` are single steps; the user
function always returns; indices are natural numbers.
-/
namespace Ceres.Parallel

/-- The immutable part of `ParallelInvokeState` and `num_threads`
(parallel_invoke.h:101-147, parallel_invoke.cc:65-75). -/
structure Cfg where
  start : Nat
  stop : Nat
  threads : Nat
  blocks : Nat
  deriving DecidableEq, Repr

/-- `num_work_blocks` (parallel_invoke.h:186-187). -/
def numWorkBlocks (start stop threads minBlock : Nat) : Nat :=
  min ((stop - start) / minBlock) (threads * 4)

/-- `base_block_size` (parallel_invoke.cc:71). -/
def Cfg.base (c : Cfg) : Nat := (c.stop - c.start) / c.blocks

/-- `num_base_p1_sized_blocks` (parallel_invoke.cc:72). -/
def Cfg.rem (c : Cfg) : Nat := (c.stop - c.start) % c.blocks

/-- `curr_start` (parallel_invoke.h:249-250). -/
def Cfg.blockStart (c : Cfg) (b : Nat) : Nat := c.start + b * c.base + min b c.rem

/-- `curr_end` (parallel_invoke.h:255-256). -/
def Cfg.blockEnd (c : Cfg) (b : Nat) : Nat :=
  c.blockStart b + c.base + (if b < c.rem then 1 else 0)

/-- Program counter of one execution of `task` (parallel_invoke.h:198-262).  `tid` is the
thread id, `jobs` is `num_jobs_finished`. -/
inductive PC where
  /-- before `thread_id.fetch_add(1)` (line 200) -/
  | begin
  /-- before the test of line 210 -/
  | gotId (tid : Nat)
  /-- before `AddTask` (line 218) -/
  | spawn (tid : Nat)
  /-- before `block_id.fetch_add(1)` (line 228) -/
  | loop (tid jobs : Nat)
  /-- before the call for index `i` or at the end of the segment (lines 61-75, 259) -/
  | segment (tid jobs i stop : Nat)
  /-- inside the user function for index `i` -/
  | calling (tid jobs i stop : Nat)
  /-- before `Finished(num_jobs_finished)` (line 261) -/
  | finishing (jobs : Nat)
  /-- returned (the calling thread: in `Block`, line 270) -/
  | done
  deriving DecidableEq, Repr

/-- Shared state. `log` records each completed call with its thread id.  `aborted` is the
failed `CHECK_LE` of parallel_invoke.cc:53. -/
structure State where
  blockCtr : Nat
  threadCtr : Nat
  queued : Nat
  finished : Nat
  workers : List PC
  log : List (Nat × Nat)
  returned : Bool
  aborted : Bool

/-- The calling thread has entered `task(task)` (line 267). -/
def init : State :=
  { blockCtr := 0, threadCtr := 0, queued := 0, finished := 0, workers := [.begin],
    log := [], returned := false, aborted := false }

/-- One atomic step of some thread. -/
inductive Step (c : Cfg) : State → State → Prop where
  /-- A pool thread dequeues a task and starts it (thread_pool.cc, ThreadMainLoop). -/
  | poolStart (s : State) (n : Nat) : s.queued = n + 1 →
      Step c s { s with queued := n, workers := s.workers ++ [.begin] }
  /-- `thread_id.fetch_add(1)` and the early return (lines 200-208). -/
  | fetchId (s : State) (w : Nat) : s.workers[w]? = some .begin →
      Step c s { s with
        threadCtr := s.threadCtr + 1
        workers := s.workers.set w
          (if c.threads ≤ s.threadCtr then .done else .gotId s.threadCtr) }
  /-- The test of lines 210-211 (reads `block_id`). -/
  | test (s : State) (w tid : Nat) : s.workers[w]? = some (.gotId tid) →
      Step c s { s with
        workers := s.workers.set w
          (if tid + 1 < c.threads ∧ s.blockCtr < c.blocks then .spawn tid else .loop tid 0) }
  /-- `AddTask` (line 218). -/
  | addTask (s : State) (w tid : Nat) : s.workers[w]? = some (.spawn tid) →
      Step c s { s with queued := s.queued + 1, workers := s.workers.set w (.loop tid 0) }
  /-- `block_id.fetch_add(1)` (lines 228-259). -/
  | fetchBlock (s : State) (w tid jobs : Nat) : s.workers[w]? = some (.loop tid jobs) →
      Step c s { s with
        blockCtr := s.blockCtr + 1
        workers := s.workers.set w
          (if c.blocks ≤ s.blockCtr then .finishing jobs
           else .segment tid (jobs + 1) (c.blockStart s.blockCtr) (c.blockEnd s.blockCtr)) }
  /-- Next index of the segment: call the function (line 69). -/
  | call (s : State) (w tid jobs i stop : Nat) : s.workers[w]? = some (.segment tid jobs i stop) →
      i ≠ stop → Step c s { s with workers := s.workers.set w (.calling tid jobs i stop) }
  /-- The function returns. -/
  | ret (s : State) (w tid jobs i stop : Nat) : s.workers[w]? = some (.calling tid jobs i stop) →
      Step c s { s with
        log := s.log ++ [(tid, i)]
        workers := s.workers.set w (.segment tid jobs (i + 1) stop) }
  /-- End of the segment (`i == end`, line 68). -/
  | endSegment (s : State) (w tid jobs i : Nat) : s.workers[w]? = some (.segment tid jobs i i) →
      Step c s { s with workers := s.workers.set w (.loop tid jobs) }
  /-- `Finished` (parallel_invoke.cc:49-57). -/
  | finish (s : State) (w jobs : Nat) : s.workers[w]? = some (.finishing jobs) →
      Step c s { s with
        finished := s.finished + jobs
        aborted := s.aborted || (jobs != 0 && decide (c.blocks < s.finished + jobs))
        workers := s.workers.set w .done }
  /-- `Block` returns in the calling thread (parallel_invoke.cc:59-63). -/
  | unblock (s : State) : s.workers[0]? = some .done → s.finished = c.blocks →
      s.returned = false → Step c s { s with returned := true }

/-- States reachable from the call. -/
inductive Reachable (c : Cfg) : State → Prop where
  | init : Reachable c init
  | step (s s' : State) : Reachable c s → Step c s s' → Reachable c s'

/-- The sequential path: `InvokeOnSegment(0, (start, end), f)` (parallel_for.h:81-84). -/
def sequentialLog (start stop : Nat) : List (Nat × Nat) :=
  (List.range' start (stop - start)).map (fun i => (0, i))

/-- `ParallelFor` (parallel_for.h:69-93): the possible logs of calls when it returns.
`CHECK_GT(num_threads, 0)` failing means no log at all. -/
inductive Outcome (start stop threads minBlock : Nat) : List (Nat × Nat) → Prop where
  | empty : 0 < threads → stop ≤ start → Outcome start stop threads minBlock []
  | sequential : 0 < threads → start < stop → (threads = 1 ∨ stop - start < minBlock * 2) →
      Outcome start stop threads minBlock (sequentialLog start stop)
  | parallel (s : State) : 0 < threads → start < stop →
      ¬ (threads = 1 ∨ stop - start < minBlock * 2) →
      Reachable ⟨start, stop, threads, numWorkBlocks start stop threads minBlock⟩ s →
      s.returned = true → Outcome start stop threads minBlock s.log

end Ceres.Parallel
