/-!
# Model of `ConcurrentQueue<T>`, `ThreadPool` and `ThreadTokenProvider`
(concurrent_queue.h, thread_pool.cc, thread_token_provider.cc)

Any number of threads call the queue's methods in any order and interleaving.  The mutex and
the condition variable are explicit, including spurious wakeups and the free choice of the
thread woken by `notify_one`.  Simplifications: the body of a method is one step once the
mutex is held (no other thread can touch the guarded members meanwhile); values are copied
without failing.
-/
namespace Ceres.Queue

/-- The public methods (concurrent_queue.h:84-125). -/
inductive Op (V : Type) where
  | push (v : V)
  | pop
  | wait
  | stopWaiters
  | enableWaiters
  deriving DecidableEq

/-- What a call returns: nothing, `true` with a value, or `false`. -/
inductive Res (V : Type) where
  | unit
  | got (v : V)
  | empty
  deriving DecidableEq

/-- Where a thread is. -/
inductive TS (V : Type) where
  /-- not inside the queue -/
  | idle
  /-- called, before the mutex is taken (lines 85, 95, 105, 116, 123) -/
  | wantLock (op : Op V)
  /-- holds the mutex; for `Wait`: about to evaluate the predicate (lines 106-107) -/
  | locked (op : Op V)
  /-- blocked in the condition variable (line 106) -/
  | sleeping
  /-- notified or spuriously woken, must take the mutex again -/
  | woken
  /-- mutex released, not yet returned -/
  | finished (op : Op V) (r : Res V)
  deriving DecidableEq

/-- Observable events: call, effect, return. -/
inductive Ev (V : Type) where
  | inv (t : Nat) (op : Op V)
  | lin (t : Nat) (op : Op V) (r : Res V)
  | ret (t : Nat) (op : Op V) (r : Res V)
  deriving DecidableEq

/-- The members (lines 145-151), the threads, and the trace of events so far. -/
structure Sys (V : Type) where
  q : List V
  wait : Bool
  owner : Option Nat
  th : List (TS V)
  trace : List (Ev V)

variable {V : Type}

/-- `PopUnlocked` (lines 131-140): result and remaining queue. -/
def popUnlocked : List V → Res V × List V
  | [] => (.empty, [])
  | v :: q => (.got v, q)

/-- Effect of a notification on one thread. -/
def TS.wake : TS V → TS V
  | .sleeping => .woken
  | s => s

/-- `notify_all`. -/
def wakeAll (th : List (TS V)) : List (TS V) := th.map TS.wake

/-- The predicate of line 107: `!(wait_ && queue_.empty())`. -/
def mayProceed (s : Sys V) : Prop := ¬ (s.wait = true ∧ s.q = [])

/-- One step of one thread.  `allowed` restricts which calls the clients make. -/
inductive Step (allowed : List (Ev V) → Nat → Op V → Prop) : Sys V → Sys V → Prop where
  /-- A thread calls a method. -/
  | invoke (s : Sys V) (t : Nat) (op : Op V) : s.th[t]? = some .idle → allowed s.trace t op →
      Step allowed s { s with
        th := s.th.set t (.wantLock op)
        trace := s.trace ++ [.inv t op] }
  /-- The mutex is taken. -/
  | lock (s : Sys V) (t : Nat) (op : Op V) : s.th[t]? = some (.wantLock op) → s.owner = none →
      Step allowed s { s with
        owner := some t
        th := s.th.set t (.locked op) }
  /-- The mutex is taken again after waking up inside `wait`. -/
  | relock (s : Sys V) (t : Nat) : s.th[t]? = some .woken → s.owner = none →
      Step allowed s { s with
        owner := some t
        th := s.th.set t (.locked .wait) }
  /-- `Push` with a sleeping thread `u` notified (lines 84-88). -/
  | pushNotify (s : Sys V) (t u : Nat) (v : V) : s.th[t]? = some (.locked (.push v)) →
      s.th[u]? = some .sleeping →
      Step allowed s { s with
        q := s.q ++ [v]
        owner := none
        th := (s.th.set t (.finished (.push v) .unit)).set u .woken
        trace := s.trace ++ [.lin t (.push v) .unit] }
  /-- `Push` with nobody sleeping: `notify_one` has no effect (lines 84-88). -/
  | pushQuiet (s : Sys V) (t : Nat) (v : V) : s.th[t]? = some (.locked (.push v)) →
      (∀ u : Nat, s.th[u]? ≠ some .sleeping) →
      Step allowed s { s with
        q := s.q ++ [v]
        owner := none
        th := s.th.set t (.finished (.push v) .unit)
        trace := s.trace ++ [.lin t (.push v) .unit] }
  /-- `Pop` (lines 92-97). -/
  | pop (s : Sys V) (t : Nat) : s.th[t]? = some (.locked .pop) →
      Step allowed s { s with
        q := (popUnlocked s.q).2
        owner := none
        th := s.th.set t (.finished .pop (popUnlocked s.q).1)
        trace := s.trace ++ [.lin t .pop (popUnlocked s.q).1] }
  /-- `Wait`: the predicate holds (lines 106-109). -/
  | waitGo (s : Sys V) (t : Nat) : s.th[t]? = some (.locked .wait) → mayProceed s →
      Step allowed s { s with
        q := (popUnlocked s.q).2
        owner := none
        th := s.th.set t (.finished .wait (popUnlocked s.q).1)
        trace := s.trace ++ [.lin t .wait (popUnlocked s.q).1] }
  /-- `Wait`: the predicate fails, the thread releases the mutex and sleeps (line 106). -/
  | waitSleep (s : Sys V) (t : Nat) : s.th[t]? = some (.locked .wait) → ¬ mayProceed s →
      Step allowed s { s with
        owner := none
        th := s.th.set t .sleeping }
  /-- `StopWaiters` (lines 115-119). -/
  | stop (s : Sys V) (t : Nat) : s.th[t]? = some (.locked .stopWaiters) →
      Step allowed s { s with
        wait := false
        owner := none
        th := wakeAll (s.th.set t (.finished .stopWaiters .unit))
        trace := s.trace ++ [.lin t .stopWaiters .unit] }
  /-- `EnableWaiters` (lines 122-125). -/
  | enable (s : Sys V) (t : Nat) : s.th[t]? = some (.locked .enableWaiters) →
      Step allowed s { s with
        wait := true
        owner := none
        th := s.th.set t (.finished .enableWaiters .unit)
        trace := s.trace ++ [.lin t .enableWaiters .unit] }
  /-- A spurious wakeup. -/
  | spurious (s : Sys V) (t : Nat) : s.th[t]? = some .sleeping →
      Step allowed s { s with th := s.th.set t .woken }
  /-- The call returns. -/
  | ret (s : Sys V) (t : Nat) (op : Op V) (r : Res V) : s.th[t]? = some (.finished op r) →
      Step allowed s { s with
        th := s.th.set t .idle
        trace := s.trace ++ [.ret t op r] }

/-- A queue with content `q0`, `wait_ = true` (line 151) and `n` threads outside it. -/
def start (q0 : List V) (n : Nat) : Sys V :=
  { q := q0, wait := true, owner := none, th := List.replicate n .idle, trace := [] }

/-- Reachable states of a queue that initially contains `q0`, used by `n` threads. -/
inductive Reachable (allowed : List (Ev V) → Nat → Op V → Prop) (q0 : List V) (n : Nat) :
    Sys V → Prop where
  | init : Reachable allowed q0 n (start q0 n)
  | step (s s' : Sys V) : Reachable allowed q0 n s → Step allowed s s' →
      Reachable allowed q0 n s'

end Ceres.Queue
