import Verif.Parallel.Model
import Mathlib.Data.Nat.Notation

/-!
# Loop bodies of `ParallelFor` on shared memory with mutexes

`Verif.Parallel` models which index is given to which thread and when; here the body of the loop is a
program that makes one memory access or one mutex operation at a time, interleaved in any way with the
bodies that run on other threads.  `L` are the memory locations, `M` the mutexes, `K` the contents of a
location.  Variables on the stack of a body are variables of Lean.
-/
namespace Ceres.Tasks

/-- A loop body. -/
inductive Code (L M K : Type) where
  | ret
  | read (l : L) (f : K → Code L M K)
  | write (l : L) (v : K) (k : Code L M K)
  | lock (m : M) (k : Code L M K)
  | unlock (m : M) (k : Code L M K)

variable {L M K : Type} [DecidableEq L] [DecidableEq M]

/-- One location replaced. -/
def upd (m : L → K) (l : L) (v : K) : L → K := fun l' => if l' = l then v else m l'

/-- The state of `ParallelFor` joined with the memory, the owner of each mutex and, for each worker
inside the function, the code it still has to run. -/
structure St (L M K : Type) where
  par : Parallel.State
  mem : L → K
  held : M → Option ℕ
  code : ℕ → Code L M K

/-- Worker `w` is inside the function, with thread id `tid` and index `i`. -/
def Calling (s : Parallel.State) (w tid jobs i stop : ℕ) : Prop :=
  s.workers[w]? = some (.calling tid jobs i stop)

/-- One access by worker `w`: memory, mutexes, remaining code.  Locking a mutex that is taken is not
possible; unlocking one that is not the worker's own is undefined, so there is no step. -/
inductive Access (w : ℕ) : (L → K) → (M → Option ℕ) → Code L M K →
    (L → K) → (M → Option ℕ) → Code L M K → Prop where
  | read (m : L → K) (h : M → Option ℕ) (l : L) (f : K → Code L M K) :
      Access w m h (.read l f) m h (f (m l))
  | write (m : L → K) (h : M → Option ℕ) (l : L) (v : K) (k : Code L M K) :
      Access w m h (.write l v k) (upd m l v) h k
  | lock (m : L → K) (h : M → Option ℕ) (x : M) (k : Code L M K) :
      h x = none → Access w m h (.lock x k) m (upd h x (some w)) k
  | unlock (m : L → K) (h : M → Option ℕ) (x : M) (k : Code L M K) :
      h x = some w → Access w m h (.unlock x k) m (upd h x none) k

/-- One step of some thread.  A call starts the body; while a worker is inside the function it makes one
access at a time; it returns when its code has ended.  All other steps of `ParallelFor` neither start nor
end a call (parallel_invoke.h:198-262). -/
inductive Step (c : Parallel.Cfg) (task : ℕ → ℕ → Code L M K) : St L M K → St L M K → Prop where
  | call (s : St L M K) (w tid jobs i stop : ℕ) :
      s.par.workers[w]? = some (.segment tid jobs i stop) → i ≠ stop →
      Step c task s
        { s with
          par := { s.par with workers := s.par.workers.set w (.calling tid jobs i stop) }
          code := fun w' => if w' = w then task tid i else s.code w' }
  | access (s : St L M K) (w tid jobs i stop : ℕ) (k : Code L M K) (m : L → K) (h : M → Option ℕ) :
      Calling s.par w tid jobs i stop → Access w s.mem s.held (s.code w) m h k →
      Step c task s
        { s with
          mem := m
          held := h
          code := fun w' => if w' = w then k else s.code w' }
  | ret (s : St L M K) (w tid jobs i stop : ℕ) :
      Calling s.par w tid jobs i stop → s.code w = .ret →
      Step c task s
        { s with
          par := { s.par with
            log := s.par.log ++ [(tid, i)]
            workers := s.par.workers.set w (.segment tid jobs (i + 1) stop) } }
  | other (s : St L M K) (p : Parallel.State) :
      Parallel.Step c s.par p → p.log = s.par.log →
      (∀ w tid jobs i stop, Calling p w tid jobs i stop ↔ Calling s.par w tid jobs i stop) →
      Step c task s { s with par := p }

/-- States reachable from the call of `ParallelFor` with memory `m`, all mutexes being free. -/
inductive Reach (c : Parallel.Cfg) (task : ℕ → ℕ → Code L M K) (m : L → K) : St L M K → Prop where
  | init (code : ℕ → Code L M K) : Reach c task m ⟨Parallel.init, m, fun _ => none, code⟩
  | step (s s' : St L M K) : Reach c task m s → Step c task s s' → Reach c task m s'

/-- A body run by one thread alone; `none` if it waits for itself or unlocks what it has not locked. -/
def Code.exec : Code L M K → (L → K) → (M → Bool) → Option ((L → K) × (M → Bool))
  | .ret, m, h => some (m, h)
  | .read l f, m, h => (f (m l)).exec m h
  | .write l v k, m, h => k.exec (upd m l v) h
  | .lock x k, m, h => if h x then none else k.exec m (upd h x true)
  | .unlock x k, m, h => if h x then k.exec m (upd h x false) else none

/-- The sequential path of `ParallelFor` (parallel_for.h:81-84): thread id 0. -/
def seqRun (task : ℕ → ℕ → Code L M K) : List ℕ → (L → K) → (M → Bool) → Option ((L → K) × (M → Bool))
  | [], m, h => some (m, h)
  | i :: is, m, h => ((task 0 i).exec m h).bind fun r => seqRun task is r.1 r.2

/-- `ParallelFor` (parallel_for.h:69-93, `min_block_size = 1`) on `[start, stop)`: the memory when it
returns, or `none` if it does not return. -/
inductive ForRun (task : ℕ → ℕ → Code L M K) (start stop threads : ℕ) (m : L → K) :
    Option (L → K) → Prop where
  | badThreads : threads = 0 → ForRun task start stop threads m none
  | empty : 0 < threads → stop ≤ start → ForRun task start stop threads m (some m)
  | sequential : 0 < threads → start < stop → (threads = 1 ∨ stop - start < 2) →
      ForRun task start stop threads m
        ((seqRun task (List.range' start (stop - start)) m fun _ => false).map Prod.fst)
  | parallel (s : St L M K) : 0 < threads → start < stop →
      ¬ (threads = 1 ∨ stop - start < 2) →
      Reach ⟨start, stop, threads, Parallel.numWorkBlocks start stop threads 1⟩ task m s →
      s.par.returned = true → ForRun task start stop threads m (some s.mem)
  | stuck (s : St L M K) : 0 < threads → start < stop →
      ¬ (threads = 1 ∨ stop - start < 2) →
      Reach ⟨start, stop, threads, Parallel.numWorkBlocks start stop threads 1⟩ task m s →
      s.par.returned = false →
      (∀ s', ¬ Step ⟨start, stop, threads, Parallel.numWorkBlocks start stop threads 1⟩ task s s') →
      ForRun task start stop threads m none

/-- Worker `w` is about to read `l`. -/
def Reads (s : St L M K) (w : ℕ) (l : L) : Prop :=
  (∃ tid jobs i e, Calling s.par w tid jobs i e) ∧ ∃ f, s.code w = .read l f

/-- Worker `w` is about to write `l`. -/
def Writes (s : St L M K) (w : ℕ) (l : L) : Prop :=
  (∃ tid jobs i e, Calling s.par w tid jobs i e) ∧ ∃ v k, s.code w = .write l v k

/-- A data race: two workers are about to access the same location, one of them to write. -/
def Race (s : St L M K) : Prop :=
  ∃ w w' l, w ≠ w' ∧ Writes s w l ∧ (Reads s w' l ∨ Writes s w' l)

end Ceres.Tasks
