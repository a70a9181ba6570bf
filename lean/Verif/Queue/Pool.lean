import Verif.Queue.Props
import Mathlib.Data.List.Perm.Basic

/-!
# C22 (second half): `ThreadPool` (thread_pool.cc)

Workers run `ThreadMainLoop` (lines 95-100).  By the linearizability theorem of `Props.lean`
the queue is used here as an atomic FIFO queue whose `Wait` blocks while the queue is empty
and not stopped.  Tasks are arbitrary: while running, a task may add further tasks.
Simplifications: a task is identified by a number; tasks terminate when they are given steps;
after the destructor has started only running tasks add tasks (any other use of an object
being destroyed is undefined behaviour).
-/
namespace Ceres.Queue.Pool

/-- A worker thread. -/
inductive W where
  /-- in `task_queue_.Wait(&task)` (line 97) -/
  | waiting
  /-- in `task()` (line 98) -/
  | running (task : Nat)
  /-- left `ThreadMainLoop` -/
  | exited
  deriving DecidableEq

/-- Pool state.  `added`, `started`, `done` are logs; task identifiers are fresh. -/
structure P where
  q : List Nat
  stopped : Bool
  workers : List W
  added : List Nat
  started : List Nat
  done : List Nat
  joined : Bool

/-- `GetNumAllowedThreads` and the tail of `Resize` (lines 42-44, 73-83): number of workers
after `Resize(req)` when `cur` exist and the hardware allows `hw`. -/
def resizeCount (cur req hw : Nat) : Nat :=
  if cur ≥ req then cur else cur + (min req hw - cur)

/-- One step. -/
inductive Step (hw : Nat) : P → P → Prop where
  /-- `Resize` (lines 70-84), before destruction. -/
  | resize (s : P) (req : Nat) : s.stopped = false →
      Step hw s { s with
        workers := s.workers ++
          List.replicate (resizeCount s.workers.length req hw - s.workers.length) .waiting }
  /-- `AddTask` from outside (lines 86-88), before destruction. -/
  | add (s : P) (x : Nat) : s.stopped = false → x ∉ s.added →
      Step hw s { s with
        q := s.q ++ [x]
        added := s.added ++ [x] }
  /-- `AddTask` from a running task. -/
  | addFrom (s : P) (w task x : Nat) : s.workers[w]? = some (.running task) → x ∉ s.added →
      Step hw s { s with
        q := s.q ++ [x]
        added := s.added ++ [x] }
  /-- `Wait` returns a task and the worker starts it (lines 97-98). -/
  | take (s : P) (w x : Nat) (rest : List Nat) : s.workers[w]? = some .waiting →
      s.q = x :: rest →
      Step hw s { s with
        q := rest
        started := s.started ++ [x]
        workers := s.workers.set w (.running x) }
  /-- The task returns. -/
  | finish (s : P) (w x : Nat) : s.workers[w]? = some (.running x) →
      Step hw s { s with
        done := s.done ++ [x]
        workers := s.workers.set w .waiting }
  /-- `Wait` returns false: empty and stopped (line 97). -/
  | exit (s : P) (w : Nat) : s.workers[w]? = some .waiting → s.q = [] → s.stopped = true →
      Step hw s { s with workers := s.workers.set w .exited }
  /-- The destructor calls `Stop` (lines 60-64, 102). -/
  | destroy (s : P) : s.stopped = false → Step hw s { s with stopped := true }
  /-- All `join`s have returned (lines 65-67). -/
  | join (s : P) : s.stopped = true → s.joined = false → (∀ x ∈ s.workers, x = .exited) →
      Step hw s { s with joined := true }

/-- A new pool (line 56). -/
def init : P :=
  { q := [], stopped := false, workers := [], added := [], started := [], done := [],
    joined := false }

inductive Reachable (hw : Nat) : P → Prop where
  | init : Reachable hw init
  | step (s s' : P) : Reachable hw s → Step hw s s' → Reachable hw s'

/-- The task a worker runs. -/
def W.cur : W → List Nat
  | .running x => [x]
  | _ => []

structure Inv (s : P) : Prop where
  fifo : s.added = s.started ++ s.q
  nodup : s.added.Nodup
  run : s.started.Perm (s.done ++ s.workers.flatMap W.cur)
  exit : (∃ w : Nat, s.workers[w]? = some .exited) → s.stopped = true
  queue : s.workers ≠ [] → (∀ x ∈ s.workers, x = .exited) → s.q = []
  joined : s.joined = true → s.stopped = true ∧ ∀ x ∈ s.workers, x = .exited

theorem flatMap_set {l : List W} {w : Nat} {old x : W} (h : l[w]? = some old) :
    (old.cur ++ (l.set w x).flatMap W.cur).Perm (x.cur ++ l.flatMap W.cur) := by
  induction l generalizing w with
  | nil => simp at h
  | cons a l ih =>
    cases w with
    | zero =>
      simp only [List.getElem?_cons_zero, Option.some.injEq] at h
      subst h
      simp only [List.set_cons_zero, List.flatMap_cons]
      rw [← List.append_assoc, ← List.append_assoc]
      exact (List.perm_append_comm).append_right _
    | succ w =>
      simp only [List.getElem?_cons_succ] at h
      simp only [List.set_cons_succ, List.flatMap_cons]
      have h1 : (old.cur ++ (a.cur ++ (l.set w x).flatMap W.cur)).Perm
          (a.cur ++ (old.cur ++ (l.set w x).flatMap W.cur)) := by
        rw [← List.append_assoc, ← List.append_assoc]
        exact (List.perm_append_comm).append_right _
      have h2 : (a.cur ++ (x.cur ++ l.flatMap W.cur)).Perm
          (x.cur ++ (a.cur ++ l.flatMap W.cur)) := by
        rw [← List.append_assoc, ← List.append_assoc]
        exact (List.perm_append_comm).append_right _
      exact h1.trans (((ih h).append_left _).trans h2)

open Ceres.Parallel (set_get)

theorem mem_set_self {l : List W} {w : Nat} {old x : W} (h : l[w]? = some old) :
    x ∈ l.set w x :=
  List.mem_of_getElem? (i := w) (by
    rw [List.getElem?_set_self (List.getElem?_eq_some_iff.1 h).1])

theorem inv_step {hw : Nat} {s s' : P} (h : Inv s) (hs : Step hw s s') : Inv s' := by
  cases hs with
  | resize req hns =>
    refine ⟨h.fifo, h.nodup, ?_, ?_, ?_, ?_⟩
    · simp only [List.flatMap_append]
      rw [List.flatMap_replicate]
      have : (List.replicate (resizeCount s.workers.length req hw - s.workers.length)
          (W.cur .waiting)).flatten = [] := by simp [W.cur]
      rw [this, List.append_nil]
      exact h.run
    · rintro ⟨w, hw'⟩
      have := List.mem_of_getElem? hw'
      rcases List.mem_append.1 this with hm | hm
      · obtain ⟨i, hi⟩ := List.getElem?_of_mem hm
        exact h.exit ⟨i, hi⟩
      · have := List.eq_of_mem_replicate hm
        simp at this
    · intro hne hall
      by_cases hz : s.workers = []
      · -- new workers are waiting, so not all have exited
        exfalso
        obtain ⟨x, hx⟩ := List.exists_mem_of_ne_nil _ hne
        have h1 := hall x hx
        simp only [hz, List.nil_append] at hx
        have h2 := List.eq_of_mem_replicate hx
        rw [h1] at h2
        simp at h2
      · exact h.queue hz (fun x hx => hall x (List.mem_append_left _ hx))
    · intro hj
      have := (h.joined hj).1
      rw [hns] at this; simp at this
  | add x hns hx =>
    refine ⟨by simp [h.fifo], ?_, h.run, h.exit, ?_, ?_⟩
    · exact List.nodup_append.2 ⟨h.nodup, by simp, by
        intro a ha b hb
        simp at hb; subst hb
        rintro rfl; exact hx ha⟩
    · intro hne hall
      exfalso
      obtain ⟨y, hy⟩ := List.exists_mem_of_ne_nil _ hne
      obtain ⟨i, hi⟩ := List.getElem?_of_mem hy
      rw [hall y hy] at hi
      have := h.exit ⟨i, hi⟩
      rw [hns] at this; simp at this
    · exact h.joined
  | addFrom w task x hw' hx =>
    refine ⟨by simp [h.fifo], ?_, h.run, h.exit, ?_, ?_⟩
    · exact List.nodup_append.2 ⟨h.nodup, by simp, by
        intro a ha b hb
        simp at hb; subst hb
        rintro rfl; exact hx ha⟩
    · intro hne hall
      have := hall _ (List.mem_of_getElem? hw')
      simp at this
    · exact h.joined
  | take w x rest hw' hq =>
    refine ⟨?_, h.nodup, ?_, ?_, ?_, ?_⟩
    · rw [h.fifo, hq]; simp
    · have h1 := flatMap_set (x := .running x) hw'
      simp only [W.cur, List.nil_append] at h1
      have h2 : (s.started ++ [x]).Perm ((s.done ++ s.workers.flatMap W.cur) ++ [x]) :=
        h.run.append_right _
      refine h2.trans ?_
      rw [List.append_assoc]
      exact ((List.perm_append_comm.trans h1.symm).append_left _)
    · rintro ⟨v, hv⟩
      rcases set_get hv with ⟨_, h2, _⟩ | ⟨_, hv⟩
      · simp at h2
      · exact h.exit ⟨v, hv⟩
    · intro hne hall
      have := hall _ (mem_set_self (x := .running x) hw')
      simp at this
    · intro hj
      have := (h.joined hj).2 _ (List.mem_of_getElem? hw')
      simp at this
  | finish w x hw' =>
    refine ⟨h.fifo, h.nodup, ?_, ?_, ?_, ?_⟩
    · have h1 := flatMap_set (x := .waiting) hw'
      simp only [W.cur, List.nil_append] at h1
      refine h.run.trans ?_
      rw [List.append_assoc]
      exact h1.symm.append_left _
    · rintro ⟨v, hv⟩
      rcases set_get hv with ⟨_, h2, _⟩ | ⟨_, hv⟩
      · simp at h2
      · exact h.exit ⟨v, hv⟩
    · intro hne hall
      have := hall _ (mem_set_self (x := .waiting) hw')
      simp at this
    · intro hj
      have := (h.joined hj).2 _ (List.mem_of_getElem? hw')
      simp at this
  | exit w hw' hq hst =>
    refine ⟨h.fifo, h.nodup, ?_, fun _ => hst, fun _ _ => hq, ?_⟩
    · have h1 := flatMap_set (x := .exited) hw'
      simp only [W.cur, List.nil_append] at h1
      exact h.run.trans (h1.symm.append_left _)
    · intro hj
      have := (h.joined hj).2 _ (List.mem_of_getElem? hw')
      simp at this
  | destroy hns =>
    exact ⟨h.fifo, h.nodup, h.run, fun _ => rfl, h.queue, fun hj => ⟨rfl, (h.joined hj).2⟩⟩
  | join hst hj hall =>
    exact ⟨h.fifo, h.nodup, h.run, h.exit, h.queue, fun _ => ⟨hst, hall⟩⟩

theorem inv_reachable {hw : Nat} {s : P} (h : Reachable hw s) : Inv s := by
  induction h with
  | init => exact ⟨rfl, by simp [init], by simp [init], by simp [init], by simp [init],
      by simp [init]⟩
  | step s s' _ hs ih => exact inv_step ih hs

/-- **C22 (tasks start in order, at most once).**  At every moment the tasks started are a
prefix of the tasks added, without repetition; each is finished or being run by exactly one
worker. -/
theorem pool_starts_in_order {hw : Nat} {s : P} (h : Reachable hw s) :
    s.started <+: s.added ∧ s.started.Nodup ∧
    s.started.Perm (s.done ++ s.workers.flatMap W.cur) := by
  have hi := inv_reachable h
  refine ⟨⟨s.q, hi.fifo.symm⟩, ?_, hi.run⟩
  have := hi.nodup
  rw [hi.fifo] at this
  exact (List.nodup_append.1 this).1

/-- **C22 (destruction runs everything).**  When the destructor of a pool with at least one
thread has returned, every task ever added, including those added by running tasks, has been
run to completion exactly once. -/
theorem pool_destructor_runs_all {hw : Nat} {s : P} (h : Reachable hw s)
    (hj : s.joined = true) (hne : s.workers ≠ []) : s.done.Perm s.added ∧ s.done.Nodup := by
  have hi := inv_reachable h
  obtain ⟨_, hall⟩ := hi.joined hj
  have hq := hi.queue hne hall
  have hrun : s.workers.flatMap W.cur = [] := by
    rw [List.flatMap_eq_nil_iff]
    intro x hx
    rw [hall x hx]; rfl
  have hp := hi.run
  rw [hrun, List.append_nil] at hp
  have : s.added = s.started := by rw [hi.fifo, hq, List.append_nil]
  refine ⟨by rw [this]; exact hp.symm, ?_⟩
  rw [← hp.nodup_iff, ← this]
  exact hi.nodup

/-- **C22 (destruction does not hang).**  After the destructor has started, until it returns,
some worker or the destructor can take a step (tasks being assumed to finish). -/
theorem pool_destructor_progress {hw : Nat} {s : P} (h : Reachable hw s)
    (hst : s.stopped = true) (hj : s.joined = false) : ∃ s', Step hw s s' ∧ s'.added = s.added := by
  by_cases hall : ∀ x ∈ s.workers, x = .exited
  · exact ⟨_, Step.join s hst hj hall, rfl⟩
  · push Not at hall
    obtain ⟨x, hx, hne⟩ := hall
    obtain ⟨i, hi⟩ := List.getElem?_of_mem hx
    cases x with
    | exited => exact absurd rfl hne
    | running y => exact ⟨_, Step.finish s i y hi, rfl⟩
    | waiting =>
      cases hq : s.q with
      | nil => exact ⟨_, Step.exit s i hi hq hst, rfl⟩
      | cons y rest => exact ⟨_, Step.take s i y rest hi hq, rfl⟩

/-- `Resize` never removes threads, never exceeds both the old size and the hardware limit, and
reaches the requested size when the hardware allows it. -/
theorem resize_count (cur req hw : Nat) :
    resizeCount cur req hw = max cur (min req hw) := by
  unfold resizeCount
  split <;> omega

/-- A pool with one worker: a task adds another task during destruction; both are run. -/
example : ∃ s : P, Reachable 4 s ∧ s.joined = true ∧ s.workers ≠ [] ∧ s.done = [10, 11] := by
  have s1 := Reachable.step _ _ (Reachable.init (hw := 4)) (Step.resize _ 1 rfl)
  have s2 := Reachable.step _ _ s1 (Step.add _ 10 rfl (by simp [init]))
  have s3 := Reachable.step _ _ s2 (Step.take _ 0 10 [] rfl rfl)
  have s4 := Reachable.step _ _ s3 (Step.destroy _ rfl)
  have s5 := Reachable.step _ _ s4 (Step.addFrom _ 0 10 11 rfl (by simp [init]))
  have s6 := Reachable.step _ _ s5 (Step.finish _ 0 10 rfl)
  have s7 := Reachable.step _ _ s6 (Step.take _ 0 11 [] rfl rfl)
  have s8 := Reachable.step _ _ s7 (Step.finish _ 0 11 rfl)
  have s9 := Reachable.step _ _ s8 (Step.exit _ 0 rfl rfl rfl)
  have s10 := Reachable.step _ _ s9 (Step.join _ rfl rfl (by simp [init, resizeCount]))
  exact ⟨_, s10, rfl, by simp [init, resizeCount], rfl⟩

/-- The hypothesis of at least one thread is needed: a pool that was never resized is
destroyed without running its tasks. -/
theorem pool_without_threads_drops_tasks :
    ∃ s : P, Reachable 4 s ∧ s.joined = true ∧ s.added = [1] ∧ s.done = [] := by
  have s1 := Reachable.step _ _ (Reachable.init (hw := 4)) (Step.add _ 1 rfl (by simp [init]))
  have s2 := Reachable.step _ _ s1 (Step.destroy _ rfl)
  have s3 := Reachable.step _ _ s2 (Step.join _ rfl rfl (by simp [init]))
  exact ⟨_, s3, rfl, rfl, rfl⟩

end Ceres.Queue.Pool
