import Verif.Parallel.Lemmas
import Mathlib.Data.List.Nodup

/-!
# C20: what `ParallelFor` guarantees under every schedule

The specification is in terms of the log of completed calls `(thread id, index)`.
-/
namespace Ceres.Parallel

/-- Every index of `[start, stop)` exactly once and no other. -/
def CoversOnce (start stop : Nat) (log : List (Nat × Nat)) : Prop :=
  ∀ x, (log.map (·.2)).count x = if start ≤ x ∧ x < stop then 1 else 0

theorem count_range' {start n x : Nat} (h : start ≤ x ∧ x < start + n) :
    (List.range' start n).count x = 1 := by
  have h1 := List.nodup_iff_count_le_one.1 (List.nodup_range' (s := start) (n := n) (step := 1)) x
  have h2 := List.count_pos_iff.2 (List.mem_range'_1.2 h)
  omega

theorem blockStart_blocks (c : Cfg) (hb : 0 < c.blocks) (hle : c.start ≤ c.stop) :
    c.blockStart c.blocks = c.stop := by
  unfold Cfg.blockStart Cfg.base Cfg.rem
  have h1 := Nat.div_add_mod (c.stop - c.start) c.blocks
  have h2 := Nat.mod_lt (c.stop - c.start) hb
  rw [Nat.min_eq_right (by omega)]
  omega

/-- The blocks are as equal as possible and non-empty (parallel_invoke.h:102-119). -/
theorem numWorkBlocks_pos {start stop threads minBlock : Nat} (ht : 0 < threads)
    (hm : 0 < minBlock) (hp : ¬ (threads = 1 ∨ stop - start < minBlock * 2)) :
    0 < numWorkBlocks start stop threads minBlock := by
  unfold numWorkBlocks
  have : 1 ≤ (stop - start) / minBlock := by
    rw [Nat.le_div_iff_mul_le hm]; omega
  omega

theorem pend_zero_of_jobs {p : PC} (hok : p.ok) (hj : p.jobs = 0) (x : Nat) : p.pend x = 0 := by
  cases p <;> simp [PC.ok, PC.jobs, PC.pend] at * <;> omega

theorem sum_pend_zero {l : List PC} (hok : ∀ p ∈ l, p.ok) (hj : (l.map PC.jobs).sum = 0)
    (x : Nat) : (l.map (PC.pend x)).sum = 0 := by
  induction l with
  | nil => rfl
  | cons a l ih =>
    simp only [List.map_cons, List.sum_cons] at hj ⊢
    rw [pend_zero_of_jobs (hok a (by simp)) (by omega) x,
      ih (fun p hp => hok p (by simp [hp])) (by omega)]

theorem returned_quiet {c : Cfg} (ht : 0 < c.threads) {s : State} (h : Reachable c s)
    (hr : s.returned = true) : (s.workers.map PC.jobs).sum = 0 ∧ s.claimed c = c.blocks := by
  have hi := inv_reachable ht h
  have h1 := hi.ret hr
  have h2 := hi.jobs
  have h3 : s.claimed c ≤ c.blocks := Nat.min_le_right _ _
  omega

/-- **C20 (coverage).**  Whenever `ParallelFor(context, start, end, num_threads, f,
min_block_size)` returns, whatever the interleaving and however many pool threads took part,
`f` has been called and has returned exactly once for every index in `[start, end)`, for no
other index, and every thread id passed to it is in `[0, num_threads)`. -/
theorem parallelFor_covers {start stop threads minBlock : Nat} (hm : 0 < minBlock)
    {log : List (Nat × Nat)} (h : Outcome start stop threads minBlock log) :
    CoversOnce start stop log ∧ ∀ e ∈ log, e.1 < threads := by
  cases h with
  | empty ht hle =>
    refine ⟨fun x => ?_, by simp⟩
    rw [if_neg (by omega)]; simp
  | sequential ht hlt hc =>
    constructor
    · intro x
      have : (sequentialLog start stop).map (·.2) = List.range' start (stop - start) := by
        simp [sequentialLog, List.map_map, Function.comp_def]
      rw [this]
      by_cases hx : start ≤ x ∧ x < stop
      · rw [if_pos hx]
        exact count_range' (by omega)
      · rw [if_neg hx]
        exact List.count_eq_zero_of_not_mem (by rw [List.mem_range'_1]; omega)
    · intro e he
      simp only [sequentialLog, List.mem_map] at he
      obtain ⟨i, _, rfl⟩ := he
      exact ht
  | parallel s ht hlt hc hreach hr =>
    have hi := inv_reachable (c := ⟨start, stop, threads, _⟩) ht hreach
    have hq := returned_quiet (c := ⟨start, stop, threads, _⟩) ht hreach hr
    refine ⟨fun x => ?_, hi.logtid⟩
    have hcov := hi.cover x
    rw [sum_pend_zero hi.ok hq.1 x, hq.2, blockStart_blocks _ (numWorkBlocks_pos ht hm hc)
      (Nat.le_of_lt hlt), Nat.add_zero] at hcov
    exact hcov

/-- The same as a permutation statement. -/
theorem parallelFor_permutation {start stop threads minBlock : Nat} (hm : 0 < minBlock)
    {log : List (Nat × Nat)} (h : Outcome start stop threads minBlock log) :
    (log.map (·.2)).Perm (List.range' start (stop - start)) := by
  rw [List.perm_iff_count]
  intro x
  rw [(parallelFor_covers hm h).1 x]
  by_cases hx : start ≤ x ∧ x < stop
  · rw [if_pos hx, count_range' (by omega)]
  · rw [if_neg hx, List.count_eq_zero_of_not_mem (by rw [List.mem_range'_1]; omega)]

/-- **C20 (exclusive thread ids).**  At no moment are two calls of `f` in progress with the
same thread id, and each id in use is in `[0, num_threads)`; hence scratch storage indexed by
the thread id is never shared by two running calls. -/
theorem parallelFor_exclusive_ids {c : Cfg} (ht : 0 < c.threads) {s : State}
    (h : Reachable c s) {w w' t t' j j' i i' e e' : Nat} (hw : s.workers[w]? = some (.calling t j i e))
    (hw' : s.workers[w']? = some (.calling t' j' i' e')) (hne : w ≠ w') :
    t ≠ t' ∧ i ≠ i' ∧ t < c.threads ∧ t' < c.threads := by
  have hi := inv_reachable ht h
  refine ⟨?_, ?_, (hi.tidlt w _ t hw rfl).2, (hi.tidlt w' _ t' hw' rfl).2⟩
  · rintro rfl
    exact hne (hi.uniq w w' t _ _ hw hw' rfl rfl)
  · rintro rfl
    -- two workers with the same pending index would count twice
    have hcov := hi.cover i
    have hok := hi.ok _ (List.mem_of_getElem? hw)
    have hok' := hi.ok _ (List.mem_of_getElem? hw')
    simp only [PC.ok] at hok hok'
    have h1 := sum_map_set (PC.pend i) s.workers w .done _ hw
    have hget : (s.workers.set w .done)[w']? = some (.calling t' j' i e') := by
      rw [List.getElem?_set_ne hne]; exact hw'
    have h2 := le_sum_map (PC.pend i) (s.workers.set w .done) w' _ hget
    simp only [PC.pend] at h1 h2
    rw [if_pos ⟨Nat.le_refl _, hok.1⟩] at h1
    rw [if_pos ⟨Nat.le_refl _, hok'.1⟩] at h2
    have : (if c.start ≤ i ∧ i < c.blockStart (s.claimed c) then 1 else 0) ≤ 1 := by
      split <;> omega
    omega

/-- **C20 (no work escapes the call).**  Once `ParallelFor` has returned, no call of `f` is in
progress, and none is ever started later by a task still sitting in the pool's queue. -/
theorem parallelFor_quiescent {c : Cfg} (ht : 0 < c.threads) {s s' : State}
    (h : Reachable c s) (hr : s.returned = true) :
    (∀ w t j i e : Nat, s.workers[w]? ≠ some (PC.calling t j i e)) ∧
    (Step c s s' → s'.log = s.log ∧ s'.returned = true) := by
  have hi := inv_reachable ht h
  have hq := returned_quiet ht h hr
  constructor
  · intro w t j i e hw
    have h1 := le_sum_map PC.jobs s.workers w _ hw
    have hok := hi.ok _ (List.mem_of_getElem? hw)
    simp only [PC.ok, PC.jobs] at hok h1
    omega
  · intro hs
    cases hs with
    | ret w tid jobs i stop hw =>
      have h1 := le_sum_map PC.jobs s.workers w _ hw
      have hok := hi.ok _ (List.mem_of_getElem? hw)
      simp only [PC.ok, PC.jobs] at hok h1
      omega
    | _ => first | exact ⟨rfl, hr⟩ | exact ⟨rfl, rfl⟩

/-- The internal `CHECK_LE` on the number of finished jobs never fires. -/
theorem parallelFor_check_holds {c : Cfg} (ht : 0 < c.threads) {s : State}
    (h : Reachable c s) : s.aborted = false := (inv_reachable ht h).noabort

/-- **C20 (no deadlock).**  In every reachable state in which the call has not returned, some
thread that is already running can take a step: the caller never depends on the pool
scheduling one of the queued tasks, even with an empty or fully occupied pool. -/
theorem parallelFor_progress {c : Cfg} (ht : 0 < c.threads) {s : State}
    (h : Reachable c s) (hr : s.returned = false) :
    ∃ s', Step c s s' ∧ s'.workers.length = s.workers.length := by
  have hi := inv_reachable ht h
  obtain ⟨p, hp⟩ : ∃ p, s.workers[0]? = some p :=
    ⟨s.workers[0]'hi.nonempty, List.getElem?_eq_getElem hi.nonempty⟩
  by_cases hd : p = .done
  · subst hd
    by_cases hf : s.finished = c.blocks
    · exact ⟨_, Step.unblock s hp hf hr, rfl⟩
    · have h1 := hi.mainDone _ hp (Or.inl rfl)
      have h2 := hi.jobs
      have h3 : s.claimed c = c.blocks := Nat.min_eq_right h1
      obtain ⟨w, q, hw, hq⟩ := exists_pos_of_sum PC.jobs s.workers (by omega)
      exact worker_can_step w q hw (by rintro rfl; simp [PC.jobs] at hq)
  · exact worker_can_step 0 p hp hd

/-- **C20 (termination).**  No schedule runs for ever: there is no infinite sequence of steps. -/
theorem parallelFor_terminates {c : Cfg} (ht : 0 < c.threads) (run : Nat → State)
    (h0 : run 0 = init) (hstep : ∀ n, Step c (run n) (run (n + 1))) : False := by
  have hreach : ∀ n, Reachable c (run n) := by
    intro n
    induction n with
    | zero => rw [h0]; exact Reachable.init
    | succ n ih => exact Reachable.step _ _ ih (hstep n)
  have hdec : ∀ n, measure c (run n) + n ≤ measure c (run 0) := by
    intro n
    induction n with
    | zero => simp
    | succ n ih =>
      have := measure_decreases (inv_reachable ht (hreach n)) (hstep n)
      omega
  have := hdec (measure c (run 0) + 1)
  omega

/-- From every reachable state the call can be completed by threads already running: the
returned state is reachable without any further pool start. -/
theorem parallelFor_returns {c : Cfg} (ht : 0 < c.threads) {s : State} (h : Reachable c s) :
    ∃ s', Reachable c s' ∧ s'.returned = true ∧ s'.workers.length = s.workers.length := by
  obtain ⟨n, hn⟩ : ∃ n, measure c s = n := ⟨_, rfl⟩
  induction n using Nat.strong_induction_on generalizing s with
  | _ n ih =>
    by_cases hr : s.returned = true
    · exact ⟨s, h, hr, rfl⟩
    · obtain ⟨s1, hs1, hl1⟩ := parallelFor_progress ht h (by simpa using hr)
      have hm := measure_decreases (inv_reachable ht h) hs1
      obtain ⟨s', h1, h2, h3⟩ := ih (measure c s1) (by omega) (Reachable.step _ _ h hs1) rfl
      exact ⟨s', h1, h2, by omega⟩

/-! ### Non-vacuity: the parallel path has outcomes -/

/-- Ten indices, three threads, at least one index per block: the parallel path is taken, and
some schedule returns. -/
example : ∃ log, Outcome 5 15 3 1 log ∧ log.length = 10 := by
  obtain ⟨s', h1, h2, _⟩ := parallelFor_returns
    (c := ⟨5, 15, 3, numWorkBlocks 5 15 3 1⟩) (by decide) Reachable.init
  have ho : Outcome 5 15 3 1 s'.log :=
    Outcome.parallel s' (by decide) (by decide) (by decide) h1 h2
  refine ⟨s'.log, ho, ?_⟩
  have := (parallelFor_permutation (by decide) ho).length_eq
  simpa using this

/-- A reachable state of the two thread configuration with two calls in progress at once. -/
example : ∃ s, Reachable ⟨0, 8, 2, 8⟩ s ∧ s.workers[0]? = some (.calling 0 1 0 1) ∧
    s.workers[1]? = some (.calling 1 1 1 2) := by
  let c : Cfg := ⟨0, 8, 2, 8⟩
  have s1 := Reachable.step (c := c) _ _ Reachable.init (Step.fetchId _ 0 rfl)
  have s2 := Reachable.step (c := c) _ _ s1 (Step.test _ 0 0 rfl)
  have s3 := Reachable.step (c := c) _ _ s2 (Step.addTask _ 0 0 rfl)
  have s4 := Reachable.step (c := c) _ _ s3 (Step.poolStart _ 0 rfl)
  have s5 := Reachable.step (c := c) _ _ s4 (Step.fetchBlock _ 0 0 0 rfl)
  have s6 := Reachable.step (c := c) _ _ s5 (Step.fetchId _ 1 rfl)
  have s7 := Reachable.step (c := c) _ _ s6 (Step.test _ 1 1 rfl)
  have s8 := Reachable.step (c := c) _ _ s7 (Step.fetchBlock _ 1 1 0 rfl)
  have s9 := Reachable.step (c := c) _ _ s8 (Step.call _ 0 0 1 0 1 (by simp [init, c, Cfg.blockStart, Cfg.blockEnd, Cfg.base, Cfg.rem]) (by decide))
  have s10 := Reachable.step (c := c) _ _ s9 (Step.call _ 1 1 1 1 2 (by simp [init, c, Cfg.blockStart, Cfg.blockEnd, Cfg.base, Cfg.rem]) (by decide))
  exact ⟨_, s10, rfl, rfl⟩

end Ceres.Parallel
