import Verif.Tasks.Term

/-!
# `ParallelFor` with a minimal block size (parallel_for.h:69-93)
-/
namespace Ceres.Tasks

variable {L M K : Type} [DecidableEq L] [DecidableEq M]

/-- `ParallelFor` with `min_block_size` (parallel_for.h:69-93); `ForRun` is the case of size one. -/
inductive ForRunMin (minBlock : ℕ) (task : ℕ → ℕ → Code L M K) (start stop threads : ℕ) (m : L → K) :
    Option (L → K) → Prop where
  | badThreads : threads = 0 → ForRunMin minBlock task start stop threads m none
  | empty : 0 < threads → stop ≤ start → ForRunMin minBlock task start stop threads m (some m)
  | sequential : 0 < threads → start < stop → (threads = 1 ∨ stop - start < minBlock * 2) →
      ForRunMin minBlock task start stop threads m
        ((seqRun task (List.range' start (stop - start)) m fun _ => false).map Prod.fst)
  | parallel (s : St L M K) : 0 < threads → start < stop →
      ¬ (threads = 1 ∨ stop - start < minBlock * 2) →
      Reach ⟨start, stop, threads, Parallel.numWorkBlocks start stop threads minBlock⟩ task m s →
      s.par.returned = true → ForRunMin minBlock task start stop threads m (some s.mem)
  | stuck (s : St L M K) : 0 < threads → start < stop →
      ¬ (threads = 1 ∨ stop - start < minBlock * 2) →
      Reach ⟨start, stop, threads, Parallel.numWorkBlocks start stop threads minBlock⟩ task m s →
      s.par.returned = false →
      (∀ s', ¬ Step ⟨start, stop, threads, Parallel.numWorkBlocks start stop threads minBlock⟩ task s s') →
      ForRunMin minBlock task start stop threads m none

variable [AddCommMonoid K] {minBlock : ℕ} {kind : L → Kind M} {task : ℕ → ℕ → Code L M K}
  {start stop threads : ℕ} {m fin : L → K} {inc : ℕ → L → K}

theorem forRunMin_result (hb : 0 < minBlock) (T : Disciplined kind task start stop threads m fin inc) (ht : 0 < threads)
    {r : Option (L → K)} (h : ForRunMin minBlock task start stop threads m r) :
    ∃ m', r = some m' ∧ Result kind start stop m fin inc m' := by
  cases h with
  | badThreads h0 => omega
  | empty _ hle =>
    refine ⟨m, rfl, fun _ _ => rfl, fun l i _ => by rw [if_neg (by omega)], fun l x _ => ?_⟩
    rw [Finset.Ico_eq_empty (by omega)]; simp
  | sequential _ hlt _ =>
    obtain ⟨m', e1, e2⟩ := seq_result T ht (stop - start) start m (by omega) le_rfl
      ⟨fun _ _ => rfl, fun l i _ => by rw [if_neg (by omega)], fun l x _ => by simp⟩
    exact ⟨m', by rw [e1]; rfl, e2⟩
  | parallel s _ hlt hc hreach hret =>
    obtain ⟨part, inv⟩ := inv_reach (c := ⟨start, stop, threads, _⟩) T (by show 1 < threads; omega)
      (Parallel.numWorkBlocks_pos ht hb (by omega)) (Nat.le_of_lt hlt) hreach
    have hout := Parallel.Outcome.parallel s.par ht hlt (minBlock := minBlock) hc (reach_par hreach) hret
    have hcov := (Parallel.parallelFor_covers hb hout).1
    have hin : ∀ j, start ≤ j → j < stop → j ∈ s.par.log.map (·.2) := by
      intro j h1 h2
      have := hcov j
      rw [if_pos ⟨h1, h2⟩] at this
      exact List.count_pos_iff.1 (by omega)
    refine ⟨s.mem, rfl, inv.fixed, ?_, ?_⟩
    · intro l i hl
      by_cases hi : start ≤ i ∧ i < stop
      · rw [if_pos hi]
        exact (inv.logged i (hin i hi.1 hi.2)).1 l hl
      · rw [if_neg hi]
        refine (inv.waiting i ?_ ?_).1 l hl
        · intro hm
          have := hcov i
          rw [if_neg hi] at this
          have := List.count_pos_iff.2 hm
          omega
        · intro w tid jobs e hcall
          obtain ⟨f1, f2, -⟩ := calling_facts (c := ⟨start, stop, threads, _⟩) ht
            (Parallel.numWorkBlocks_pos ht hb (by omega)) (Nat.le_of_lt hlt) (reach_par hreach) hcall
          exact hi ⟨f1, f2⟩
    · intro l x hl
      rw [inv.sums l x hl]
      congr 1
      refine Finset.sum_congr rfl fun j hj => ?_
      rw [Finset.mem_Ico] at hj
      exact (inv.logged j (hin j hj.1 hj.2)).2 l x hl
  | stuck s _ hlt hc hreach hret hst =>
    obtain ⟨s', hs⟩ := progress (c := ⟨start, stop, threads, _⟩) T (by show 1 < threads; omega)
      (Parallel.numWorkBlocks_pos ht hb (by omega)) (Nat.le_of_lt hlt) hreach hret
    exact absurd hs (hst s')

theorem forRunMin_exists (hb : 0 < minBlock) (T : Disciplined kind task start stop threads m fin inc) (ht : 0 < threads) :
    ∃ m', ForRunMin minBlock task start stop threads m (some m') := by
  by_cases hle : stop ≤ start
  · exact ⟨m, .empty ht hle⟩
  · by_cases hs : threads = 1 ∨ stop - start < minBlock * 2
    · have hr := ForRunMin.sequential (minBlock := minBlock) (task := task) (m := m) ht (by omega) hs
      obtain ⟨m', h1, -⟩ := forRunMin_result hb T ht hr
      exact ⟨m', h1 ▸ hr⟩
    · obtain ⟨s', h1, h2⟩ := returns (c := ⟨start, stop, threads, Parallel.numWorkBlocks start stop threads minBlock⟩) T
        (by show 1 < threads; omega) (Parallel.numWorkBlocks_pos ht hb (by omega))
        (by show start ≤ stop; omega) (.init fun _ => .ret)
      exact ⟨s'.mem, .parallel s' ht (by omega) hs h1 h2⟩

end Ceres.Tasks
