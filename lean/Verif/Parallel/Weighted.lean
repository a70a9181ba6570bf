import Verif.Parallel.Props
import Verif.Partition.Props

/-!
# The `ParallelFor` overloads with partitions and with cumulative costs
(parallel_for.h:100-137 and 154-183)
-/
namespace Ceres.Parallel

/-- The lambda of parallel_for.h:123-135 applied to the partition indices of one block runs
`InvokeOnSegment` over `[partitions[a], partitions[b])`; per partition index `k` that is the
segment `[partitions[k], partitions[k+1])`.  Simplification: the segment of a block is
written as the concatenation of the segments of its partition indices, as the comment of
lines 127-129 states. -/
def expand (partitions : List Nat) (e : Nat × Nat) : List (Nat × Nat) :=
  (List.range' (partitions.getD e.2 0) (partitions.getD (e.2 + 1) 0 - partitions.getD e.2 0)).map
    (fun i => (e.1, i))

/-- `ParallelFor` with a partition (parallel_for.h:100-137).  The three `CHECK`s failing
means no outcome. -/
inductive PartOutcome (start stop threads : Nat) (partitions : List Nat) :
    List (Nat × Nat) → Prop where
  | empty : 0 < threads → stop ≤ start → PartOutcome start stop threads partitions []
  | direct (log : List (Nat × Nat)) : start < stop → partitions.head? = some start →
      partitions.getLast? = some stop → (threads = 1 ∨ stop - start ≤ threads) →
      Outcome start stop threads 1 log → PartOutcome start stop threads partitions log
  | split (log : List (Nat × Nat)) : start < stop → partitions.head? = some start →
      partitions.getLast? = some stop → ¬ (threads = 1 ∨ stop - start ≤ threads) →
      1 < partitions.length → Outcome 0 (partitions.length - 1) threads 1 log →
      PartOutcome start stop threads partitions (log.flatMap (expand partitions))

/-- `ParallelFor` with cumulative costs (parallel_for.h:154-183). -/
inductive CostOutcome (cum : Nat → Int) (start stop threads : Nat) :
    List (Nat × Nat) → Prop where
  | empty : 0 < threads → stop ≤ start → CostOutcome cum start stop threads []
  | direct (log : List (Nat × Nat)) : start < stop → (threads = 1 ∨ stop - start ≤ threads) →
      Outcome start stop threads 1 log → CostOutcome cum start stop threads log
  | split (log : List (Nat × Nat)) : start < stop → 0 < threads →
      ¬ (threads = 1 ∨ stop - start ≤ threads) →
      PartOutcome start stop threads
        (Partition.partitionRange cum start stop (threads * 4)) log →
      CostOutcome cum start stop threads log

theorem outcome_threads_pos {start stop threads m : Nat} {log : List (Nat × Nat)}
    (h : Outcome start stop threads m log) : 0 < threads := by
  cases h <;> assumption

theorem flatMap_segments (p : List Nat) (hp : p.Pairwise (· ≤ ·)) (n : Nat)
    (hn : n < p.length) :
    (List.range' 0 n).flatMap (fun k => List.range' (p.getD k 0) (p.getD (k + 1) 0 - p.getD k 0)) =
      List.range' (p.getD 0 0) (p.getD n 0 - p.getD 0 0) := by
  induction n with
  | zero => simp
  | succ n ih =>
    have hle : ∀ i j, i ≤ j → j < p.length → p.getD i 0 ≤ p.getD j 0 := by
      intro i j hij hj
      rw [List.getD_eq_getElem?_getD, List.getD_eq_getElem?_getD, List.getElem?_eq_getElem hj,
        List.getElem?_eq_getElem (by omega : i < p.length), Option.getD_some, Option.getD_some]
      rcases Nat.eq_or_lt_of_le hij with h | h
      · subst h; exact Nat.le_refl _
      · exact List.pairwise_iff_getElem.1 hp i j (by omega) hj h
    rw [List.range'_1_concat, List.flatMap_append, ih (by omega)]
    simp only [List.flatMap_cons, List.flatMap_nil, List.append_nil, Nat.zero_add]
    have h1 := hle 0 n (by omega) (by omega)
    have h2 := hle n (n + 1) (by omega) (by omega)
    have h3 : p.getD n 0 = p.getD 0 0 + (p.getD n 0 - p.getD 0 0) := by omega
    have h4 : p.getD (n + 1) 0 - p.getD 0 0 =
      (p.getD n 0 - p.getD 0 0) + (p.getD (n + 1) 0 - p.getD n 0) := by omega
    rw [h4, ← List.range'_append_1, ← h3]

/-- **C20 (partitioned overload).**  For every non-decreasing list of boundaries from `start`
to `end`, every index of `[start, end)` is visited exactly once, with ids below
`num_threads`. -/
theorem parallelForPartitions_covers {start stop threads : Nat} {partitions : List Nat}
    (hp : partitions.Pairwise (· ≤ ·)) {log : List (Nat × Nat)}
    (h : PartOutcome start stop threads partitions log) :
    CoversOnce start stop log ∧ ∀ e ∈ log, e.1 < threads := by
  cases h with
  | empty ht hle =>
    refine ⟨fun x => ?_, by simp⟩
    rw [if_neg (by omega)]; simp
  | direct _ hlt hf hb hc ho => exact parallelFor_covers (by decide) ho
  | split olog hlt hf hb hc hl ho =>
    have hperm := parallelFor_permutation (by decide) ho
    have hids := (parallelFor_covers (by decide) ho).2
    constructor
    · intro x
      have hmap : (olog.flatMap (expand partitions)).map (·.2) =
          (olog.map (·.2)).flatMap (fun k => List.range' (partitions.getD k 0)
            (partitions.getD (k + 1) 0 - partitions.getD k 0)) := by
        rw [List.map_flatMap, List.flatMap_map]
        congr 1
        funext e
        simp [expand, List.map_map, Function.comp_def]
      rw [hmap, (hperm.flatMap_right _).count_eq, Nat.sub_zero,
        flatMap_segments partitions hp _ (by omega)]
      have h0 : partitions.getD 0 0 = start := by
        rw [List.head?_eq_getElem?] at hf
        simp [List.getD, hf]
      have h1 : partitions.getD (partitions.length - 1) 0 = stop := by
        rw [List.getLast?_eq_getElem?] at hb
        simp [List.getD, hb]
      rw [h0, h1]
      by_cases hx : start ≤ x ∧ x < stop
      · rw [if_pos hx, count_range' (by omega)]
      · rw [if_neg hx, List.count_eq_zero_of_not_mem (by rw [List.mem_range'_1]; omega)]
    · intro e he
      obtain ⟨o, ho', heo⟩ := List.mem_flatMap.1 he
      simp only [expand, List.mem_map] at heo
      obtain ⟨i, _, rfl⟩ := heo
      exact hids o ho'

/-- **C20 (cost overload).**  With non-decreasing non-negative cumulative costs, the load
balanced loop also visits every index exactly once. -/
theorem parallelForCosts_covers {cum : Nat → Int} {start stop threads : Nat}
    (hcum : ∀ i j, i ≤ j → j < stop → cum i ≤ cum j) (h0 : 0 ≤ cum 0)
    {log : List (Nat × Nat)} (h : CostOutcome cum start stop threads log) :
    CoversOnce start stop log ∧ ∀ e ∈ log, e.1 < threads := by
  cases h with
  | empty ht hle =>
    refine ⟨fun x => ?_, by simp⟩
    rw [if_neg (by omega)]; simp
  | direct _ hlt hc ho => exact parallelFor_covers (by decide) ho
  | split _ hlt ht hc ho =>
    have hopt := Partition.partitionRange_optimal cum start stop (threads * 4) hlt (by omega)
      (by
        intro i j hij hj
        unfold Partition.pre
        by_cases hi : i = 0
        · rw [if_pos hi]
          by_cases hj0 : j = 0
          · rw [if_pos hj0]
          · rw [if_neg hj0]
            exact Int.le_trans h0 (hcum 0 (j - 1) (by omega) (by omega))
        · rw [if_neg hi, if_neg (by omega)]
          exact hcum _ _ (by omega) (by omega))
    exact parallelForPartitions_covers
      (hopt.1.increasing.imp (fun h => Nat.le_of_lt h)) ho

example : ∃ log, PartOutcome 0 10 2 [0, 3, 4, 10] log ∧ log.length = 10 := by
  obtain ⟨s', h1, h2, _⟩ := parallelFor_returns
    (c := ⟨0, 3, 2, numWorkBlocks 0 3 2 1⟩) (by decide) Reachable.init
  have ho : Outcome 0 3 2 1 s'.log :=
    Outcome.parallel s' (by decide) (by decide) (by decide) h1 h2
  have hp : PartOutcome 0 10 2 [0, 3, 4, 10] _ :=
    PartOutcome.split s'.log (by decide) rfl rfl (by decide) (by decide) ho
  refine ⟨_, hp, ?_⟩
  have hc := (parallelForPartitions_covers (by decide) hp).1
  have : (List.map (·.2) (s'.log.flatMap (expand [0, 3, 4, 10]))).Perm (List.range' 0 10) := by
    rw [List.perm_iff_count]
    intro x
    rw [hc x]
    by_cases hx : 0 ≤ x ∧ x < 10
    · rw [if_pos hx, count_range' (by omega)]
    · rw [if_neg hx, List.count_eq_zero_of_not_mem (by rw [List.mem_range'_1]; omega)]
  simpa using this.length_eq

end Ceres.Parallel
