import Verif.Tasks.Weighted
import Verif.Tasks.Blocks

/-!
# `ParallelFor` with a given partition: executions and states
-/
namespace Ceres.Tasks

variable {L M K : Type} [DecidableEq L] [DecidableEq M] [AddCommMonoid K] {kind : L → Kind M}
  {task : ℕ → ℕ → Code L M K} {start stop threads : ℕ} {m fin : L → K} {inc : ℕ → L → K} {parts : List ℕ}

/-- Whatever the schedule, the loop over partitions returns with the result of the loop. -/
theorem partRun_result' (T : Disciplined kind task start stop threads m fin inc) (ht : 0 < threads)
    (hp : start < stop → parts.Pairwise (· < ·)) (hf : start < stop → parts.head? = some start)
    (hl : start < stop → parts.getLast? = some stop) {r : Option (L → K)}
    (h : PartRun task start stop threads parts m r) : ∃ m', r = some m' ∧ Result kind start stop m fin inc m' := by
  by_cases hlt : start < stop
  · exact partRun_result T ht (hp hlt) hf hl h
  · cases h with
    | badThreads h => omega
    | empty _ hle => exact forRun_result T ht (.empty ht hle)
    | badPartition _ h _ => exact absurd h hlt
    | direct _ h _ _ _ _ => exact absurd h hlt
    | tooShort h _ _ _ _ => exact absurd h hlt
    | split _ h _ _ _ _ _ => exact absurd h hlt

/-- A loop over partitions has an execution. -/
theorem partRun_exists (T : Disciplined kind task start stop threads m fin inc) (ht : 0 < threads)
    (hp : start < stop → parts.Pairwise (· < ·)) (hf : start < stop → parts.head? = some start)
    (hl : start < stop → parts.getLast? = some stop) : ∃ m', PartRun task start stop threads parts m (some m') := by
  by_cases hlt : start < stop
  · by_cases hd : threads = 1 ∨ stop - start ≤ threads
    · obtain ⟨m', h⟩ := forRun_exists T ht
      exact ⟨m', .direct _ hlt (hf hlt) (hl hlt) hd h⟩
    · obtain ⟨m', h⟩ := forRun_exists (part_disciplined T (hp hlt) (hf hlt) (hl hlt)) ht
      have hlen : 1 < parts.length := by
        by_contra hs
        have h0 := getD_first (hf hlt)
        have h1 := getD_last (hl hlt)
        have : parts.length - 1 = 0 := by omega
        rw [this] at h1
        omega
      exact ⟨m', .split _ hlt (hf hlt) (hl hlt) hd hlen h⟩
  · exact ⟨m, .empty ht (by omega)⟩

omit [AddCommMonoid K] in
/-- The states that a loop over partitions goes through on several threads (parallel_for.h:100-137). -/
inductive PartReach (task : ℕ → ℕ → Code L M K) (start stop threads : ℕ) (parts : List ℕ) (m : L → K)
    (s : St L M K) : Prop where
  | direct : stop - start ≤ threads → ForReach 1 task start stop threads m s →
      PartReach task start stop threads parts m s
  | split : start < stop → ¬ (threads = 1 ∨ stop - start ≤ threads) →
      ForReach 1 (partTask task parts) 0 (parts.length - 1) threads m s →
      PartReach task start stop threads parts m s

/-- No schedule of a loop over partitions has a data race. -/
theorem partReach_race_free (T : Disciplined kind task start stop threads m fin inc)
    (hp : start < stop → parts.Pairwise (· < ·)) (hf : start < stop → parts.head? = some start)
    (hl : start < stop → parts.getLast? = some stop) {s : St L M K}
    (h : PartReach task start stop threads parts m s) : ¬ Race s := by
  cases h with
  | direct _ h => exact forReach_race_free one_pos T h
  | split hlt _ h => exact forReach_race_free one_pos (part_disciplined T (hp hlt) (hf hlt) (hl hlt)) h

/-- No schedule of a loop over partitions accesses anything else. -/
theorem partReach_usable (T : Disciplined kind task start stop threads m fin inc)
    (hp : start < stop → parts.Pairwise (· < ·)) (hf : start < stop → parts.head? = some start)
    (hl : start < stop → parts.getLast? = some stop) {s : St L M K}
    (h : PartReach task start stop threads parts m s) {l : L} (hl' : Touches s l) : Usable kind start stop l := by
  cases h with
  | direct _ h => exact forReach_usable one_pos T h hl'
  | split hlt _ h =>
    have hF := hf hlt
    have hL := hl hlt
    have := forReach_usable one_pos (part_disciplined T (hp hlt) hF hL) h hl'
    cases hkl : kind l with
    | own i =>
      simp only [Usable, partKind, hkl] at this ⊢
      cases ho : partOf parts i with
      | none => rw [ho] at this; simp only at this; omega
      | some k =>
        obtain ⟨g1, g2, g3⟩ := partOf_some ho
        have h0 := getD_first hF
        have h1 := getD_last hL
        have h2 := getD_le (hp hlt) (i := 0) (j := k) (Nat.zero_le _) (by omega)
        have h4 := getD_le (hp hlt) (i := k + 1) (j := parts.length - 1) (by omega) (by omega)
        omega
    | _ => simp only [Usable, hkl]

end Ceres.Tasks
