import Verif.Tasks.Term
import Verif.Parallel.Weighted

/-!
# Loop bodies in the `ParallelFor` overloads with partitions and with cumulative costs
(parallel_for.h:100-137 and 154-183)
-/
namespace Ceres.Tasks

open Finset

variable {L M K : Type} [DecidableEq L] [DecidableEq M]

/-- One body after another. -/
def Code.andThen : Code L M K → Code L M K → Code L M K
  | .ret, k => k
  | .read l f, k => .read l fun v => (f v).andThen k
  | .write l v k', k => .write l v (k'.andThen k)
  | .lock x k', k => .lock x (k'.andThen k)
  | .unlock x k', k => .unlock x (k'.andThen k)

/-- `InvokeOnSegment` (parallel_invoke.h:75-121): the indices `lo, ..., lo + n - 1` one after the other. -/
def segment (task : ℕ → ℕ → Code L M K) (tid : ℕ) : ℕ → ℕ → Code L M K
  | _, 0 => .ret
  | lo, n + 1 => (task tid lo).andThen (segment task tid (lo + 1) n)

/-- The lambda of parallel_for.h:123-135, per partition index; the segment of several adjacent partition
indices is the concatenation of their segments, as the comment of lines 127-129 states. -/
def partTask (task : ℕ → ℕ → Code L M K) (partitions : List ℕ) (tid k : ℕ) : Code L M K :=
  segment task tid (partitions.getD k 0) (partitions.getD (k + 1) 0 - partitions.getD k 0)

/-- `ParallelFor` with a partition (parallel_for.h:100-137); `none`: does not return (a `CHECK` fails or the
threads wait forever). -/
inductive PartRun (task : ℕ → ℕ → Code L M K) (start stop threads : ℕ) (partitions : List ℕ) (m : L → K) :
    Option (L → K) → Prop where
  | badThreads : threads = 0 → PartRun task start stop threads partitions m none
  | empty : 0 < threads → stop ≤ start → PartRun task start stop threads partitions m (some m)
  | badPartition : 0 < threads → start < stop →
      (partitions.head? ≠ some start ∨ partitions.getLast? ≠ some stop) →
      PartRun task start stop threads partitions m none
  | direct (o : Option (L → K)) : start < stop → partitions.head? = some start →
      partitions.getLast? = some stop → (threads = 1 ∨ stop - start ≤ threads) →
      ForRun task start stop threads m o → PartRun task start stop threads partitions m o
  | tooShort : start < stop → partitions.head? = some start →
      partitions.getLast? = some stop → ¬ (threads = 1 ∨ stop - start ≤ threads) →
      ¬ 1 < partitions.length → PartRun task start stop threads partitions m none
  | split (o : Option (L → K)) : start < stop → partitions.head? = some start →
      partitions.getLast? = some stop → ¬ (threads = 1 ∨ stop - start ≤ threads) →
      1 < partitions.length → ForRun (partTask task partitions) 0 (partitions.length - 1) threads m o →
      PartRun task start stop threads partitions m o

/-- `ParallelFor` with cumulative costs (parallel_for.h:154-183). -/
inductive CostRun (cum : ℕ → ℤ) (task : ℕ → ℕ → Code L M K) (start stop threads : ℕ) (m : L → K) :
    Option (L → K) → Prop where
  | badThreads : threads = 0 → CostRun cum task start stop threads m none
  | empty : 0 < threads → stop ≤ start → CostRun cum task start stop threads m (some m)
  | direct (o : Option (L → K)) : start < stop → (threads = 1 ∨ stop - start ≤ threads) →
      ForRun task start stop threads m o → CostRun cum task start stop threads m o
  | tooShort : start < stop → 0 < threads → ¬ (threads = 1 ∨ stop - start ≤ threads) →
      ¬ 1 < (Partition.partitionRange cum start stop (threads * 4)).length →
      CostRun cum task start stop threads m none
  | split (o : Option (L → K)) : start < stop → 0 < threads → ¬ (threads = 1 ∨ stop - start ≤ threads) →
      1 < (Partition.partitionRange cum start stop (threads * 4)).length →
      PartRun task start stop threads (Partition.partitionRange cum start stop (threads * 4)) m o →
      CostRun cum task start stop threads m o

/-! ## The discipline for partitions -/

variable [AddCommMonoid K] {kind : L → Kind M} {task : ℕ → ℕ → Code L M K} {start stop threads : ℕ}
  {m fin : L → K} {inc : ℕ → L → K} {parts : List ℕ}

/-- The partition that holds an index. -/
def partOf (parts : List ℕ) (i : ℕ) : Option ℕ :=
  (List.range (parts.length - 1)).find? fun k => decide (parts.getD k 0 ≤ i ∧ i < parts.getD (k + 1) 0)

/-- The results of an index belong to its partition. -/
def partKind (parts : List ℕ) (kind : L → Kind M) (l : L) : Kind M :=
  match kind l with
  | .own i => match partOf parts i with
    | some k => .own k
    | none => .own parts.length
  | k => k

theorem getD_le {p : List ℕ} (hp : p.Pairwise (· < ·)) {i j : ℕ} (hij : i ≤ j) (hj : j < p.length) :
    p.getD i 0 ≤ p.getD j 0 := by
  rw [List.getD_eq_getElem?_getD, List.getD_eq_getElem?_getD, List.getElem?_eq_getElem hj,
    List.getElem?_eq_getElem (by omega : i < p.length), Option.getD_some, Option.getD_some]
  rcases Nat.eq_or_lt_of_le hij with h | h
  · subst h; exact Nat.le_refl _
  · exact Nat.le_of_lt (List.pairwise_iff_getElem.1 hp i j (by omega) hj h)

theorem partOf_eq (hp : parts.Pairwise (· < ·)) {k i : ℕ} (hk : k + 1 < parts.length)
    (h1 : parts.getD k 0 ≤ i) (h2 : i < parts.getD (k + 1) 0) : partOf parts i = some k := by
  unfold partOf
  cases hf : (List.range (parts.length - 1)).find?
      fun k => decide (parts.getD k 0 ≤ i ∧ i < parts.getD (k + 1) 0) with
  | none =>
    rw [List.find?_eq_none] at hf
    exact absurd (decide_eq_true ⟨h1, h2⟩) (hf k (by rw [List.mem_range]; omega))
  | some k' =>
    have h3 := List.find?_some hf
    have h4 := List.mem_of_find?_eq_some hf
    rw [List.mem_range] at h4
    simp only [decide_eq_true_eq] at h3
    rcases Nat.lt_trichotomy k k' with h | h | h
    · have := getD_le hp (i := k + 1) (j := k') h (by omega); omega
    · rw [h]
    · have := getD_le hp (i := k' + 1) (j := k) h (by omega); omega

theorem partOf_some {i k : ℕ} (h : partOf parts i = some k) :
    k + 1 < parts.length ∧ parts.getD k 0 ≤ i ∧ i < parts.getD (k + 1) 0 := by
  unfold partOf at h
  have h3 := List.find?_some h
  have h4 := List.mem_of_find?_eq_some h
  rw [List.mem_range] at h4
  simp only [decide_eq_true_eq] at h3
  exact ⟨by omega, h3⟩

theorem mine_part {tid i k : ℕ} {l : L} (hk : partOf parts i = some k) (h : Mine kind tid i l) :
    Mine (partKind parts kind) tid k l := by
  rcases h with h | h
  · exact Or.inl (by simp only [partKind, h])
  · exact Or.inr (by simp only [partKind, h, hk])

/-- A body keeps to the discipline for its partition. -/
theorem runs_part {free : Bool} {tid i k : ℕ} (hk : partOf parts i = some k) {h : Option M}
    {c : Code L M K} {p p' : L → K} {a : List (L × K)} (hr : Runs kind free tid i m h c p p' a) :
    Runs (partKind parts kind) free tid k m h c p p' a := by
  induction hr with
  | ret p => exact .ret p
  | readMine hm _ ih => exact .readMine (mine_part hk hm) ih
  | readFixed hm _ ih => exact .readFixed (by simp only [partKind, hm]) ih
  | write hm _ ih => exact .write (mine_part hk hm) ih
  | lock _ ih => exact .lock ih
  | unlock _ ih => exact .unlock ih
  | add hm hx hf _ ih => exact .add (by simp only [partKind, hm]) hx hf ih

theorem runs_andThen {free : Bool} {tid i : ℕ} {h : Option M} {c d : Code L M K} {p q r : L → K}
    {a b : List (L × K)} (hc : Runs kind free tid i m h c p q a) (hd : Runs kind free tid i m none d q r b) :
    Runs kind free tid i m h (c.andThen d) p r (a ++ b) := by
  induction hc with
  | ret p => exact hd
  | readMine hm _ ih => exact .readMine hm (ih hd)
  | readFixed hm _ ih => exact .readFixed hm (ih hd)
  | write hm _ ih => exact .write hm (ih hd)
  | lock _ ih => exact .lock (ih hd)
  | unlock _ ih => exact .unlock (ih hd)
  | @add h x l f v k p p' a hm hx hf _ ih =>
    refine .add (k := k.andThen d) hm hx ?_ (ih hd)
    intro y
    show (f y).andThen d = _
    rw [hf y]
    rfl

/-- Locations that are not the body's own keep their contents. -/
theorem runs_frame {free : Bool} {tid i : ℕ} {h : Option M} {c : Code L M K} {p q : L → K}
    {a : List (L × K)} (hc : Runs kind free tid i m h c p q a) {l : L} (hl : ¬ Mine kind tid i l) :
    q l = p l := by
  induction hc with
  | ret p => rfl
  | readMine _ _ ih => exact ih
  | readFixed _ _ ih => exact ih
  | write hm _ ih =>
    rw [ih]
    refine if_neg ?_
    rintro rfl
    exact hl hm
  | lock _ ih => exact ih
  | unlock _ ih => exact ih
  | add _ _ _ _ ih => exact ih

/-- The bodies of a segment. -/
theorem runs_segment (T : Disciplined kind task start stop threads m fin inc) (hp : parts.Pairwise (· < ·))
    {k : ℕ} (hk : k + 1 < parts.length) {tid : ℕ} (ht : tid < threads) (n lo : ℕ)
    (h1 : parts.getD k 0 ≤ lo) (h2 : lo + n ≤ parts.getD (k + 1) 0) (h3 : start ≤ lo) (h4 : lo + n ≤ stop)
    (p : L → K) (hm : ∀ l i, kind l = .own i → lo ≤ i → i < lo + n → p l = m l) : ∃ p' a,
      Runs (partKind parts kind) (decide (threads = 1)) tid k m none (segment task tid lo n) p p' a ∧
      (∀ l i, kind l = .own i → lo ≤ i → i < lo + n → p' l = fin l) ∧
      (∀ l i, kind l = .own i → ¬ (lo ≤ i ∧ i < lo + n) → p' l = p l) ∧
      ∀ l x, kind l = .guarded x → sumAt a l = ∑ i ∈ Ico lo (lo + n), inc i l := by
  induction n generalizing lo p with
  | zero => exact ⟨p, [], .ret p, fun l i _ _ _ => by omega, fun _ _ _ _ => rfl, fun l x _ => by simp [sumAt]⟩
  | succ n ih =>
    obtain ⟨q, a, r1, r2, r3⟩ := T.body lo tid h3 (by omega) ht p fun l hl => hm l lo hl le_rfl (by omega)
    have hframe : ∀ l i, kind l = .own i → i ≠ lo → q l = p l := by
      intro l i hl hne
      refine runs_frame r1 ?_
      rintro (h | h)
      · rw [hl] at h; exact nomatch h
      · rw [hl] at h; injection h with h; exact hne h
    obtain ⟨q', b, s1, s2, s3, s4⟩ := ih (lo + 1) (by omega) (by omega) (by omega) (by omega) q fun l i hl g1 g2 => by
      rw [hframe l i hl (by omega)]
      exact hm l i hl (by omega) (by omega)
    refine ⟨q', a ++ b, runs_andThen (runs_part (partOf_eq hp hk h1 (by omega)) r1) s1, ?_, ?_, ?_⟩
    · intro l i hl g1 g2
      by_cases hi : i = lo
      · rw [s3 l i hl (by omega)]
        exact r2 l (hi ▸ hl)
      · exact s2 l i hl (by omega) (by omega)
    · intro l i hl g
      rw [s3 l i hl (by omega), hframe l i hl (by omega)]
    · intro l x hl
      rw [sumAt_append, r3 l x hl, s4 l x hl, Finset.sum_eq_sum_Ico_succ_bot (by omega : lo < lo + (n + 1)),
        show lo + (n + 1) = lo + 1 + n by omega]

/-- What a partition adds. -/
def partInc (parts : List ℕ) (inc : ℕ → L → K) (k : ℕ) (l : L) : K :=
  ∑ i ∈ Ico (parts.getD k 0) (parts.getD (k + 1) 0), inc i l

theorem getD_first (h : parts.head? = some start) : parts.getD 0 0 = start := by
  rw [List.head?_eq_getElem?] at h
  simp [List.getD, h]

theorem getD_last (h : parts.getLast? = some stop) : parts.getD (parts.length - 1) 0 = stop := by
  rw [List.getLast?_eq_getElem?] at h
  simp [List.getD, h]

/-- The loop over the partitions keeps to the discipline. -/
theorem part_disciplined (T : Disciplined kind task start stop threads m fin inc)
    (hp : parts.Pairwise (· < ·)) (hf : parts.head? = some start) (hl : parts.getLast? = some stop) :
    Disciplined (partKind parts kind) (partTask task parts) 0 (parts.length - 1) threads m fin
      (partInc parts inc) := by
  refine ⟨fun k tid _ hk ht p hm => ?_⟩
  have h0 := getD_first hf
  have h1 := getD_last hl
  have h2 := getD_le hp (i := 0) (j := k) (Nat.zero_le _) (by omega)
  have h3 := getD_le hp (i := k) (j := k + 1) (by omega) (by omega)
  have h4 := getD_le hp (i := k + 1) (j := parts.length - 1) (by omega) (by omega)
  obtain ⟨p', a, r1, r2, r3, r4⟩ := runs_segment T hp (k := k) (by omega) ht
    (parts.getD (k + 1) 0 - parts.getD k 0) (parts.getD k 0) le_rfl (by omega) (by omega) (by omega) p
    fun l i hl g1 g2 => hm l (by
      simp only [partKind, hl, partOf_eq hp (k := k) (by omega) g1 (by omega)])
  refine ⟨p', a, r1, fun l hl => ?_, fun l x hl => ?_⟩
  · cases hkl : kind l with
    | own i =>
      simp only [partKind, hkl] at hl
      cases ho : partOf parts i with
      | none => rw [ho] at hl; injection hl with hl; omega
      | some k' =>
        rw [ho] at hl
        injection hl with hl
        subst hl
        obtain ⟨-, g1, g2⟩ := partOf_some ho
        exact r2 l i hkl g1 (by omega)
    | _ => simp only [partKind, hkl] at hl; exact nomatch hl
  · cases hkl : kind l with
    | own i =>
      simp only [partKind, hkl] at hl
      cases ho : partOf parts i with
      | none => rw [ho] at hl; exact nomatch hl
      | some k' => rw [ho] at hl; exact nomatch hl
    | guarded x =>
      rw [r4 l x hkl]
      unfold partInc
      congr 2
      omega
    | _ => simp only [partKind, hkl] at hl; exact nomatch hl

theorem sum_parts (f : ℕ → K) (hp : parts.Pairwise (· < ·)) (n : ℕ) (hn : n < parts.length) :
    ∑ k ∈ Ico 0 n, ∑ i ∈ Ico (parts.getD k 0) (parts.getD (k + 1) 0), f i =
      ∑ i ∈ Ico (parts.getD 0 0) (parts.getD n 0), f i := by
  induction n with
  | zero => simp
  | succ n ih =>
    rw [Finset.sum_Ico_succ_top (Nat.zero_le _), ih (by omega)]
    exact Finset.sum_Ico_consecutive _ (getD_le hp (Nat.zero_le _) (by omega)) (getD_le hp (by omega) hn)

/-- Whatever the schedule, the loop over partitions returns with the result of the loop. -/
theorem partRun_result (T : Disciplined kind task start stop threads m fin inc) (ht : 0 < threads)
    (hp : parts.Pairwise (· < ·)) (hf : start < stop → parts.head? = some start)
    (hl : start < stop → parts.getLast? = some stop) {r : Option (L → K)}
    (h : PartRun task start stop threads parts m r) :
    ∃ m', r = some m' ∧ Result kind start stop m fin inc m' := by
  cases h with
  | badThreads h => omega
  | empty _ hle => exact forRun_result T ht (.empty ht hle)
  | badPartition _ hlt hb => exact absurd (hb.resolve_left fun h => h (hf hlt)) fun h => h (hl hlt)
  | direct _ _ _ _ _ h => exact forRun_result T ht h
  | tooShort hlt hf hl _ hs =>
    exfalso
    have h0 := getD_first hf
    have h1 := getD_last hl
    have : parts.length - 1 = 0 := by omega
    rw [this] at h1
    omega
  | split _ hlt hf hl _ hlen h =>
    obtain ⟨m', h1, h2⟩ := forRun_result (part_disciplined T hp hf hl) ht h
    refine ⟨m', h1, ?_, ?_, ?_⟩
    · intro l hk
      exact h2.fixed l (by simp only [partKind, hk])
    · intro l i hk
      by_cases hi : start ≤ i ∧ i < stop
      · rw [if_pos hi]
        have h0 := getD_first hf
        have h1 := getD_last hl
        have hex : ∃ k, k + 1 < parts.length ∧ parts.getD k 0 ≤ i ∧ i < parts.getD (k + 1) 0 := by
          by_contra hn
          push Not at hn
          have : ∀ k, k < parts.length → parts.getD k 0 ≤ i := by
            intro k
            induction k with
            | zero => intro _; omega
            | succ k ih => exact fun hk => hn k hk (ih (by omega))
          have := this (parts.length - 1) (by omega)
          omega
        obtain ⟨k, k1, k2, k3⟩ := hex
        rw [h2.own l k (by simp only [partKind, hk, partOf_eq hp k1 k2 k3]), if_pos ⟨Nat.zero_le _, by omega⟩]
      · rw [if_neg hi]
        have hown := h2.own l
        simp only [partKind, hk] at hown
        cases ho : partOf parts i with
        | none =>
          rw [ho] at hown
          exact (hown _ rfl).trans (if_neg (by omega))
        | some k =>
          exfalso
          obtain ⟨g1, g2, g3⟩ := partOf_some ho
          have h0 := getD_first hf
          have h1 := getD_last hl
          have h2 := getD_le hp (i := 0) (j := k) (Nat.zero_le _) (by omega)
          have h4 := getD_le hp (i := k + 1) (j := parts.length - 1) (by omega) (by omega)
          omega
    · intro l x hk
      rw [h2.sum l x (by simp only [partKind, hk])]
      congr 1
      have := sum_parts (parts := parts) (fun i => inc i l) hp (parts.length - 1) (by omega)
      rw [getD_first hf, getD_last hl] at this
      exact this

/-- Non-decreasing costs. -/
def CostsOk (cum : ℕ → ℤ) (stop : ℕ) : Prop := 0 ≤ cum 0 ∧ ∀ i j, i ≤ j → j < stop → cum i ≤ cum j

theorem costs_partition {cum : ℕ → ℤ} (hc : CostsOk cum stop) (hlt : start < stop) (ht : 0 < threads) :
    Partition.IsPartition start stop (threads * 4)
      (Partition.partitionRange cum start stop (threads * 4)) := by
  refine (Partition.partitionRange_optimal cum start stop (threads * 4) hlt (by omega) ?_).1
  intro i j hij hj
  unfold Partition.pre
  by_cases hi : i = 0
  · rw [if_pos hi]
    by_cases hj0 : j = 0
    · rw [if_pos hj0]
    · rw [if_neg hj0]
      exact Int.le_trans hc.1 (hc.2 0 (j - 1) (by omega) (by omega))
  · rw [if_neg hi, if_neg (by omega)]
    exact hc.2 _ _ (by omega) (by omega)

/-- Whatever the schedule, the load balanced loop returns with the result of the loop. -/
theorem costRun_result {cum : ℕ → ℤ} (T : Disciplined kind task start stop threads m fin inc)
    (ht : 0 < threads) (hc : CostsOk cum stop) {r : Option (L → K)}
    (h : CostRun cum task start stop threads m r) :
    ∃ m', r = some m' ∧ Result kind start stop m fin inc m' := by
  cases h with
  | badThreads h => omega
  | empty _ hle => exact forRun_result T ht (.empty ht hle)
  | direct _ _ _ h => exact forRun_result T ht h
  | tooShort hlt _ _ hs =>
    exfalso
    have hP := costs_partition hc hlt ht
    have h0 := getD_first hP.first
    have h1 := getD_last hP.last
    have : (Partition.partitionRange cum start stop (threads * 4)).length - 1 = 0 := by omega
    rw [this] at h1
    omega
  | split _ hlt _ _ _ h =>
    have hP := costs_partition hc hlt ht
    exact partRun_result T ht hP.increasing (fun _ => hP.first) (fun _ => hP.last) h

/-- The load balanced loop has an execution. -/
theorem costRun_exists {cum : ℕ → ℤ} (T : Disciplined kind task start stop threads m fin inc)
    (ht : 0 < threads) (hc : CostsOk cum stop) : ∃ m', CostRun cum task start stop threads m (some m') := by
  by_cases hlt : start < stop
  · by_cases hd : threads = 1 ∨ stop - start ≤ threads
    · obtain ⟨m', h⟩ := forRun_exists T ht
      exact ⟨m', .direct _ hlt hd h⟩
    · have hP := costs_partition hc hlt ht
      obtain ⟨m', h⟩ := forRun_exists (part_disciplined T hP.increasing hP.first hP.last) ht
      have hl : 1 < (Partition.partitionRange cum start stop (threads * 4)).length := by
        by_contra hs
        have h0 := getD_first hP.first
        have h1 := getD_last hP.last
        have : (Partition.partitionRange cum start stop (threads * 4)).length - 1 = 0 := by omega
        rw [this] at h1
        omega
      exact ⟨m', .split _ hlt ht hd hl (.split _ hlt hP.first hP.last hd hl h)⟩
  · exact ⟨m, .empty ht (by omega)⟩

/-! ## The states of a load balanced loop -/

/-- The states that `ParallelFor` goes through when it runs on several threads. -/
def ForReach (minBlock : ℕ) (task : ℕ → ℕ → Code L M K) (start stop threads : ℕ) (m : L → K)
    (s : St L M K) : Prop :=
  0 < threads ∧ start < stop ∧ ¬ (threads = 1 ∨ stop - start < minBlock * 2) ∧
    Reach ⟨start, stop, threads, Parallel.numWorkBlocks start stop threads minBlock⟩ task m s

/-- The states that a load balanced loop goes through (parallel_for.h:100-179). -/
inductive CostReach (cum : ℕ → ℤ) (task : ℕ → ℕ → Code L M K) (start stop threads : ℕ) (m : L → K)
    (s : St L M K) : Prop where
  | direct : stop - start ≤ threads → ForReach 1 task start stop threads m s →
      CostReach cum task start stop threads m s
  | split : start < stop → ¬ (threads = 1 ∨ stop - start ≤ threads) →
      ForReach 1 (partTask task (Partition.partitionRange cum start stop (threads * 4))) 0
        ((Partition.partitionRange cum start stop (threads * 4)).length - 1) threads m s →
      CostReach cum task start stop threads m s

theorem forReach_race_free {minBlock : ℕ} (hb : 0 < minBlock)
    (T : Disciplined kind task start stop threads m fin inc) {s : St L M K}
    (h : ForReach minBlock task start stop threads m s) : ¬ Race s := by
  obtain ⟨ht, hlt, hn, hr⟩ := h
  exact race_free (c := ⟨start, stop, threads, _⟩) T (by show 1 < threads; omega)
    (Parallel.numWorkBlocks_pos ht hb (by omega)) (Nat.le_of_lt hlt) hr

/-- No schedule of a load balanced loop has a data race. -/
theorem costReach_race_free {cum : ℕ → ℤ} (T : Disciplined kind task start stop threads m fin inc)
    (hc : CostsOk cum stop) {s : St L M K} (h : CostReach cum task start stop threads m s) : ¬ Race s := by
  cases h with
  | direct _ h => exact forReach_race_free one_pos T h
  | split hlt _ h =>
    have hP := costs_partition hc hlt h.1
    exact forReach_race_free one_pos (part_disciplined T hP.increasing hP.first hP.last) h

/-- A worker is about to access `l`. -/
def Touches (s : St L M K) (l : L) : Prop := ∃ w, Reads s w l ∨ Writes s w l

/-- A location a disciplined loop may access. -/
def Usable (kind : L → Kind M) (start stop : ℕ) (l : L) : Prop :=
  match kind l with
  | .own i => start ≤ i ∧ i < stop
  | _ => True

theorem forReach_usable {minBlock : ℕ} (hb : 0 < minBlock)
    (T : Disciplined kind task start stop threads m fin inc) {s : St L M K}
    (h : ForReach minBlock task start stop threads m s) {l : L} (hl : Touches s l) :
    Usable kind start stop l := by
  obtain ⟨ht, hlt, hn, hr⟩ := h
  have key : ∀ tid i, start ≤ i → i < stop → Mine kind tid i l → Usable kind start stop l := by
    intro tid i h1 h2 h3
    rcases h3 with h3 | h3
    · simp only [Usable, h3]
    · simp only [Usable, h3]; exact ⟨h1, h2⟩
  obtain ⟨w, h⟩ := hl
  have hcall : ∃ tid jobs i e, Calling s.par w tid jobs i e := h.elim (fun h => h.1) fun h => h.1
  obtain ⟨tid, jobs, i, e, hc⟩ := hcall
  obtain ⟨a1, a2⟩ := access_allowed (c := ⟨start, stop, threads, _⟩) T (by show 1 < threads; omega)
    (Parallel.numWorkBlocks_pos ht hb (by omega)) (Nat.le_of_lt hlt) hr hc
  obtain ⟨f1, f2, -⟩ := calling_facts (c := ⟨start, stop, threads, _⟩) ht
    (Parallel.numWorkBlocks_pos ht hb (by omega)) (Nat.le_of_lt hlt) (reach_par hr) hc
  rcases h with ⟨-, f, hf⟩ | ⟨-, v, k, hk⟩
  · rcases a1 l f hf with h | h | ⟨x, h, -⟩
    · exact key tid i f1 f2 h
    · simp only [Usable, h]
    · simp only [Usable, h]
  · rcases a2 l v k hk with h | ⟨x, h, -⟩
    · exact key tid i f1 f2 h
    · simp only [Usable, h]

/-- No schedule of a load balanced loop accesses anything else. -/
theorem costReach_usable {cum : ℕ → ℤ} (T : Disciplined kind task start stop threads m fin inc)
    (hc : CostsOk cum stop) {s : St L M K} (h : CostReach cum task start stop threads m s) {l : L}
    (hl : Touches s l) : Usable kind start stop l := by
  cases h with
  | direct _ h => exact forReach_usable one_pos T h hl
  | split hlt _ h =>
    have hP := costs_partition hc hlt h.1
    have := forReach_usable one_pos (part_disciplined T hP.increasing hP.first hP.last) h hl
    cases hkl : kind l with
    | own i =>
      simp only [Usable, partKind, hkl] at this ⊢
      cases ho : partOf (Partition.partitionRange cum start stop (threads * 4)) i with
      | none => rw [ho] at this; simp only at this; omega
      | some k =>
        obtain ⟨g1, g2, g3⟩ := partOf_some ho
        have h0 := getD_first hP.first
        have h1 := getD_last hP.last
        have h2 := getD_le hP.increasing (i := 0) (j := k) (Nat.zero_le _) (by omega)
        have h4 := getD_le hP.increasing (i := k + 1)
          (j := (Partition.partitionRange cum start stop (threads * 4)).length - 1) (by omega) (by omega)
        omega
    | _ => simp only [Usable, hkl]

end Ceres.Tasks
