import Verif.Sparse.Spec
import Mathlib.Algebra.Field.Defs
import Mathlib.Algebra.Order.Ring.Rat
import Mathlib.Tactic.LinearCombination
import Mathlib.Tactic.FieldSimp

/-!
# Triangular solves with compressed column matrices (C35)

A compressed column matrix is a compressed row structure read the other way round: `M.rows` are the
column pointers `cols` of the code and `M.cols` its `rows`.
-/
namespace Ceres.Sparse

variable {K : Type}

/-! ### The model -/

/-- The values of `idx` in `for (idx = cols[c]; idx < cols[c + 1] - 1; ++idx)`. -/
def Mat.offDiag (M : Mat K) (c : ℕ) : List ℕ :=
  List.range' (M.rows c) (M.rows (c + 1) - 1 - M.rows c)

/-- `values[cols[c + 1] - 1]`. -/
def Mat.lastVal (M : Mat K) (c : ℕ) : K := M.values (M.rows (c + 1) - 1)

/-- `SolveUpperTriangularInPlace` (compressed_col_sparse_matrix_utils.h:74-88). -/
def solveUpper [Field K] (n : ℕ) (M : Mat K) (b : ℕ → K) : ℕ → K :=
  (List.range n).reverse.foldl (fun x c =>
    (M.offDiag c).foldl (fun x idx => Function.update x (M.cols idx)
      (x (M.cols idx) - M.values idx * x c)) (Function.update x c (x c / M.lastVal c))) b

/-- Body of the forward substitution loop (compressed_col_sparse_matrix_utils.h:102-107, 132-138), restricted
to the indices that are not skipped. -/
def forwardStep [Field K] (M : Mat K) (keep : ℕ → Bool) (x : ℕ → K) (c : ℕ) : ℕ → K :=
  let x := ((M.offDiag c).filter fun idx => keep (M.cols idx)).foldl (fun x idx =>
    Function.update x c (x c - M.values idx * x (M.cols idx))) x
  Function.update x c (x c / M.lastVal c)

/-- `SolveUpperTriangularTransposeInPlace` (compressed_col_sparse_matrix_utils.h:95-109). -/
def solveUpperTranspose [Field K] (n : ℕ) (M : Mat K) (b : ℕ → K) : ℕ → K :=
  (List.range n).foldl (forwardStep M fun _ => true) b

/-- The forward part of `SolveRTRWithSparseRHS` (compressed_col_sparse_matrix_utils.h:128-139). -/
def sparseForward [Field K] (n : ℕ) (M : Mat K) (k : ℕ) : ℕ → K :=
  (List.range' (k + 1) (n - (k + 1))).foldl (forwardStep M fun r => decide (k ≤ r))
    (Function.update (fun _ => 0) k (1 / M.lastVal k))

/-- `SolveRTRWithSparseRHS` (compressed_col_sparse_matrix_utils.h:121-142). -/
def solveRTR [Field K] (n : ℕ) (M : Mat K) (k : ℕ) : ℕ → K := solveUpper n M (sparseForward n M k)

/-! ### The specification -/

/-- Entry `r, c` of a compressed column matrix. -/
def Mat.cEntry [AddMonoid K] (M : Mat K) (r c : ℕ) : K := M.entry c r

/-- Upper triangular with the diagonal entry stored last in its column and not zero. -/
structure Upper [Zero K] (n : ℕ) (M : Mat K) : Prop where
  nonempty : ∀ c < n, M.rows c < M.rows (c + 1)
  last : ∀ c < n, M.cols (M.rows (c + 1) - 1) = c
  above : ∀ c < n, ∀ idx ∈ M.offDiag c, M.cols idx < c
  pivot : ∀ c < n, M.lastVal c ≠ 0

/-! ### Proofs -/

theorem Upper.idxs [Zero K] {n : ℕ} {M : Mat K} (h : Upper n M) {c : ℕ} (hc : c < n) :
    M.idxs c = M.offDiag c ++ [M.rows (c + 1) - 1] := by
  have := h.nonempty c hc
  unfold Mat.idxs Mat.offDiag
  have e : M.rows (c + 1) - M.rows c = (M.rows (c + 1) - 1 - M.rows c) + 1 := by omega
  rw [e, List.range'_1_concat]
  congr 2
  omega

variable [Field K]

theorem Upper.entry_above {n : ℕ} {M : Mat K} (h : Upper n M) {r c : ℕ} (hc : c < n) (hr : r ≠ c) :
    M.cEntry r c = ((M.offDiag c).map fun i => if M.cols i = r then M.values i else 0).sum := by
  unfold Mat.cEntry Mat.entry colSum Mat.row
  rw [h.idxs hc, List.map_map, List.map_append, List.sum_append]
  simp [Function.comp_def, h.last c hc, Ne.symm hr]

theorem Upper.entry_diag {n : ℕ} {M : Mat K} (h : Upper n M) {c : ℕ} (hc : c < n) :
    M.cEntry c c = M.lastVal c := by
  unfold Mat.cEntry Mat.entry colSum Mat.row
  rw [h.idxs hc, List.map_map, List.map_append, List.sum_append]
  have hz : ((M.offDiag c).map ((fun e : ℕ × K => if e.1 = c then e.2 else 0) ∘
      fun i => (M.cols i, M.values i))).sum = 0 := by
    refine List.sum_eq_zero fun v hv => ?_
    obtain ⟨i, hi, rfl⟩ := List.mem_map.mp hv
    have := h.above c hc i hi
    simp only [Function.comp_def]
    rw [if_neg (by omega)]
  rw [hz]
  simp [h.last c hc, Mat.lastVal]

theorem Upper.entry_below {n : ℕ} {M : Mat K} (h : Upper n M) {r c : ℕ} (hc : c < n) (hr : c < r) :
    M.cEntry r c = 0 := by
  rw [h.entry_above hc (by omega)]
  refine List.sum_eq_zero fun v hv => ?_
  obtain ⟨i, hi, rfl⟩ := List.mem_map.mp hv
  have := h.above c hc i hi
  rw [if_neg (by omega)]

theorem foldl_sub_col (p : ℕ → ℕ) (v : ℕ → K) (c : ℕ) (l : List ℕ) (hl : ∀ i ∈ l, p i ≠ c)
    (x : ℕ → K) (k : ℕ) :
    l.foldl (fun x i => Function.update x (p i) (x (p i) - v i * x c)) x k
      = x k - (l.map fun i => if p i = k then v i else 0).sum * x c := by
  induction l generalizing x with
  | nil => simp
  | cons a l ih =>
    have hac := hl a (List.mem_cons_self ..)
    rw [List.foldl_cons, ih fun i hi => hl i (List.mem_cons_of_mem _ hi), List.map_cons,
      List.sum_cons, Function.update_of_ne (Ne.symm hac)]
    by_cases h : p a = k
    · subst h
      rw [Function.update_self, if_pos rfl]; ring
    · rw [Function.update_of_ne (Ne.symm h), if_neg h]; ring

theorem foldl_sub_row (p : ℕ → ℕ) (v : ℕ → K) (c : ℕ) (l : List ℕ) (hl : ∀ i ∈ l, p i ≠ c)
    (x : ℕ → K) (k : ℕ) :
    l.foldl (fun x i => Function.update x c (x c - v i * x (p i))) x k
      = if k = c then x c - (l.map fun i => v i * x (p i)).sum else x k := by
  induction l generalizing x with
  | nil =>
    by_cases h : k = c
    · subst h; simp
    · simp [h]
  | cons a l ih =>
    rw [List.foldl_cons, ih fun i hi => hl i (List.mem_cons_of_mem _ hi), List.map_cons,
      List.sum_cons]
    by_cases h : k = c
    · rw [if_pos h, if_pos h, Function.update_self]
      have : (l.map fun i => v i * Function.update x c (x c - v a * x (p a)) (p i))
          = l.map fun i => v i * x (p i) := by
        refine List.map_congr_left fun i hi => ?_
        rw [Function.update_of_ne (hl i (List.mem_cons_of_mem _ hi))]
      rw [this]; ring
    · rw [if_neg h, if_neg h, Function.update_of_ne h]

/-- Sums over a column of stored entries above the diagonal. -/
theorem Upper.sum_offDiag {n : ℕ} {M : Mat K} (h : Upper n M) {c : ℕ} (hc : c < n) (w : ℕ → K) :
    ((M.offDiag c).map fun i => M.values i * w (M.cols i)).sum
      = ∑ r ∈ Finset.range c, M.cEntry r c * w r := by
  have key : ∀ l : List ℕ, (∀ i ∈ l, M.cols i < c) →
      (l.map fun i => M.values i * w (M.cols i)).sum
        = ∑ r ∈ Finset.range c, (l.map fun i => if M.cols i = r then M.values i else 0).sum * w r := by
    intro l
    induction l with
    | nil => intro _; simp
    | cons a l ih =>
      intro hl
      simp only [List.map_cons, List.sum_cons, add_mul, Finset.sum_add_distrib]
      rw [ih fun i hi => hl i (List.mem_cons_of_mem _ hi)]
      congr 1
      rw [Finset.sum_eq_single (M.cols a)]
      · simp
      · intro b _ hb; rw [if_neg (Ne.symm hb), zero_mul]
      · intro hn
        exact absurd (Finset.mem_range.mpr (hl a (List.mem_cons_self ..))) hn
  rw [key _ (h.above c hc)]
  refine Finset.sum_congr rfl fun r hr => ?_
  rw [h.entry_above hc (by have := Finset.mem_range.mp hr; omega)]

/-- **C35.** Back substitution solves `R x = b`. -/
theorem solveUpper_spec {n : ℕ} {M : Mat K} (h : Upper n M) (b : ℕ → K) {r : ℕ} (hr : r < n) :
    ∑ c ∈ Finset.range n, M.cEntry r c * solveUpper n M b c = b r := by
  -- m columns remain
  have inv : ∀ m ≤ n, ∀ x : ℕ → K,
      let z := (List.range m).reverse.foldl (fun x c =>
        (M.offDiag c).foldl (fun x idx => Function.update x (M.cols idx)
          (x (M.cols idx) - M.values idx * x c)) (Function.update x c (x c / M.lastVal c))) x
      (∀ r, m ≤ r → z r = x r) ∧ ∀ r < m, ∑ c ∈ Finset.range m, M.cEntry r c * z c = x r := by
    intro m
    induction m with
    | zero =>
      intro _ x
      exact ⟨fun r _ => rfl, fun r hr => absurd hr (Nat.not_lt_zero _)⟩
    | succ m ih =>
      intro hm x
      rw [List.range_succ, List.reverse_append, List.reverse_singleton, List.singleton_append,
        List.foldl_cons]
      set x' := (M.offDiag m).foldl (fun x idx => Function.update x (M.cols idx)
          (x (M.cols idx) - M.values idx * x m)) (Function.update x m (x m / M.lastVal m)) with hx'
      have hne : ∀ i ∈ M.offDiag m, M.cols i ≠ m := by
        intro i hi; have := h.above m (by omega) i hi; omega
      have hxv : ∀ k, k ≠ m → x' k = x k - M.cEntry k m * (x m / M.lastVal m) := by
        intro k hk
        rw [hx', foldl_sub_col M.cols M.values m _ hne, Function.update_of_ne hk,
          Function.update_self, h.entry_above (by omega) hk]
      have hxm : x' m = x m / M.lastVal m := by
        rw [hx', foldl_sub_col M.cols M.values m _ hne, Function.update_self]
        have : ((M.offDiag m).map fun i => if M.cols i = m then M.values i else 0).sum = 0 := by
          refine List.sum_eq_zero fun v hv => ?_
          obtain ⟨i, hi, rfl⟩ := List.mem_map.mp hv
          rw [if_neg (hne i hi)]
        rw [this]; ring
      obtain ⟨i1, i2⟩ := ih (by omega) x'
      refine ⟨?_, ?_⟩
      · intro k hk
        rw [i1 k (by omega), hxv k (by omega), h.entry_below (by omega) (by omega)]; ring
      · intro k hk
        rw [Finset.sum_range_succ, i1 m le_rfl, hxm]
        by_cases hkm : k = m
        · subst hkm
          have hz : ∀ z : ℕ → K, ∑ c ∈ Finset.range k, M.cEntry k c * z c = 0 := by
            intro z
            refine Finset.sum_eq_zero fun c hc => ?_
            have := Finset.mem_range.mp hc
            rw [h.entry_below (by omega) this, zero_mul]
          rw [hz, h.entry_diag (by omega), zero_add, mul_div_cancel₀ _ (h.pivot k (by omega))]
        · rw [i2 k (by omega), hxv k hkm]; ring
  exact (inv n le_rfl b).2 r hr

/-- One step of forward substitution. -/
theorem forwardStep_spec {n : ℕ} {M : Mat K} (h : Upper n M) {c : ℕ} (hc : c < n) (keep : ℕ → Bool)
    (x : ℕ → K) (hskip : ∀ r < c, keep r = false → x r = 0) :
    (∀ k, k ≠ c → forwardStep M keep x c k = x k) ∧
    ∑ r ∈ Finset.range n, M.cEntry r c * forwardStep M keep x c r = x c := by
  have hne : ∀ i ∈ (M.offDiag c).filter fun idx => keep (M.cols idx), M.cols i ≠ c := by
    intro i hi
    have := h.above c hc i (List.mem_filter.mp hi).1
    omega
  have hk : ∀ k, k ≠ c → forwardStep M keep x c k = x k := by
    intro k hk
    unfold forwardStep
    rw [Function.update_of_ne hk, foldl_sub_row M.cols M.values c _ hne, if_neg hk]
  have hsum : (((M.offDiag c).filter fun idx => keep (M.cols idx)).map
      fun i => M.values i * x (M.cols i)).sum = ∑ r ∈ Finset.range c, M.cEntry r c * x r := by
    rw [← h.sum_offDiag hc]
    have : ∀ l : List ℕ, (∀ i ∈ l, M.cols i < c) → ((l.filter fun idx => keep (M.cols idx)).map
        fun i => M.values i * x (M.cols i)).sum = (l.map fun i => M.values i * x (M.cols i)).sum := by
      intro l
      induction l with
      | nil => intro _; rfl
      | cons a l ih =>
        intro hl
        have ih' := ih fun i hi => hl i (List.mem_cons_of_mem _ hi)
        by_cases hka : keep (M.cols a)
        · rw [List.filter_cons_of_pos (by simpa using hka), List.map_cons, List.map_cons, List.sum_cons,
            List.sum_cons, ih']
        · rw [List.filter_cons_of_neg (by simpa using hka), ih', List.map_cons, List.sum_cons,
            hskip _ (hl a (List.mem_cons_self ..)) (by simpa using hka), mul_zero, zero_add]
    exact this _ (h.above c hc)
  have hcv : forwardStep M keep x c c
      = (x c - ∑ r ∈ Finset.range c, M.cEntry r c * x r) / M.lastVal c := by
    unfold forwardStep
    rw [Function.update_self, foldl_sub_row M.cols M.values c _ hne, if_pos rfl, hsum]
  refine ⟨hk, ?_⟩
  have hsplit : ∑ r ∈ Finset.range n, M.cEntry r c * forwardStep M keep x c r
      = ∑ r ∈ Finset.range (c + 1), M.cEntry r c * forwardStep M keep x c r := by
    symm
    refine Finset.sum_subset (fun r hr => Finset.mem_range.mpr (by
      have := Finset.mem_range.mp hr; omega)) ?_
    intro r hr hn
    have : c < r := by
      by_contra hlt
      exact hn (Finset.mem_range.mpr (by omega))
    rw [h.entry_below hc this, zero_mul]
  rw [hsplit, Finset.sum_range_succ, hcv, h.entry_diag hc, mul_div_cancel₀ _ (h.pivot c hc)]
  have : ∑ r ∈ Finset.range c, M.cEntry r c * forwardStep M keep x c r
      = ∑ r ∈ Finset.range c, M.cEntry r c * x r := by
    refine Finset.sum_congr rfl fun r hr => ?_
    rw [hk r (by have := Finset.mem_range.mp hr; omega)]
  rw [this]; ring

/-- Later changes do not disturb an equation. -/
theorem Upper.sum_congr_le {n : ℕ} {M : Mat K} (h : Upper n M) {c : ℕ} (hc : c < n) {x y : ℕ → K}
    (hxy : ∀ r ≤ c, x r = y r) :
    ∑ r ∈ Finset.range n, M.cEntry r c * x r = ∑ r ∈ Finset.range n, M.cEntry r c * y r := by
  refine Finset.sum_congr rfl fun r _ => ?_
  by_cases hr : r ≤ c
  · rw [hxy r hr]
  · rw [h.entry_below hc (by omega)]; ring

/-- **C35.** Forward substitution solves `Rᵀ x = b`. -/
theorem solveUpperTranspose_spec {n : ℕ} {M : Mat K} (h : Upper n M) (b : ℕ → K) {c : ℕ}
    (hc : c < n) :
    ∑ r ∈ Finset.range n, M.cEntry r c * solveUpperTranspose n M b r = b c := by
  have inv : ∀ m ≤ n, let z := (List.range m).foldl (forwardStep M fun _ => true) b
      (∀ k, m ≤ k → z k = b k) ∧ ∀ c < m, ∑ r ∈ Finset.range n, M.cEntry r c * z r = b c := by
    intro m
    induction m with
    | zero =>
      intro _
      exact ⟨fun k _ => rfl, fun c hc => absurd hc (Nat.not_lt_zero _)⟩
    | succ m ih =>
      intro hm
      obtain ⟨i1, i2⟩ := ih (by omega)
      rw [List.range_succ, List.foldl_append, List.foldl_cons, List.foldl_nil]
      set z := (List.range m).foldl (forwardStep M fun _ => true) b with hz
      obtain ⟨s1, s2⟩ := forwardStep_spec h (show m < n by omega) (fun _ => true) z
        (fun _ _ hf => by simp at hf)
      refine ⟨fun k hk => ?_, fun c hc => ?_⟩
      · rw [s1 k (by omega), i1 k (by omega)]
      · by_cases hcm : c = m
        · subst hcm
          rw [s2, i1 c le_rfl]
        · rw [← i2 c (by omega)]
          exact h.sum_congr_le (by omega) fun r hr => s1 r (by omega)
  exact (inv n le_rfl).2 c hc

/-- The shortened forward substitution solves `Rᵀ y = e_k`. -/
theorem sparseForward_spec {n : ℕ} {M : Mat K} (h : Upper n M) {k : ℕ} (hk : k < n) {c : ℕ}
    (hc : c < n) :
    ∑ r ∈ Finset.range n, M.cEntry r c * sparseForward n M k r = if c = k then 1 else 0 := by
  have inv : ∀ m, k + 1 + m ≤ n →
      let z := (List.range' (k + 1) m).foldl (forwardStep M fun r => decide (k ≤ r))
        (Function.update (fun _ => 0) k (1 / M.lastVal k))
      (∀ r, r < k → z r = 0) ∧ z k = 1 / M.lastVal k ∧ (∀ r, k + 1 + m ≤ r → z r = 0) ∧
      ∀ c, k < c → c < k + 1 + m → ∑ r ∈ Finset.range n, M.cEntry r c * z r = 0 := by
    intro m
    induction m with
    | zero =>
      intro _
      refine ⟨fun r hr => ?_, ?_, fun r hr => ?_, fun c h1 h2 => ?_⟩
      · show Function.update (fun _ => (0 : K)) k (1 / M.lastVal k) r = 0
        rw [Function.update_of_ne (by omega)]
      · show Function.update (fun _ => (0 : K)) k (1 / M.lastVal k) k = _
        rw [Function.update_self]
      · show Function.update (fun _ => (0 : K)) k (1 / M.lastVal k) r = 0
        rw [Function.update_of_ne (by omega)]
      · omega
    | succ m ih =>
      intro hm
      obtain ⟨i1, i2, i3, i4⟩ := ih (by omega)
      rw [List.range'_1_concat, List.foldl_append, List.foldl_cons, List.foldl_nil]
      set z := (List.range' (k + 1) m).foldl (forwardStep M fun r => decide (k ≤ r))
        (Function.update (fun _ => 0) k (1 / M.lastVal k)) with hz
      obtain ⟨s1, s2⟩ := forwardStep_spec h (show k + 1 + m < n by omega)
        (fun r => decide (k ≤ r)) z (fun r _ hf => i1 r (by simpa using hf))
      refine ⟨fun r hr => ?_, ?_, fun r hr => ?_, fun c h1 h2 => ?_⟩
      · rw [s1 r (by omega), i1 r hr]
      · rw [s1 k (by omega), i2]
      · rw [s1 r (by omega), i3 r (by omega)]
      · by_cases hcm : c = k + 1 + m
        · subst hcm
          rw [s2, i3 _ le_rfl]
        · rw [← i4 c h1 (by omega)]
          exact h.sum_congr_le (by omega) fun r hr => s1 r (by omega)
  obtain ⟨i1, i2, _, i4⟩ := inv (n - (k + 1)) (by omega)
  change (∀ r, r < k → sparseForward n M k r = 0) at i1
  change sparseForward n M k k = _ at i2
  rcases Nat.lt_trichotomy c k with hlt | heq | hgt
  · rw [if_neg (by omega)]
    refine Finset.sum_eq_zero fun r _ => ?_
    by_cases hr : r ≤ c
    · rw [i1 r (by omega), mul_zero]
    · rw [h.entry_below hc (by omega), zero_mul]
  · subst heq
    rw [if_pos rfl, Finset.sum_eq_single c]
    · rw [i2, h.entry_diag hc, mul_one_div, div_self (h.pivot c hc)]
    · intro r _ hr
      by_cases hr' : r < c
      · rw [i1 r hr', mul_zero]
      · rw [h.entry_below hc (by omega), zero_mul]
    · intro hn; exact absurd (Finset.mem_range.mpr hc) hn
  · rw [if_neg (by omega)]
    exact i4 c hgt (by omega)

/-- **C35.** `SolveRTRWithSparseRHS` returns the column of the inverse of `Rᵀ R`. -/
theorem solveRTR_spec {n : ℕ} {M : Mat K} (h : Upper n M) {k : ℕ} (hk : k < n) {c : ℕ}
    (hc : c < n) :
    ∑ j ∈ Finset.range n, (∑ r ∈ Finset.range n, M.cEntry r c * M.cEntry r j) * solveRTR n M k j
      = if c = k then 1 else 0 := by
  rw [← sparseForward_spec h hk hc]
  have : ∀ r ∈ Finset.range n, M.cEntry r c * sparseForward n M k r
      = ∑ j ∈ Finset.range n, M.cEntry r c * (M.cEntry r j * solveRTR n M k j) := by
    intro r hr
    rw [← Finset.mul_sum]
    congr 1
    exact (solveUpper_spec h (sparseForward n M k) (Finset.mem_range.mp hr)).symm
  rw [Finset.sum_congr rfl this, Finset.sum_comm]
  refine Finset.sum_congr rfl fun j _ => ?_
  rw [Finset.sum_mul]
  refine Finset.sum_congr rfl fun r _ => ?_
  ring

/-- Such solutions are unique: the routines return the only one. -/
theorem upper_unique {n : ℕ} {M : Mat K} (h : Upper n M) {x y : ℕ → K}
    (hxy : ∀ r < n, ∑ c ∈ Finset.range n, M.cEntry r c * x c
      = ∑ c ∈ Finset.range n, M.cEntry r c * y c) : ∀ c < n, x c = y c := by
  have key : ∀ d, ∀ c < n, n - 1 - c ≤ d → x c = y c := by
    intro d
    induction d with
    | zero =>
      intro c hc hd
      have e := hxy c hc
      have hs : ∀ z : ℕ → K, ∑ j ∈ Finset.range n, M.cEntry c j * z j = M.cEntry c c * z c := by
        intro z
        refine Finset.sum_eq_single c (fun j hj hjc => ?_) (fun hn => absurd (Finset.mem_range.mpr hc) hn)
        have := Finset.mem_range.mp hj
        rw [h.entry_below this (by omega), zero_mul]
      rw [hs, hs, h.entry_diag hc] at e
      exact mul_left_cancel₀ (h.pivot c hc) e
    | succ d ih =>
      intro c hc hd
      have e := hxy c hc
      have : ∑ j ∈ Finset.range n, M.cEntry c j * (x j - y j) = 0 := by
        simp only [mul_sub, Finset.sum_sub_distrib, e, sub_self]
      rw [Finset.sum_eq_single c] at this
      · rw [h.entry_diag hc] at this
        rcases mul_eq_zero.mp this with h0 | h0
        · exact absurd h0 (h.pivot c hc)
        · exact sub_eq_zero.mp h0
      · intro j hj hjc
        have hj' := Finset.mem_range.mp hj
        by_cases hlt : j < c
        · rw [h.entry_below hj' hlt, zero_mul]
        · rw [ih j hj' (by omega), sub_self, mul_zero]
      · intro hn; exact absurd (Finset.mem_range.mpr hc) hn
  exact fun c hc => key n c hc (by omega)

/-- A concrete matrix: `[[2, 1], [0, 4]]`. -/
def exUpper : Mat ℚ :=
  ⟨2, 2, fun c => if c = 0 then 0 else if c = 1 then 1 else 3, fun i => if i = 2 then 1 else 0,
    fun i => if i = 0 then 2 else if i = 1 then 1 else 4, .unsymmetric, []⟩

example : Upper 2 exUpper := by
  refine ⟨?_, ?_, ?_, ?_⟩ <;> decide +kernel

example : solveUpper 2 exUpper (fun _ => 4) 0 = 3 / 2 ∧ solveUpper 2 exUpper (fun _ => 4) 1 = 1 ∧
    solveRTR 2 exUpper 1 1 = 1 / 16 := by
  decide +kernel

end Ceres.Sparse
