import Verif.Sparse.Model
import Mathlib.Algebra.BigOperators.Ring.Finset
import Mathlib.Algebra.BigOperators.Ring.List
import Mathlib.Algebra.BigOperators.Fin
import Mathlib.Data.List.Perm.Subperm
import Mathlib.Algebra.Group.Action.Defs
import Mathlib.Tactic.Ring

/-!
# What a sparse matrix stands for
-/
namespace Ceres.Sparse

variable {K : Type}

/-- The stored entries of a row: column and value, in order. -/
def Mat.row (M : Mat K) (r : ℕ) : List (ℕ × K) := (M.idxs r).map fun i => (M.cols i, M.values i)

/-- The sum of the values a list of entries has in a column. -/
def colSum [AddMonoid K] (l : List (ℕ × K)) (c : ℕ) : K :=
  (l.map fun e => if e.1 = c then e.2 else 0).sum

/-- The entry of the matrix that the arrays stand for. -/
def Mat.entry [AddMonoid K] (M : Mat K) (r c : ℕ) : K := colSum (M.row r) c

/-- The arrays describe a matrix: rows are consecutive from zero, columns are in range. -/
structure Mat.WF (M : Mat K) : Prop where
  start : M.rows 0 = 0
  mono : ∀ r < M.numRows, M.rows r ≤ M.rows (r + 1)
  bound : ∀ i < M.nnz, M.cols i < M.numCols

/-- Columns do not decrease within a row. -/
def Mat.RowsSorted (M : Mat K) : Prop :=
  ∀ r < M.numRows, (M.row r).Pairwise fun a b => a.1 ≤ b.1

/-- No column occurs twice in a row. -/
def Mat.NoDup (M : Mat K) : Prop := ∀ r < M.numRows, ((M.row r).map Prod.fst).Nodup

/-- All the entries, row by row. -/
def Mat.triples (M : Mat K) : List (ℕ × ℕ × K) :=
  (List.range M.numRows).flatMap fun r => (M.row r).map fun e => (r, e.1, e.2)

/-- The entry that a list of triples has: the sum. -/
def tripleSum [AddMonoid K] (l : List (ℕ × ℕ × K)) (r c : ℕ) : K :=
  (l.map fun e => if e.1 = r ∧ e.2.1 = c then e.2.2 else 0).sum

/-- The list of the entries in use. -/
def Triplet.triples (T : Triplet K) : List (ℕ × ℕ × K) :=
  (List.range T.num).map fun i => (T.rows i, T.cols i, T.values i)

/-- The entry of the matrix a triplet matrix stands for. -/
def Triplet.entry [AddMonoid K] (T : Triplet K) (r c : ℕ) : K := tripleSum T.triples r c

/-- `AllTripletsWithinBounds` (triplet_sparse_matrix.cc:111-121). -/
def Triplet.WF (T : Triplet K) : Prop := ∀ i < T.num, T.rows i < T.numRows ∧ T.cols i < T.numCols

/-! ### Folds -/

theorem foldl_bump [AddCommMonoid K] {ι : Type} (p : ι → ℕ) (f : ι → K) (l : List ι) (y : ℕ → K)
    (k : ℕ) :
    l.foldl (fun y i => bump y (p i) (f i)) y k
      = y k + (l.map fun i => if p i = k then f i else 0).sum := by
  induction l generalizing y with
  | nil => simp
  | cons a l ih =>
    rw [List.foldl_cons, ih, List.map_cons, List.sum_cons, ← add_assoc]
    congr 1
    unfold bump
    by_cases h : p a = k
    · subst h; simp
    · rw [Function.update_of_ne (Ne.symm h), if_neg h, add_zero]

theorem foldl_nested {α β ι : Type} (L : List ι) (g : ι → List β) (f : ι → α → β → α) (a : α) :
    L.foldl (fun a r => (g r).foldl (f r) a) a
      = (L.flatMap fun r => (g r).map fun i => (r, i)).foldl (fun a p => f p.1 a p.2) a := by
  induction L generalizing a with
  | nil => rfl
  | cons r L ih =>
    rw [List.foldl_cons, ih, List.flatMap_cons, List.foldl_append, List.foldl_map]

theorem sum_flatMap [AddMonoid K] {ι β : Type} (L : List ι) (g : ι → List β) (f : β → K) :
    ((L.flatMap g).map f).sum = (L.map fun r => ((g r).map f).sum).sum := by
  induction L with
  | nil => rfl
  | cons r L ih => simp [List.flatMap_cons, ih]

theorem sum_range_eq [AddCommMonoid K] (f : ℕ → K) (n : ℕ) :
    ((List.range n).map f).sum = ∑ i ∈ Finset.range n, f i := by
  induction n with
  | zero => simp
  | succ n ih => rw [List.range_succ, Finset.sum_range_succ, ← ih]; simp

/-! ### Well formed matrices -/

theorem Mat.WF.le {M : Mat K} (h : M.WF) {a b : ℕ} (hab : a ≤ b) (hb : b ≤ M.numRows) :
    M.rows a ≤ M.rows b := by
  induction b with
  | zero => simp_all
  | succ b ih =>
    rcases Nat.lt_or_ge b a with hlt | hge
    · have : a = b + 1 := by omega
      rw [this]
    · exact le_trans (ih hge (by omega)) (h.mono b (by omega))

theorem Mat.mem_idxs {M : Mat K} {r i : ℕ} :
    i ∈ M.idxs r ↔ M.rows r ≤ i ∧ i < M.rows (r + 1) := by
  unfold Mat.idxs
  rw [List.mem_range'_1]
  omega

theorem Mat.WF.idx_lt {M : Mat K} (h : M.WF) {r i : ℕ} (hr : r < M.numRows) (hi : i ∈ M.idxs r) :
    i < M.nnz :=
  lt_of_lt_of_le (Mat.mem_idxs.mp hi).2 (h.le (by omega) le_rfl)

theorem Mat.WF.col_lt {M : Mat K} (h : M.WF) {r : ℕ} (hr : r < M.numRows) {e : ℕ × K}
    (he : e ∈ M.row r) : e.1 < M.numCols := by
  obtain ⟨i, hi, rfl⟩ := List.mem_map.mp he
  exact h.bound i (h.idx_lt hr hi)

/-- The rows partition the positions in use, in order. -/
theorem Mat.WF.flatMap_idxs {M : Mat K} (h : M.WF) :
    (List.range M.numRows).flatMap M.idxs = List.range M.nnz := by
  have key : ∀ n ≤ M.numRows, (List.range n).flatMap M.idxs = List.range (M.rows n) := by
    intro n
    induction n with
    | zero => intro _; simp [h.start]
    | succ n ih =>
      intro hn
      rw [List.range_succ, List.flatMap_append, ih (by omega)]
      simp only [List.flatMap_cons, List.flatMap_nil, List.append_nil]
      unfold Mat.idxs
      have hm := h.mono n (by omega)
      rw [List.range_eq_range', List.range_eq_range']
      have : M.rows (n + 1) = M.rows n + (M.rows (n + 1) - M.rows n) := by omega
      conv_rhs => rw [this]
      rw [← List.range'_append_1]
      simp
  exact key _ le_rfl

/-- Sums over the stored entries of a row against weights that depend on the column. -/
theorem Mat.WF.row_sum [CommSemiring K] {M : Mat K} (h : M.WF) {r : ℕ} (hr : r < M.numRows)
    (w : ℕ → K) :
    ((M.idxs r).map fun i => M.values i * w (M.cols i)).sum
      = ∑ c ∈ Finset.range M.numCols, M.entry r c * w c := by
  have key : ∀ l : List (ℕ × K), (∀ e ∈ l, e.1 < M.numCols) →
      (l.map fun e => e.2 * w e.1).sum
        = ∑ c ∈ Finset.range M.numCols, colSum l c * w c := by
    intro l
    induction l with
    | nil => intro _; simp [colSum]
    | cons a l ih =>
      intro hl
      have ih' := ih fun e he => hl e (List.mem_cons_of_mem _ he)
      simp only [colSum, List.map_cons, List.sum_cons, add_mul, Finset.sum_add_distrib] at ih' ⊢
      rw [ih']
      congr 1
      rw [Finset.sum_eq_single a.1]
      · simp
      · intro b _ hb
        rw [if_neg (Ne.symm hb), zero_mul]
      · intro hn
        exact absurd (Finset.mem_range.mpr (hl a (List.mem_cons_self ..))) hn
  have := key (M.row r) fun e he => h.col_lt hr he
  simpa [Mat.row, Mat.entry, Function.comp_def] using this

end Ceres.Sparse
