import Verif.Sparse.Convert

/-!
# Dense Jacobians (dense_sparse_matrix.cc)

`DenseSparseMatrix` stores its elements row after row (`Matrix` is row major, include/ceres/internal/eigen.h:39-40).
-/
namespace Ceres.Sparse

variable {K : Type}

/-- `DenseSparseMatrix` (dense_sparse_matrix.h:46-74): `m_`, with `data k` the element `m_.data()[k]`. -/
structure Dense (K : Type) where
  numRows : ℕ
  numCols : ℕ
  data : ℕ → K

/-- `m_(r, c)`, by Eigen. -/
def Dense.entry (D : Dense K) (r c : ℕ) : K := D.data (r * D.numCols + c)

/-- The constructor from triplets (dense_sparse_matrix.cc:47-58). -/
def Dense.ofTriplet [Zero K] [Add K] (T : Triplet K) : Dense K where
  numRows := T.numRows
  numCols := T.numCols
  data := (List.range T.num).foldl (fun d i => bump d (T.rows i * T.numCols + T.cols i) (T.values i)) fun _ => 0

/-- `SetZero` (dense_sparse_matrix.cc:62). -/
def Dense.setZero [Zero K] (D : Dense K) : Dense K :=
  { D with data := fun k => if k < D.numRows * D.numCols then 0 else D.data k }

/-- `RightMultiplyAndAccumulate` (dense_sparse_matrix.cc:64-67).  The product of Eigen is taken as a sum over the
columns in order. -/
def Dense.rightMul [Zero K] [Add K] [Mul K] (D : Dense K) (x y : ℕ → K) : ℕ → K := fun r =>
  if r < D.numRows then y r + (List.range D.numCols).foldl (fun s c => s + D.entry r c * x c) 0 else y r

/-- `LeftMultiplyAndAccumulate` (dense_sparse_matrix.cc:69-73). -/
def Dense.leftMul [Zero K] [Add K] [Mul K] (D : Dense K) (x y : ℕ → K) : ℕ → K := fun c =>
  if c < D.numCols then y c + (List.range D.numRows).foldl (fun s r => s + D.entry r c * x r) 0 else y c

/-- A row of `SquaredColumnNorm` (dense_sparse_matrix.cc:85-87): `x` and the pointer `m`. -/
def Dense.normRow [Add K] [Mul K] (D : Dense K) (s : (ℕ → K) × ℕ) : (ℕ → K) × ℕ :=
  (List.range D.numCols).foldl (fun s j => (bump s.1 j (D.data s.2 * D.data s.2), s.2 + 1)) s

/-- `SquaredColumnNorm` (dense_sparse_matrix.cc:75-89): what is in `x` afterwards. -/
def Dense.squaredColumnNorm [Zero K] [Add K] [Mul K] (D : Dense K) (x : ℕ → K) : ℕ → K :=
  ((List.range D.numRows).foldl (fun s _ => D.normRow s) (fun j => if j < D.numCols then 0 else x j, 0)).1

/-- `ScaleColumns` (dense_sparse_matrix.cc:91-93). -/
def Dense.scaleColumns [Mul K] (D : Dense K) (scale : ℕ → K) : Dense K :=
  { D with data := fun k => if k < D.numRows * D.numCols then D.data k * scale (k % D.numCols) else D.data k }

/-- `num_nonzeros` (dense_sparse_matrix.cc:103). -/
def Dense.numNonzeros (D : Dense K) : ℕ := D.numRows * D.numCols

/-! ## Theorems -/

theorem pos_lt {nr nc r c : ℕ} (hr : r < nr) (hc : c < nc) : r * nc + c < nr * nc := by
  have := Nat.mul_le_mul_right nc (show r + 1 ≤ nr from hr)
  rw [Nat.add_mul] at this
  omega

theorem pos_eq {nc r c r' c' : ℕ} (hc : c < nc) (hc' : c' < nc) :
    r * nc + c = r' * nc + c' ↔ r = r' ∧ c = c' := by
  constructor
  · intro h
    have h1 : (r * nc + c) / nc = r := by
      rw [Nat.mul_comm, Nat.mul_add_div (by omega), Nat.div_eq_of_lt hc, Nat.add_zero]
    have h2 : (r' * nc + c') / nc = r' := by
      rw [Nat.mul_comm, Nat.mul_add_div (by omega), Nat.div_eq_of_lt hc', Nat.add_zero]
    have : r = r' := by rw [← h1, ← h2, h]
    subst this
    exact ⟨rfl, by omega⟩
  · rintro ⟨rfl, rfl⟩; rfl

/-- **A dense matrix made from triplets has their sums as elements.** -/
theorem Dense.ofTriplet_entry [AddCommMonoid K] {T : Triplet K} (hT : T.WF) (r : ℕ) {c : ℕ}
    (hc : c < T.numCols) : (Dense.ofTriplet T).entry r c = T.entry r c := by
  show (List.range T.num).foldl (fun d i => bump d (T.rows i * T.numCols + T.cols i) (T.values i)) (fun _ => 0)
    (r * T.numCols + c) = _
  rw [foldl_bump (fun i => T.rows i * T.numCols + T.cols i) T.values, zero_add]
  unfold Triplet.entry tripleSum Triplet.triples
  rw [List.map_map]
  congr 1
  refine List.map_congr_left fun i hi => ?_
  show (if _ then _ else _) = if T.rows i = r ∧ T.cols i = c then T.values i else 0
  simp only [pos_eq (hT i (List.mem_range.1 hi)).2 hc]

theorem foldl_add [AddCommMonoid K] (f : ℕ → K) (n : ℕ) (s : K) :
    (List.range n).foldl (fun s c => s + f c) s = s + ∑ c ∈ Finset.range n, f c := by
  induction n with
  | zero => simp
  | succ n ih =>
    rw [List.range_succ, List.foldl_append, ih, Finset.sum_range_succ, ← add_assoc]
    rfl

/-- **The products of a dense matrix are added to `y`**, and nothing else is written. -/
theorem Dense.rightMul_spec [CommSemiring K] (D : Dense K) (x y : ℕ → K) (r : ℕ) :
    D.rightMul x y r = if r < D.numRows then y r + ∑ c ∈ Finset.range D.numCols, D.entry r c * x c else y r := by
  unfold Dense.rightMul
  rw [foldl_add (fun c => D.entry r c * x c), zero_add]

theorem Dense.leftMul_spec [CommSemiring K] (D : Dense K) (x y : ℕ → K) (c : ℕ) :
    D.leftMul x y c = if c < D.numCols then y c + ∑ r ∈ Finset.range D.numRows, D.entry r c * x r else y c := by
  unfold Dense.leftMul
  rw [foldl_add (fun r => D.entry r c * x r), zero_add]

theorem Dense.normRow_eq [CommSemiring K] (D : Dense K) (x : ℕ → K) (p : ℕ) :
    D.normRow (x, p) = (fun j => if j < D.numCols then x j + D.data (p + j) * D.data (p + j) else x j,
      p + D.numCols) := by
  unfold Dense.normRow
  generalize D.numCols = n
  induction n with
  | zero => simp
  | succ n ih =>
    rw [List.range_succ, List.foldl_append, ih]
    show (bump _ n _, p + n + 1) = _
    refine Prod.ext ?_ (by show p + n + 1 = p + (n + 1); omega)
    funext j
    show bump _ n _ j = _
    unfold bump
    by_cases hj : j = n
    · subst hj
      simp only [Function.update_self, lt_irrefl, if_false, Nat.lt_succ_self, if_true]
    · rw [Function.update_of_ne hj]
      simp only
      by_cases h : j < n
      · rw [if_pos h, if_pos (by omega)]
      · rw [if_neg h, if_neg (by omega)]

/-- **The squared norms of the columns**, whatever was in `x`; nothing else is written. -/
theorem Dense.squaredColumnNorm_spec [CommSemiring K] (D : Dense K) (x : ℕ → K) (j : ℕ) :
    D.squaredColumnNorm x j =
      if j < D.numCols then ∑ r ∈ Finset.range D.numRows, D.entry r j * D.entry r j else x j := by
  have key : ∀ n, (List.range n).foldl (fun s _ => D.normRow s) (fun j => if j < D.numCols then 0 else x j, 0) =
      (fun j => if j < D.numCols then ∑ r ∈ Finset.range n, D.entry r j * D.entry r j else x j,
        n * D.numCols) := by
    intro n
    induction n with
    | zero => simp
    | succ n ih =>
      rw [List.range_succ, List.foldl_append, ih]
      show D.normRow (_, n * D.numCols) = _
      rw [Dense.normRow_eq]
      refine Prod.ext ?_ (by show n * D.numCols + D.numCols = (n + 1) * D.numCols; ring)
      funext j
      simp only
      by_cases h : j < D.numCols
      · simp only [if_pos h, Finset.sum_range_succ]; rfl
      · simp only [if_neg h]
  unfold Dense.squaredColumnNorm
  rw [key]

/-- **Columns are scaled**, and the matrix stays where it is. -/
theorem Dense.scaleColumns_entry [Mul K] (D : Dense K) (scale : ℕ → K) {r c : ℕ} (hr : r < D.numRows)
    (hc : c < D.numCols) : (D.scaleColumns scale).entry r c = D.entry r c * scale c := by
  show (if r * D.numCols + c < D.numRows * D.numCols then
    D.data (r * D.numCols + c) * scale ((r * D.numCols + c) % D.numCols) else _) = _
  rw [if_pos (pos_lt hr hc), Nat.mul_comm r, Nat.mul_add_mod, Nat.mod_eq_of_lt hc, Nat.mul_comm _ r]
  rfl

theorem Dense.setZero_entry [Zero K] (D : Dense K) {r c : ℕ} (hr : r < D.numRows) (hc : c < D.numCols) :
    D.setZero.entry r c = 0 := if_pos (pos_lt hr hc)

/-- **A dense matrix made from triplets multiplies as they do.** -/
theorem Dense.ofTriplet_products [CommSemiring K] {T : Triplet K} (hT : T.WF) (x y : ℕ → K) :
    (∀ r < T.numRows, (Dense.ofTriplet T).rightMul x y r = T.rightMul x y r) ∧
    ∀ c < T.numCols, (Dense.ofTriplet T).leftMul x y c = T.leftMul x y c := by
  refine ⟨fun r hr => ?_, fun c hc => ?_⟩
  · rw [Dense.rightMul_spec, Triplet.rightMul_spec hT x y hr]
    show (if r < T.numRows then y r + ∑ c ∈ Finset.range T.numCols, _ else _) = _
    rw [if_pos hr]
    congr 1
    exact Finset.sum_congr rfl fun c hc => by rw [Dense.ofTriplet_entry hT r (Finset.mem_range.1 hc)]
  · rw [Dense.leftMul_spec, Triplet.leftMul_spec hT x y hc]
    show (if c < T.numCols then y c + ∑ r ∈ Finset.range T.numRows, _ else _) = _
    rw [if_pos hc]
    congr 1
    exact Finset.sum_congr rfl fun r _ => by rw [Dense.ofTriplet_entry hT r hc]

/-- Three triplets, two of them in one place. -/
def denseTriplet : Triplet ℤ :=
  ⟨2, 2, 3, fun i => [1, 0, 1].getD i 0, fun i => [1, 0, 1].getD i 0, fun i => [4, 5, 6].getD i 0⟩

example : denseTriplet.WF ∧ (Dense.ofTriplet denseTriplet).entry 1 1 = 10 ∧
    (Dense.ofTriplet denseTriplet).squaredColumnNorm (fun _ => 7) 1 = 100 ∧
    (Dense.ofTriplet denseTriplet).squaredColumnNorm (fun _ => 7) 2 = 7 := by
  refine ⟨?_, ?_, ?_, ?_⟩
  · unfold Triplet.WF; decide +kernel
  · decide +kernel
  · decide +kernel
  · decide +kernel

end Ceres.Sparse
