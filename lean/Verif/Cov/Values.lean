import Verif.Cov.Whole
import Mathlib.LinearAlgebra.Matrix.NonsingularInverse
import Mathlib.LinearAlgebra.Matrix.Rank
import Mathlib.Data.Real.Sqrt
import Mathlib.Tactic.FieldSimp

/-! # The numbers: inverse by sparse QR, pseudo-inverse by dense SVD -/

namespace Ceres.Cov

section
variable {K : Type} {P : Prob K} [Field K]

/-! ### Inverses -/

/-- A one sided inverse of a symmetric matrix is its inverse and symmetric. -/
theorem inverse_of_right {n : ℕ} {g f : ℕ → ℕ → K} (hg : Symmetric n g)
    (h : ∀ i < n, ∀ j < n, ∑ k ∈ Finset.range n, g i k * f j k = if i = j then 1 else 0) :
    IsInverse n g f ∧ Symmetric n f := by
  let G : Matrix (Fin n) (Fin n) K := Matrix.of fun i j => g i j
  let F : Matrix (Fin n) (Fin n) K := Matrix.of fun i j => f i j
  have hGF : G * F.transpose = 1 := by
    ext i j
    rw [Matrix.mul_apply, Matrix.one_apply]
    have := h i i.2 j j.2
    rw [Finset.sum_range] at this
    simp only [G, F, Matrix.of_apply, Matrix.transpose_apply]
    rw [this]
    simp only [Fin.ext_iff]
  have hGt : G.transpose = G := by
    ext i j
    exact hg j j.2 i i.2
  have hFG : F * G = 1 := by
    have := congrArg Matrix.transpose hGF
    rwa [Matrix.transpose_mul, Matrix.transpose_transpose, hGt, Matrix.transpose_one] at this
  have hGF' : G * F = 1 := mul_eq_one_comm.1 hFG
  have hFt : F.transpose = F := by
    have : F * (G * F.transpose) = F := by rw [hGF, Matrix.mul_one]
    rw [← Matrix.mul_assoc, hFG, Matrix.one_mul] at this
    exact this
  refine ⟨⟨fun i hi j hj => ?_, fun i hi j hj => ?_⟩, fun i hi j hj => ?_⟩
  · have := congrFun (congrFun hGF' ⟨i, hi⟩) ⟨j, hj⟩
    rw [Matrix.mul_apply, Matrix.one_apply] at this
    rw [Finset.sum_range]
    simpa [G, F, Fin.ext_iff] using this
  · have := congrFun (congrFun hFG ⟨i, hi⟩) ⟨j, hj⟩
    rw [Matrix.mul_apply, Matrix.one_apply] at this
    rw [Finset.sum_range]
    simpa [G, F, Fin.ext_iff] using this
  · have := congrFun (congrFun hFt ⟨j, hj⟩) ⟨i, hi⟩
    simpa [F] using this

theorem gram_symmetric (J : Jac K) (n : ℕ) : Symmetric n J.gram := fun i _ j _ =>
  Finset.sum_congr rfl fun r _ => mul_comm _ _

/-! ### Sparse QR -/

/-- What `SuiteSparseQR` and `Eigen::SparseQR` promise if they find full rank: a permutation of the
columns and an upper triangular factor, with the diagonal entry last in each column, of the
permuted matrix. -/
structure Factor.Of (F : Factor K) (J : Jac K) : Prop where
  upper : Sparse.Upper J.numCols F.R
  range : ∀ i < J.numCols, (F.permutation.getD id) i < J.numCols
  injective : ∀ i < J.numCols, ∀ j < J.numCols,
    (F.permutation.getD id) i = (F.permutation.getD id) j → i = j
  gram : ∀ i < J.numCols, ∀ j < J.numCols,
    ∑ r ∈ Finset.range J.numCols, F.R.cEntry r i * F.R.cEntry r j =
      J.gram ((F.permutation.getD id) i) ((F.permutation.getD id) j)

theorem foldl_invert_get (p : ℕ → ℕ) (l : List ℕ) (v : ℕ → ℕ)
    (hp : ∀ i ∈ l, ∀ j ∈ l, p i = p j → i = j) {i : ℕ} (hi : i ∈ l ∨ v (p i) = i)
    (hn : ∀ j ∈ l, p j = p i → j = i) :
    l.foldl (fun v i => Function.update v (p i) i) v (p i) = i := by
  induction l generalizing v with
  | nil => simpa using hi
  | cons x xs ih =>
    refine ih _ (fun a ha b hb => hp a (List.mem_cons_of_mem _ ha) b (List.mem_cons_of_mem _ hb)) ?_
      (fun j hj => hn j (List.mem_cons_of_mem _ hj))
    by_cases hx : p x = p i
    · have := hn x (List.mem_cons_self ..) hx
      subst this
      right
      exact Function.update_self ..
    · simp only []
      rw [Function.update_of_ne (Ne.symm hx)]
      rcases hi with hi | hi
      · rcases List.mem_cons.1 hi with rfl | hi
        · exact absurd rfl hx
        · exact .inl hi
      · exact .inr hi

theorem inversePermutation_spec {n : ℕ} {perm : Option (ℕ → ℕ)}
    (hinj : ∀ i < n, ∀ j < n, (perm.getD id) i = (perm.getD id) j → i = j) {i : ℕ} (hi : i < n) :
    inversePermutation n perm ((perm.getD id) i) = i := by
  have := foldl_invert_get (perm.getD id) (List.range n) (fun _ => 0)
    (fun a ha b hb => hinj a (List.mem_range.1 ha) b (List.mem_range.1 hb)) (i := i)
    (.inl (List.mem_range.2 hi))
    (fun j hj => hinj j (List.mem_range.1 hj) i hi)
  cases perm with
  | none => exact this
  | some p => exact this

theorem surj_of_inj {n : ℕ} {p : ℕ → ℕ} (hr : ∀ i < n, p i < n)
    (hinj : ∀ i < n, ∀ j < n, p i = p j → i = j) {k : ℕ} (hk : k < n) : ∃ i < n, p i = k := by
  have := Finset.surj_on_of_inj_on_of_card_le (s := Finset.range n) (t := Finset.range n)
    (fun i _ => p i) (fun i hi => Finset.mem_range.2 (hr i (Finset.mem_range.1 hi)))
    (fun i j hi hj h => hinj i (Finset.mem_range.1 hi) j (Finset.mem_range.1 hj) h) le_rfl k
    (Finset.mem_range.2 hk)
  obtain ⟨i, hi, h⟩ := this
  exact ⟨i, Finset.mem_range.1 hi, h.symm⟩

/-- The entries the QR algorithms compute form the inverse of `J'J`. -/
theorem factor_inverse {J : Jac K} {F : Factor K} (h : F.Of J) :
    IsInverse J.numCols J.gram (fun r c => Sparse.solveRTR J.numCols F.R
        (inversePermutation J.numCols F.permutation r)
        (inversePermutation J.numCols F.permutation c)) ∧
      Symmetric J.numCols (fun r c => Sparse.solveRTR J.numCols F.R
        (inversePermutation J.numCols F.permutation r)
        (inversePermutation J.numCols F.permutation c)) := by
  set n := J.numCols with hn
  set p := F.permutation.getD id with hp
  set inv := inversePermutation n F.permutation with hinv
  have hs : ∀ i < n, inv (p i) = i := fun i hi => inversePermutation_spec h.injective hi
  refine inverse_of_right (gram_symmetric J n) fun i hi j hj => ?_
  obtain ⟨i', hi', rfl⟩ := surj_of_inj h.range h.injective hi
  obtain ⟨j', hj', rfl⟩ := surj_of_inj h.range h.injective hj
  have hsum : ∑ k ∈ Finset.range n, J.gram (p i') k * Sparse.solveRTR n F.R (inv (p j')) (inv k) =
      ∑ k ∈ Finset.range n, J.gram (p i') (p k) * Sparse.solveRTR n F.R j' k := by
    symm
    refine Finset.sum_bij (fun k _ => p k) (fun k hk => ?_) (fun a ha b hb hab => ?_)
      (fun k hk => ?_) (fun k hk => ?_)
    · exact Finset.mem_range.2 (h.range k (Finset.mem_range.1 hk))
    · exact h.injective a (Finset.mem_range.1 ha) b (Finset.mem_range.1 hb) hab
    · obtain ⟨i, hi, he⟩ := surj_of_inj h.range h.injective (Finset.mem_range.1 hk)
      exact ⟨i, Finset.mem_range.2 hi, he⟩
    · rw [hs k (Finset.mem_range.1 hk), hs j' hj']
  rw [hsum]
  have hspec := Sparse.solveRTR_spec h.upper hj' hi'
  have hg : ∀ k ∈ Finset.range n, J.gram (p i') (p k) * Sparse.solveRTR n F.R j' k =
      (∑ r ∈ Finset.range n, F.R.cEntry r i' * F.R.cEntry r k) * Sparse.solveRTR n F.R j' k := by
    intro k hk
    rw [h.gram i' hi' k (Finset.mem_range.1 hk)]
  rw [Finset.sum_congr rfl hg, hspec]
  by_cases hij : i' = j'
  · rw [if_pos hij, if_pos (by rw [hij])]
  · rw [if_neg hij, if_neg fun he => hij (h.injective i' hi' j' hj' he)]

theorem sparseQR_computes {J : Jac K} {factorize : Jac K → Option (Factor K)} {order : List ℕ}
    (hf : ∀ F, factorize J = some F → J.numCols ≤ F.rank → F.Of J)
    (ho : ∀ r, r ∈ order ↔ r < J.numCols) {m : Csr} (hm : m.numRows = J.numCols)
    (hord : m.Ordered) {v : ℕ → K}
    (hv : (sparseQR (some J) factorize order).values m = .ok (some v)) :
    ∃ f, IsInverse J.numCols J.gram f ∧ Symmetric J.numCols f ∧
      (sparseQR (some J) factorize order).Computes J.numCols f := by
  have hv' := hv
  unfold sparseQR evaluated at hv'
  simp only [Option.getD_some] at hv'
  cases hF : factorize J with
  | none => rw [hF] at hv'; cases hv'
  | some F =>
    rw [hF] at hv'
    simp only [] at hv'
    split at hv'
    · cases hv'
    next hr =>
    obtain ⟨h1, h2⟩ := factor_inverse (hf F hF (by omega))
    refine ⟨_, h1, h2, fun m' v' hm' hord' hv'' r hr' i hi1 hi2 => ?_⟩
    unfold sparseQR evaluated at hv''
    simp only [Option.getD_some, hF, if_neg hr] at hv''
    cases hv''
    exact copyRows_get hord' (fun s => by rw [ho, hm']) (by omega) hi1 hi2

/-- `Compute` has asked the algorithm for values, or there was nothing to compute. -/
theorem compute_values {A : Algorithm K} (hP : P.ptrs.Nodup) {pairs : List (ℕ × ℕ)} {st : State K}
    (h : compute P A pairs = .ok st) (hv : st.valid = true) :
    (st.sparsity.matrix = none ∧ ∀ f, Holds P pairs f st) ∨
      ∃ m v, m.numRows = dim P ∧ m.Ordered ∧ A.values m = .ok (some v) := by
  unfold compute at h
  split at h
  · cases h
  rcases sparsity_ok hP pairs with ⟨s, h1, h2, h3, h4, h5, h6⟩ | ⟨h1, -⟩
  · rw [h1] at h
    simp only [bind, Except.bind] at h
    split at h
    · cases h
      cases hv
    rcases h6 with ⟨h6, h7⟩ | ⟨m, blocks, h6, h7, h8⟩
    · rw [h6] at h
      cases h
      exact .inl ⟨h6, fun f => ⟨rfl, h3, h5, h2, .inl ⟨h6, h7⟩⟩⟩
    · rw [h6] at h
      simp only [] at h
      cases hval : A.values m with
      | error e => rw [hval] at h; cases h
      | ok o =>
        rw [hval] at h
        cases o with
        | none => cases h; cases hv
        | some v => exact .inr ⟨m, v, h8.rowsEq, h8.ordered hP, hval⟩
  · rw [h1] at h
    cases h

/-- **C57.** Sparse QR: if `Compute` returns true, then for every requested pair, and every pair
with a fixed block, `GetCovarianceBlock` returns its block of the inverse of `J'J`, lifted by the
Jacobians of the manifolds if asked for. -/
theorem sparseQR_blocks (hP : P.WellFormed) {J : Jac K} (hJ : J.numCols = P.numColumns)
    {factorize : Jac K → Option (Factor K)}
    (hf : ∀ F, factorize J = some F → J.numCols ≤ F.rank → F.Of J) {order : List ℕ}
    (ho : ∀ r, r ∈ order ↔ r < J.numCols) {pairs : List (ℕ × ℕ)} {st : State K}
    (h : compute P (sparseQR (some J) factorize order) pairs = .ok st) (hv : st.valid = true)
    (hreq : ∃ p q, P.Varies p ∧ P.Varies q ∧ Requested pairs p q) :
    ∃ C, IsInverse P.numColumns J.gram C ∧
      ∀ p q, Available P pairs p q → ∀ lift buf, ∃ out,
        getBlock P st p q lift buf = .ok (true, out) ∧
        (∀ i < P.extent lift p, ∀ j < P.extent lift q,
          out (i * P.extent lift q + j) = P.expected C lift p q i j) ∧
        ∀ x, P.extent lift p * P.extent lift q ≤ x → out x = buf x := by
  have hdim : dim P = P.numColumns := dim_eq
  rcases compute_values hP.nodup h hv with ⟨hn, hall⟩ | ⟨m, v, hm, hord, hval⟩
  · exfalso
    obtain ⟨p, q, hp, hq, hr⟩ := hreq
    rcases (hall fun _ _ => 0).matrix with ⟨-, hno⟩ | ⟨m, _, hm, -⟩
    · exact hno p (varies_iff.1 hp) q (varies_iff.1 hq) hr
    · rw [hn] at hm
      cases hm
  · obtain ⟨f, h1, h2, h3⟩ := sparseQR_computes hf ho (by omega) hord hval
    rw [hJ] at h1 h2 h3
    have hh := compute_holds hP.nodup (by rw [hdim]; exact h3) h hv
    refine ⟨f, h1, fun p q ha lift buf => ⟨_, getBlock_available hP h2 hh ha lift buf, ?_, ?_⟩⟩
    · intro i hi j hj
      exact writeMat_get hi hj
    · intro x hx
      unfold writeMat
      rw [if_neg (by omega)]

/-- **C57.** The Boolean of `Evaluate` is ignored.  If the Jacobian cannot be evaluated, the sparse
QR algorithms factorise the matrix without rows and columns, `Compute` returns true and all
covariances read as zero. -/
theorem sparseQR_ignores_failure {factorize : Jac K → Option (Factor K)} {F : Factor K}
    (hF : factorize (evaluated none) = some F) {m : Csr} :
    (sparseQR none factorize []).values m = .ok (some fun _ => 0) := by
  unfold sparseQR
  simp only [hF]
  rw [if_neg (by simp [evaluated])]
  rfl

end

/-! ### Dense SVD -/

/-- What Eigen's `BDCSVD` promises: `J'J = V S² V'` with orthonormal columns in `V` and the
singular values in decreasing order. -/
structure Svd.Of (S : Svd) (J : Jac ℝ) : Prop where
  num : S.num = min J.numRows J.numCols
  nonneg : ∀ i < S.num, 0 ≤ S.sigma i
  antitone : ∀ i < S.num, ∀ j < i, S.sigma i ≤ S.sigma j
  orthonormal : ∀ i < S.num, ∀ j < S.num,
    ∑ r ∈ Finset.range J.numCols, S.V r i * S.V r j = if i = j then 1 else 0
  gram : ∀ i < J.numCols, ∀ j < J.numCols,
    J.gram i j = ∑ k ∈ Finset.range S.num, S.V i k * (S.sigma k * S.sigma k) * S.V j k

/-- `V D V'` with the first `r` entries of the diagonal `d`. -/
noncomputable def Svd.part (S : Svd) (r : ℕ) (d : ℕ → ℝ) (i j : ℕ) : ℝ :=
  ∑ k ∈ Finset.range r, S.V i k * d k * S.V j k

/-- A singular value is large enough. -/
def Svd.Large (S : Svd) (o : SvdOpts) (i : ℕ) : Prop :=
  Real.sqrt o.minReciprocal ≤ S.sigma i / S.sigma 0

theorem truncate_range' (o : SvdOpts) (S : Svd) (h0 : S.sigma 0 ≠ 0) (len s : ℕ) (inv : ℕ → ℝ) :
    (∀ inv', truncate o S (List.range' s len) inv = .kept inv' →
      ∃ r, s ≤ r ∧ r ≤ s + len ∧ (∀ i, s ≤ i → i < r → S.Large o i ∧ S.sigma i ≠ 0) ∧
        (r < s + len → o.nullSpaceRank < 0 ∧ ¬S.Large o r) ∧
        ∀ i, inv' i = if s ≤ i ∧ i < r then 1 / (S.sigma i * S.sigma i) else inv i) ∧
    (truncate o S (List.range' s len) inv = .refused →
      0 ≤ o.nullSpaceRank ∧ ∃ i, s ≤ i ∧ i < s + len ∧ ¬S.Large o i) := by
  induction len generalizing s inv with
  | zero =>
    refine ⟨fun inv' h => ⟨s, le_rfl, le_rfl, fun i h1 h2 => by omega, fun h => by omega,
      fun i => ?_⟩, fun h => by cases h⟩
    cases h
    rw [if_neg (by omega)]
  | succ len ih =>
    rw [List.range'_succ, truncate]
    by_cases hl : S.sigma s / S.sigma 0 < Real.sqrt o.minReciprocal
    · rw [if_pos ⟨h0, hl⟩]
      have hL : ¬S.Large o s := not_le.2 hl
      by_cases hn : o.nullSpaceRank < 0
      · rw [if_pos hn]
        refine ⟨fun inv' h => ⟨s, le_rfl, by omega, fun i h1 h2 => by omega, fun _ => ⟨hn, hL⟩,
          fun i => ?_⟩, fun h => by cases h⟩
        cases h
        rw [if_neg (by omega)]
      · rw [if_neg hn]
        exact ⟨fun inv' h => (by cases h), fun _ => ⟨by omega, s, le_rfl, by omega, hL⟩⟩
    · rw [if_neg fun h => hl h.2]
      by_cases hz : S.sigma s * S.sigma s = 0
      · rw [if_pos hz]
        exact ⟨fun inv' h => (by cases h), fun h => by cases h⟩
      · rw [if_neg hz]
        obtain ⟨i1, i2⟩ := ih (s + 1) (Function.update inv s (1 / (S.sigma s * S.sigma s)))
        refine ⟨fun inv' h => ?_, fun h => ?_⟩
        · obtain ⟨r, r1, r2, r3, r4, r5⟩ := i1 inv' h
          refine ⟨r, by omega, by omega, fun i h1 h2 => ?_, fun h => r4 (by omega), fun i => ?_⟩
          · rcases Nat.eq_or_lt_of_le h1 with rfl | h1
            · exact ⟨not_lt.1 hl, fun h => hz (by rw [h, mul_zero])⟩
            · exact r3 i h1 h2
          · rw [r5 i]
            by_cases hi : i = s
            · subst hi
              rw [if_neg (by omega), if_pos ⟨le_rfl, by omega⟩, Function.update_self]
            · rw [Function.update_of_ne hi]
              by_cases hc : s + 1 ≤ i ∧ i < r
              · rw [if_pos hc, if_pos ⟨by omega, hc.2⟩]
              · rw [if_neg hc, if_neg (by omega)]
        · obtain ⟨h1, i, h2, h3, h4⟩ := i2 h
          exact ⟨h1, i, by omega, by omega, h4⟩

/-- `f` is the Moore-Penrose inverse of `g`. -/
structure IsPseudoInverse (n : ℕ) (g f : ℕ → ℕ → ℝ) : Prop where
  gfg : ∀ i < n, ∀ j < n,
    ∑ k ∈ Finset.range n, (∑ l ∈ Finset.range n, g i l * f l k) * g k j = g i j
  fgf : ∀ i < n, ∀ j < n,
    ∑ k ∈ Finset.range n, (∑ l ∈ Finset.range n, f i l * g l k) * f k j = f i j
  gf : ∀ i < n, ∀ j < n,
    ∑ k ∈ Finset.range n, g i k * f k j = ∑ k ∈ Finset.range n, g j k * f k i
  fg : ∀ i < n, ∀ j < n,
    ∑ k ∈ Finset.range n, f i k * g k j = ∑ k ∈ Finset.range n, f j k * g k i

theorem part_mul {S : Svd} {J : Jac ℝ} (h : S.Of J) {r : ℕ} (hr : r ≤ S.num) (d e : ℕ → ℝ)
    (i j : ℕ) :
    ∑ k ∈ Finset.range J.numCols, S.part r d i k * S.part r e k j
      = S.part r (fun k => d k * e k) i j := by
  unfold Svd.part
  have : ∀ k ∈ Finset.range J.numCols,
      (∑ a ∈ Finset.range r, S.V i a * d a * S.V k a) *
        (∑ b ∈ Finset.range r, S.V k b * e b * S.V j b) =
      ∑ a ∈ Finset.range r, ∑ b ∈ Finset.range r,
        S.V i a * d a * e b * S.V j b * (S.V k a * S.V k b) := by
    intro k _
    rw [Finset.sum_mul_sum]
    refine Finset.sum_congr rfl fun a _ => Finset.sum_congr rfl fun b _ => ?_
    ring
  rw [Finset.sum_congr rfl this, Finset.sum_comm]
  refine Finset.sum_congr rfl fun a ha => ?_
  rw [Finset.sum_comm]
  have hb : ∀ b ∈ Finset.range r, ∑ k ∈ Finset.range J.numCols,
      S.V i a * d a * e b * S.V j b * (S.V k a * S.V k b) =
      if a = b then S.V i a * d a * e b * S.V j b else 0 := by
    intro b hb
    rw [← Finset.mul_sum, h.orthonormal a (by have := Finset.mem_range.1 ha; omega) b
      (by have := Finset.mem_range.1 hb; omega)]
    split <;> simp
  rw [Finset.sum_congr rfl hb, Finset.sum_ite_eq, if_pos ha]
  ring

theorem part_symm (S : Svd) (r : ℕ) (d : ℕ → ℝ) (i j : ℕ) : S.part r d i j = S.part r d j i :=
  Finset.sum_congr rfl fun k _ => by ring

theorem part_congr (S : Svd) {r : ℕ} {d e : ℕ → ℝ} (h : ∀ k < r, d k = e k) (i j : ℕ) :
    S.part r d i j = S.part r e i j :=
  Finset.sum_congr rfl fun k hk => by rw [h k (Finset.mem_range.1 hk)]

theorem part_pseudoInverse {S : Svd} {J : Jac ℝ} (h : S.Of J) {r : ℕ} (hr : r ≤ S.num)
    (hpos : ∀ i < r, S.sigma i ≠ 0) :
    IsPseudoInverse J.numCols (S.part r fun k => S.sigma k * S.sigma k)
      (S.part r fun k => 1 / (S.sigma k * S.sigma k)) := by
  have e1 : ∀ k < r, S.sigma k * S.sigma k * (1 / (S.sigma k * S.sigma k)) = 1 := by
    intro k hk
    have := hpos k hk
    field_simp
  refine ⟨fun i hi j hj => ?_, fun i hi j hj => ?_, fun i hi j hj => ?_, fun i hi j hj => ?_⟩
  · simp only [part_mul h hr]
    refine part_congr S (fun k hk => ?_) i j
    rw [e1 k hk, one_mul]
  · simp only [part_mul h hr]
    refine part_congr S (fun k hk => ?_) i j
    rw [mul_comm (1 / _), e1 k hk, one_mul]
  · simp only [part_mul h hr]
    exact part_symm S r _ i j
  · simp only [part_mul h hr]
    exact part_symm S r _ i j

/-- **C57.** Dense SVD: if the algorithm succeeds on a Jacobian that is not zero, then the values
are the entries of the Moore-Penrose inverse of what is left of `J'J` when only its first `r`
singular values are kept.  With `null_space_rank` not negative `r` is the number of singular values
minus it and all of them are large enough; otherwise `r` is the number of leading singular values
that are large enough. -/
theorem denseSVD_computes {o : SvdOpts} {J : Jac ℝ} {svd : Jac ℝ → Svd} (hS : (svd J).Of J)
    (h0 : (svd J).sigma 0 ≠ 0) {m : Csr} {v : ℕ → ℝ}
    (hv : (denseSVD o (some J) svd).values m = .ok (some v)) :
    ∃ r, r ≤ (svd J).num ∧
      (∀ i < r, (svd J).Large o i ∧ (svd J).sigma i ≠ 0) ∧
      (0 ≤ o.nullSpaceRank → (r : ℤ) = max 0 ((svd J).num - o.nullSpaceRank)) ∧
      (o.nullSpaceRank < 0 → r < (svd J).num → ¬(svd J).Large o r) ∧
      IsPseudoInverse J.numCols ((svd J).part r fun k => (svd J).sigma k * (svd J).sigma k)
        ((svd J).part r fun k => 1 / ((svd J).sigma k * (svd J).sigma k)) ∧
      (denseSVD o (some J) svd).Computes J.numCols
        ((svd J).part r fun k => 1 / ((svd J).sigma k * (svd J).sigma k)) := by
  have hv' := hv
  unfold denseSVD evaluated at hv'
  simp only [Option.getD_some] at hv'
  set S := svd J with hSdef
  split at hv'
  · cases hv'
  next hnum =>
  cases ht : truncate o S (List.range (maxRank o S).toNat) fun _ => 0 with
  | refused => rw [ht] at hv'; cases hv'
  | notFinite => rw [ht] at hv'; cases hv'
  | kept inv =>
    have ht' := ht
    rw [List.range_eq_range'] at ht'
    obtain ⟨r, -, r2, r3, r4, r5⟩ := (truncate_range' o S h0 _ 0 _).1 inv ht'
    simp only [Nat.zero_add, Nat.zero_le, true_and, true_implies] at r2 r3 r4 r5
    have hmr : (maxRank o S).toNat ≤ S.num := by
      unfold maxRank
      omega
    refine ⟨r, by omega, r3, fun h => ?_, fun h hlt => ?_, ?_, fun m' v' hm' hord' hv'' s hs i hi1
      hi2 => ?_⟩
    · have : r = (maxRank o S).toNat := by
        by_contra hne
        have := (r4 (by omega)).1
        omega
      rw [this]
      unfold maxRank
      omega
    · have : (maxRank o S).toNat = S.num := by
        unfold maxRank
        omega
      exact (r4 (by omega)).2
    · exact part_pseudoInverse hS (by omega) fun i hi => (r3 i hi).2
    · unfold denseSVD evaluated at hv''
      simp only [Option.getD_some, ← hSdef, if_neg hnum, ht] at hv''
      cases hv''
      rw [copyRows_get hord' (fun s => List.mem_range) (by omega) hi1 hi2]
      unfold denseCovariance Svd.part
      rw [← Finset.sum_subset (Finset.range_subset_range.2 (show r ≤ S.num by omega))]
      · refine Finset.sum_congr rfl fun k hk => ?_
        rw [r5 k, if_pos (Finset.mem_range.1 hk)]
      · intro k _ hk
        rw [r5 k, if_neg (by simpa using hk), mul_zero, zero_mul]

/-- **C57.** With `null_space_rank = 0` and no fewer residuals than columns the result is the
inverse of `J'J`. -/
theorem denseSVD_inverse {o : SvdOpts} (ho : o.nullSpaceRank = 0) {J : Jac ℝ} {svd : Jac ℝ → Svd}
    (hS : (svd J).Of J) (h0 : (svd J).sigma 0 ≠ 0) (hrows : J.numCols ≤ J.numRows) {m : Csr}
    {v : ℕ → ℝ} (hv : (denseSVD o (some J) svd).values m = .ok (some v)) :
    ∃ f, IsInverse J.numCols J.gram f ∧ Symmetric J.numCols f ∧
      (denseSVD o (some J) svd).Computes J.numCols f := by
  obtain ⟨r, r1, r2, r3, -, -, r6⟩ := denseSVD_computes hS h0 hv
  have hnum : (svd J).num = J.numCols := by rw [hS.num, min_eq_right hrows]
  have hr : r = J.numCols := by
    have := r3 (by omega)
    omega
  set S := svd J with hSdef
  refine ⟨_, ?_, fun i _ j _ => part_symm S r _ i j, r6⟩
  have hone : ∀ i < J.numCols, ∀ j < J.numCols, S.part r (fun _ => 1) i j =
      if i = j then 1 else 0 := by
    let W : Matrix (Fin J.numCols) (Fin J.numCols) ℝ := Matrix.of fun a b => S.V a b
    have hW : W.transpose * W = 1 := by
      ext a b
      rw [Matrix.mul_apply, Matrix.one_apply]
      have := hS.orthonormal a (by have := a.2; omega) b (by have := b.2; omega)
      rw [Finset.sum_range] at this
      simp only [W, Matrix.of_apply, Matrix.transpose_apply]
      rw [this]
      simp only [Fin.ext_iff]
    have hW' : W * W.transpose = 1 := mul_eq_one_comm.1 hW
    intro i hi j hj
    have := congrFun (congrFun hW' ⟨i, hi⟩) ⟨j, hj⟩
    rw [Matrix.mul_apply, Matrix.one_apply] at this
    unfold Svd.part
    rw [hr, Finset.sum_range]
    simpa [W, Fin.ext_iff] using this
  have hg : ∀ i < J.numCols, ∀ j < J.numCols,
      J.gram i j = S.part r (fun k => S.sigma k * S.sigma k) i j := by
    intro i hi j hj
    rw [hS.gram i hi j hj, hr, ← hnum]
    rfl
  have e1 : ∀ k < r, S.sigma k * S.sigma k * (1 / (S.sigma k * S.sigma k)) = 1 := by
    intro k hk
    have := (r2 k hk).2
    field_simp
  constructor
  · intro i hi j hj
    rw [Finset.sum_congr rfl fun k hk => by rw [hg i hi k (Finset.mem_range.1 hk)],
      part_mul hS r1, part_congr S (e := fun _ => 1) (fun k hk => e1 k hk), hone i hi j hj]
  · intro i hi j hj
    rw [Finset.sum_congr rfl fun k hk => by rw [hg k (Finset.mem_range.1 hk) j hj],
      part_mul hS r1, part_congr S (e := fun _ => 1) (fun k hk => by rw [mul_comm]; exact e1 k hk),
      hone i hi j hj]

/-- **C57.** Dense SVD with `null_space_rank = 0` and no fewer residuals than columns: if `Compute`
returns true, the blocks are those of the inverse of `J'J`. -/
theorem denseSVD_blocks {P : Prob ℝ} (hP : P.WellFormed) {o : SvdOpts} (ho : o.nullSpaceRank = 0)
    {J : Jac ℝ} (hJ : J.numCols = P.numColumns) (hrows : J.numCols ≤ J.numRows)
    {svd : Jac ℝ → Svd} (hS : (svd J).Of J) (h0 : (svd J).sigma 0 ≠ 0) {pairs : List (ℕ × ℕ)}
    {st : State ℝ} (h : compute P (denseSVD o (some J) svd) pairs = .ok st) (hv : st.valid = true)
    (hreq : ∃ p q, P.Varies p ∧ P.Varies q ∧ Requested pairs p q) :
    ∃ C, IsInverse P.numColumns J.gram C ∧
      ∀ p q, Available P pairs p q → ∀ lift buf, ∃ out,
        getBlock P st p q lift buf = .ok (true, out) ∧
        (∀ i < P.extent lift p, ∀ j < P.extent lift q,
          out (i * P.extent lift q + j) = P.expected C lift p q i j) ∧
        ∀ x, P.extent lift p * P.extent lift q ≤ x → out x = buf x := by
  have hdim : dim P = P.numColumns := dim_eq
  rcases compute_values hP.nodup h hv with ⟨hn, hall⟩ | ⟨m, v, hm, hord, hval⟩
  · exfalso
    obtain ⟨p, q, hp, hq, hr⟩ := hreq
    rcases (hall fun _ _ => 0).matrix with ⟨-, hno⟩ | ⟨m, _, hm, -⟩
    · exact hno p (varies_iff.1 hp) q (varies_iff.1 hq) hr
    · rw [hn] at hm
      cases hm
  · obtain ⟨f, h1, h2, h3⟩ := denseSVD_inverse ho hS h0 hrows hval
    rw [hJ] at h1 h2 h3
    have hh := compute_holds hP.nodup (by rw [hdim]; exact h3) h hv
    refine ⟨f, h1, fun p q ha lift buf => ⟨_, getBlock_available hP h2 hh ha lift buf, ?_, ?_⟩⟩
    · intro i hi j hj
      exact writeMat_get hi hj
    · intro x hx
      unfold writeMat
      rw [if_neg (by omega)]

/-- A matrix with fewer rows than columns: `J'J` has no inverse. -/
theorem gram_singular {J : Jac ℝ} (h : J.numRows < J.numCols) (f : ℕ → ℕ → ℝ) :
    ¬IsInverse J.numCols J.gram f := by
  rintro ⟨h1, -⟩
  let A : Matrix (Fin J.numRows) (Fin J.numCols) ℝ := Matrix.of fun i j => J.entry i j
  let F : Matrix (Fin J.numCols) (Fin J.numCols) ℝ := Matrix.of fun i j => f i j
  have hG : A.transpose * A * F = 1 := by
    ext i j
    rw [Matrix.mul_apply, Matrix.one_apply]
    have := h1 i i.2 j j.2
    rw [Finset.sum_range] at this
    simp only [Fin.ext_iff]
    rw [← this]
    refine Finset.sum_congr rfl fun k _ => ?_
    simp only [F, A, Matrix.mul_apply, Matrix.transpose_apply, Matrix.of_apply, Jac.gram,
      Finset.sum_range]
  rw [Matrix.mul_assoc] at hG
  have hr := congrArg Matrix.rank hG
  rw [Matrix.rank_one, Fintype.card_fin] at hr
  have h2 := Matrix.rank_mul_le_right A.transpose (A * F)
  have h3 := Matrix.rank_le_height (A * F)
  omega

/-- The algorithm succeeds if all singular values are large enough. -/
theorem denseSVD_succeeds {o : SvdOpts} (ho : o.nullSpaceRank = 0) {J : Jac ℝ} {svd : Jac ℝ → Svd}
    (hn : (svd J).num ≠ 0) (hL : ∀ i < (svd J).num, (svd J).Large o i ∧ (svd J).sigma i ≠ 0)
    (m : Csr) : ∃ v, (denseSVD o (some J) svd).values m = .ok (some v) := by
  unfold denseSVD evaluated
  simp only [Option.getD_some]
  set S := svd J with hSdef
  rw [if_neg hn]
  have hmr : (maxRank o S).toNat = S.num := by
    unfold maxRank
    omega
  have key : ∀ (l : List ℕ) (inv : ℕ → ℝ), (∀ i ∈ l, i < S.num) →
      ∃ inv', truncate o S l inv = .kept inv' := by
    intro l
    induction l with
    | nil => intro inv _; exact ⟨inv, rfl⟩
    | cons i is ih =>
      intro inv hi
      rw [List.forall_mem_cons] at hi
      obtain ⟨h1, h2⟩ := hL i hi.1
      rw [truncate, if_neg fun h => absurd h.2 (not_lt.2 h1), if_neg (mul_ne_zero h2 h2)]
      exact ih _ hi.2
  obtain ⟨inv, hinv⟩ := key (List.range (maxRank o S).toNat) (fun _ => 0) fun i hi => by
    rw [hmr] at hi
    exact List.mem_range.1 hi
  rw [hinv]
  exact ⟨_, rfl⟩

/-- **C57.** With fewer residuals than columns `J'J` has no inverse, yet with
`null_space_rank = 0` the algorithm reports success whenever the singular values the thin
decomposition has are large enough. -/
theorem denseSVD_accepts_underdetermined {o : SvdOpts} (ho : o.nullSpaceRank = 0) {J : Jac ℝ}
    (hlt : J.numRows < J.numCols) (hpos : 0 < J.numRows) {svd : Jac ℝ → Svd} (hS : (svd J).Of J)
    (hL : ∀ i < (svd J).num, (svd J).Large o i ∧ (svd J).sigma i ≠ 0) (m : Csr) :
    (¬∃ f, IsInverse J.numCols J.gram f) ∧
      ∃ v, (denseSVD o (some J) svd).values m = .ok (some v) := by
  refine ⟨fun ⟨f, hf⟩ => gram_singular hlt f hf, denseSVD_succeeds ho ?_ hL m⟩
  rw [hS.num, min_eq_left hlt.le]
  omega

/-- **C57.** With `null_space_rank = 0` a singular value that is too small makes the algorithm
fail. -/
theorem denseSVD_refuses {o : SvdOpts} (ho : o.nullSpaceRank = 0) {J : Jac ℝ} {svd : Jac ℝ → Svd}
    (hS : (svd J).Of J) (h0 : (svd J).sigma 0 ≠ 0)
    (hbad : ∃ i < (svd J).num, ¬(svd J).Large o i) (m : Csr) :
    ¬∃ v, (denseSVD o (some J) svd).values m = .ok (some v) := by
  rintro ⟨v, hv⟩
  obtain ⟨r, -, r2, r3, -⟩ := denseSVD_computes hS h0 hv
  obtain ⟨i, hi, hl⟩ := hbad
  have := r3 (by omega)
  exact hl (r2 i (by omega)).1

/-- **C57.** A Jacobian whose singular values all vanish is not refused: the algorithm divides by
zero (unless `null_space_rank` leaves nothing to invert). -/
theorem denseSVD_zero {o : SvdOpts} {J : Jac ℝ} {svd : Jac ℝ → Svd} (hn : (svd J).num ≠ 0)
    (h0 : (svd J).sigma 0 = 0) (hr : 0 < maxRank o (svd J)) (m : Csr) :
    (denseSVD o (some J) svd).values m = .error .notFinite := by
  unfold denseSVD evaluated
  simp only [Option.getD_some]
  rw [if_neg hn]
  obtain ⟨k, hk⟩ : ∃ k, (maxRank o (svd J)).toNat = k + 1 := ⟨(maxRank o (svd J)).toNat - 1, by omega⟩
  rw [hk, List.range_succ_eq_map, truncate, if_neg fun h => h.1 h0, if_pos (by rw [h0, mul_zero])]

/-- **C57.** A Jacobian that cannot be evaluated: the first entry of an empty vector is read. -/
theorem denseSVD_failure {o : SvdOpts} {svd : Jac ℝ → Svd}
    (hS : (svd (evaluated none)).Of (evaluated none)) (m : Csr) :
    (denseSVD o none svd).values m = .error .empty := by
  unfold denseSVD
  simp only []
  rw [if_pos (by rw [hS.num]; rfl)]

end Ceres.Cov
