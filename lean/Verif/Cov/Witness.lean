import Verif.Cov.Values

/-! # When `Compute` aborts, and concrete cases -/

namespace Ceres.Cov

section
variable {K : Type} {P : Prob K}

/-- `Compute` can look a pair up: both blocks belong to the problem, or one of them is a block of
the problem that does not vary. -/
def Prob.CanRequest (P : Prob K) (q : ℕ × ℕ) : Prop :=
  (q.1 ∈ P.ptrs ∧ ¬P.Varies q.1) ∨ (q.2 ∈ P.ptrs ∧ ¬P.Varies q.2) ∨ (P.Varies q.1 ∧ P.Varies q.2)

theorem known_iff {q : ℕ × ℕ} : Known P q ↔ P.CanRequest q := by
  have h : ∀ p, p ∈ P.constants ↔ p ∈ P.ptrs ∧ ¬P.Varies p := by
    intro p
    rw [mem_constants, varies_iff, mem_active]
    constructor
    · rintro ⟨h1, h2⟩
      exact ⟨h1, fun h => by rw [h2] at h; exact absurd h.2 (by simp)⟩
    · rintro ⟨h1, h2⟩
      refine ⟨h1, ?_⟩
      by_contra hc
      exact h2 ⟨h1, by simpa using hc⟩
  unfold Known Prob.CanRequest
  rw [h, h, varies_iff, varies_iff, or_assoc]

/-- **C57.** `Compute` aborts for a pair named twice and for a block it does not know; otherwise
its result is that of the algorithm. -/
theorem compute_outcome [Zero K] (hP : P.ptrs.Nodup) (A : Algorithm K) (pairs : List (ℕ × ℕ)) :
    (¬pairs.Nodup → compute P A pairs = .error .duplicates) ∧
    (pairs.Nodup → (∃ q ∈ pairs, ¬P.CanRequest q) → compute P A pairs = .error .unknownBlock) ∧
    (pairs.Nodup → (∀ q ∈ pairs, P.CanRequest q) → A.supported = true →
      (∀ m, ∃ v, A.values m = .ok (some v)) → ∃ st, compute P A pairs = .ok st ∧ st.valid = true) ∧
    (pairs.Nodup → (∀ q ∈ pairs, P.CanRequest q) → A.supported = false →
      ∃ st, compute P A pairs = .ok st ∧ st.valid = false) := by
  unfold compute
  refine ⟨fun h => by rw [if_pos h], fun h hq => ?_, fun h hq hs hv => ?_, fun h hq hs => ?_⟩
  · rw [if_neg (not_not.2 h)]
    rcases sparsity_ok hP pairs with ⟨s, -, h2, -⟩ | ⟨h1, -⟩
    · obtain ⟨q, hq, hn⟩ := hq
      exact absurd (known_iff.1 (h2 q hq)) hn
    · rw [h1]
      rfl
  · rw [if_neg (not_not.2 h)]
    rcases sparsity_ok hP pairs with ⟨s, h1, -⟩ | ⟨-, h2⟩
    · rw [h1]
      simp only [bind, Except.bind, hs, Bool.not_true, Bool.false_eq_true, if_false]
      cases s.matrix with
      | none => exact ⟨_, rfl, rfl⟩
      | some m =>
        obtain ⟨v, hv⟩ := hv m
        simp only [hv]
        exact ⟨_, rfl, rfl⟩
    · exact absurd (fun q hq' => known_iff.2 (hq q hq')) h2
  · rw [if_neg (not_not.2 h)]
    rcases sparsity_ok hP pairs with ⟨s, h1, -⟩ | ⟨-, h2⟩
    · rw [h1]
      simp only [bind, Except.bind, hs, Bool.not_false, if_true]
      exact ⟨_, rfl, rfl⟩
    · exact absurd (fun q hq' => known_iff.2 (hq q hq')) h2

/-- Reading before a successful `Compute` aborts. -/
theorem getBlock_not_computed [Field K] {st : State K} (h : st.valid = false) (p q : ℕ)
    (lift : Bool) (buf : ℕ → K) : getBlock P st p q lift buf = .error .notComputed := by
  unfold getBlock
  rw [h]
  rfl

end

/-! ### A problem with a manifold, a plain block and a constant block -/

/-- Address 10: three coordinates and two tangent coordinates; 20: one coordinate; 30: constant. -/
def wProb : Prob ℚ where
  ptrs := [30, 20, 10]
  block p :=
    if p = 10 then ⟨3, 2, false, true, some fun i j => i + 2 * j⟩
    else if p = 20 then ⟨1, 1, false, true, none⟩
    else ⟨2, 2, true, true, none⟩

theorem wProb_wf : wProb.WellFormed where
  nodup := by decide
  plain := by decide

theorem wProb_active : wProb.active = [10, 20] := by decide

theorem wProb_varies {p : ℕ} : wProb.Varies p ↔ p = 10 ∨ p = 20 := by
  rw [varies_iff, wProb_active]
  simp

theorem wProb_columns : wProb.numColumns = 3 := by decide

/-- `R`, in compressed columns. -/
def wR : Sparse.Mat ℚ :=
  ⟨3, 3, fun c => if c = 0 then 0 else if c = 1 then 1 else if c = 2 then 3 else 5,
    fun i => if i = 2 ∨ i = 3 then 1 else if i = 4 then 2 else 0,
    fun i => if i = 0 then 2 else if i = 2 then 4 else 1, .unsymmetric, []⟩

/-- The Jacobian whose columns in the order 2, 0, 1 are those of `R`. -/
def wJ : Jac ℚ where
  numRows := 3
  numCols := 3
  entry r c := wR.cEntry r (if c = 2 then 0 else c + 1)

def wFactor : Factor ℚ := ⟨wR, some fun i => if i = 0 then 2 else i - 1, 3⟩

theorem wFactor_of : wFactor.Of wJ where
  upper := by refine ⟨?_, ?_, ?_, ?_⟩ <;> decide +kernel
  range := by decide +kernel
  injective := by decide +kernel
  gram := by decide +kernel

/-- The rows are computed in the order 2, 0, 1. -/
def wAlg : Algorithm ℚ := sparseQR (some wJ) (fun _ => some wFactor) [2, 0, 1]

theorem wAlg_values (m : Csr) : ∃ v, wAlg.values m = .ok (some v) := ⟨_, rfl⟩

theorem wRequest {pairs : List (ℕ × ℕ)} (hn : pairs.Nodup)
    (h : ∀ q ∈ pairs, q.1 ∈ [10, 20, 30] ∧ q.2 ∈ [10, 20, 30]) :
    ∃ st, compute wProb wAlg pairs = .ok st ∧ st.valid = true := by
  refine (compute_outcome wProb_wf.nodup wAlg pairs).2.2.1 hn (fun q hq => ?_) rfl wAlg_values
  unfold Prob.CanRequest
  rw [wProb_varies, wProb_varies]
  obtain ⟨h1, h2⟩ := h q hq
  simp only [List.mem_cons, List.not_mem_nil, or_false] at h1 h2
  simp only [wProb, List.mem_cons, List.not_mem_nil, or_false]
  omega

/-- The hypotheses of `sparseQR_blocks` are met. -/
theorem wBlocks {pairs : List (ℕ × ℕ)} {st : State ℚ} (h : compute wProb wAlg pairs = .ok st)
    (hv : st.valid = true) (hr : ∃ p q, wProb.Varies p ∧ wProb.Varies q ∧ Requested pairs p q) :
    ∃ C, IsInverse 3 wJ.gram C ∧ ∀ p q, Available wProb pairs p q → ∀ lift buf, ∃ out,
      getBlock wProb st p q lift buf = .ok (true, out) ∧
      (∀ i < wProb.extent lift p, ∀ j < wProb.extent lift q,
        out (i * wProb.extent lift q + j) = wProb.expected C lift p q i j) ∧
      ∀ x, wProb.extent lift p * wProb.extent lift q ≤ x → out x = buf x := by
  have := sparseQR_blocks (P := wProb) (J := wJ) (factorize := fun _ => some wFactor)
    (order := [2, 0, 1]) wProb_wf (by rw [wProb_columns]; rfl)
    (fun F hF _ => by cases hF; exact wFactor_of) (fun r => by
      simp only [List.mem_cons, List.not_mem_nil, or_false, wJ]
      omega) h hv hr
  rwa [wProb_columns] at this

example : ∃ st, compute wProb wAlg [(20, 10), (30, 10)] = .ok st ∧ st.valid = true ∧
    ∃ p q, wProb.Varies p ∧ wProb.Varies q ∧ Requested [(20, 10), (30, 10)] p q := by
  obtain ⟨st, h1, h2⟩ := wRequest (pairs := [(20, 10), (30, 10)]) (by decide) (by decide)
  exact ⟨st, h1, h2, 10, 20, wProb_varies.2 (.inl rfl), wProb_varies.2 (.inr rfl), .inr (by simp)⟩

/-- What the model computes for that request: the entries of the inverse of `J'J`. -/
example : (compute wProb wAlg [(20, 10), (30, 10)]).toOption.map
      (fun st => (st.valid, (getBlock wProb st 20 10 false fun _ => 7).toOption.map
        fun r => (r.1, [r.2 0, r.2 1, r.2 2]))) =
    some (true, some (true, [-1 / 16, 1 / 8, 7])) := by
  decide +kernel

/-- Lifted into the ambient space. -/
example : (compute wProb wAlg [(20, 10), (30, 10)]).toOption.map
      (fun st => (getBlock wProb st 20 10 true fun _ => 7).toOption.map
        fun r => (r.1, [r.2 0, r.2 1, r.2 2, r.2 3])) =
    some (some (true, [1 / 4, 5 / 16, 3 / 8, 7])) := by
  decide +kernel

theorem wHolds {pairs : List (ℕ × ℕ)} {st : State ℚ} (h : compute wProb wAlg pairs = .ok st)
    (hv : st.valid = true) : ∃ f, Symmetric wProb.numColumns f ∧ Holds wProb pairs f st := by
  obtain ⟨v, hval⟩ := wAlg_values ⟨3, fun _ => 0, []⟩
  obtain ⟨f, -, h2, h3⟩ := sparseQR_computes (J := wJ) (factorize := fun _ => some wFactor)
    (order := [2, 0, 1]) (fun F hF _ => by cases hF; exact wFactor_of) (fun r => by
      simp only [List.mem_cons, List.not_mem_nil, or_false, wJ]
      omega) (m := ⟨3, fun _ => 0, []⟩) rfl (fun _ _ => le_rfl) hval
  refine ⟨f, by rw [wProb_columns]; exact h2, compute_holds wProb_wf.nodup ?_ h hv⟩
  rw [dim_eq, wProb_columns]
  exact h3

/-- **Found.** Only a constant block was asked for.  Asking for the covariance of two variable
blocks then follows a null pointer instead of returning false. -/
theorem null_pointer (lift : Bool) (buf : ℕ → ℚ) :
    ∃ st, compute wProb wAlg [(30, 10)] = .ok st ∧ st.valid = true ∧
      getBlock wProb st 10 20 lift buf = .error .nullMatrix := by
  obtain ⟨st, h1, h2⟩ := wRequest (pairs := [(30, 10)]) (by decide) (by decide)
  obtain ⟨f, hf, hh⟩ := wHolds h1 h2
  refine ⟨st, h1, h2, (getBlock_missing wProb_wf hh (wProb_varies.2 (.inl rfl))
    (wProb_varies.2 (.inr rfl)) (by simp [Requested]) lift buf).2.2 ?_⟩
  rintro ⟨x, y, hx, hy, hr⟩
  rw [wProb_varies] at hx hy
  simp only [Requested, List.mem_singleton, Prod.mk.injEq] at hr
  omega

/-- **Found.** The block (10, 20) was asked for.  Asking for the block (20, 20) then reads behind
the end of the array of columns. -/
theorem read_past_end (lift : Bool) (buf : ℕ → ℚ) :
    ∃ st, compute wProb wAlg [(10, 20)] = .ok st ∧ st.valid = true ∧
      getBlock wProb st 20 20 lift buf = .error .outOfBounds := by
  obtain ⟨st, h1, h2⟩ := wRequest (pairs := [(10, 20)]) (by decide) (by decide)
  obtain ⟨f, hf, hh⟩ := wHolds h1 h2
  refine ⟨st, h1, h2, (getBlock_missing wProb_wf hh (wProb_varies.2 (.inr rfl))
    (wProb_varies.2 (.inr rfl)) (by simp [Requested]) lift buf).2.1 ?_ ?_⟩
  · exact ⟨10, 20, wProb_varies.2 (.inl rfl), wProb_varies.2 (.inr rfl), .inl (by simp)⟩
  · rintro ⟨x, y, hx, hy, hxy, hr, hc⟩
    rw [wProb_varies] at hx hy
    simp only [Requested, List.mem_singleton, Prod.mk.injEq] at hr
    omega

/-- The block (20, 20) was asked for.  Asking for (10, 20) returns false and leaves the buffer. -/
theorem missing_false (lift : Bool) (buf : ℕ → ℚ) :
    ∃ st, compute wProb wAlg [(20, 20)] = .ok st ∧ st.valid = true ∧
      getBlock wProb st 10 20 lift buf = .ok (false, buf) := by
  obtain ⟨st, h1, h2⟩ := wRequest (pairs := [(20, 20)]) (by decide) (by decide)
  obtain ⟨f, hf, hh⟩ := wHolds h1 h2
  refine ⟨st, h1, h2, (getBlock_missing wProb_wf hh (wProb_varies.2 (.inl rfl))
    (wProb_varies.2 (.inr rfl)) (by simp [Requested]) lift buf).1 ?_ ?_⟩
  · exact ⟨20, 20, wProb_varies.2 (.inr rfl), wProb_varies.2 (.inr rfl), .inl (by simp)⟩
  · exact ⟨20, 20, wProb_varies.2 (.inr rfl), wProb_varies.2 (.inr rfl), le_rfl, .inl (by simp),
      .inl (by decide)⟩

/-- **Found.** A pair of a fixed block and an address that is not a parameter block is accepted by
`Compute`. -/
theorem stranger_accepted : ∃ st, compute wProb wAlg [(30, 99)] = .ok st ∧ st.valid = true ∧
    getBlock wProb st 30 99 true (fun _ => 0) = .error .unknownBlock := by
  have hc : ∀ q ∈ [((30 : ℕ), (99 : ℕ))], wProb.CanRequest q := by
    intro q hq
    rw [List.mem_singleton] at hq
    subst hq
    left
    rw [wProb_varies]
    exact ⟨by decide, by decide⟩
  obtain ⟨st, h1, h2⟩ := (compute_outcome wProb_wf.nodup wAlg [(30, 99)]).2.2.1 (by decide) hc rfl
    wAlg_values
  obtain ⟨f, hf, hh⟩ := wHolds h1 h2
  refine ⟨st, h1, h2, ?_⟩
  unfold getBlock
  rw [hh.valid, hh.constants]
  have h30 : wProb.constants = [30] := by decide
  rw [h30]
  rfl

/-- A whole matrix, by iterations in the order 2, 0, 1. -/
example : ∃ st, computeBlocks wProb wAlg [20, 10] = .ok st ∧ st.valid = true ∧
    ∃ out, getMatrix wProb st [20, 10] true (fun _ _ => 5) [2, 0, 1] (fun _ => 7) =
      .ok (true, out) := by
  obtain ⟨st, h1, h2⟩ := wRequest (pairs := allPairs [20, 10]) (allPairs_nodup (by decide))
    (by decide)
  obtain ⟨f, hf, hh⟩ := wHolds h1 h2
  refine ⟨st, ?_, h2, ?_⟩
  · unfold computeBlocks
    rw [if_neg (by decide)]
    exact h1
  · obtain ⟨out, h3, -⟩ := getMatrix_spec wProb_wf hf hh true (params := [20, 10]) (by decide)
      (fun p hp q hq => ⟨by simp [wProb] at hp ⊢; tauto, by simp [wProb] at hq ⊢; tauto,
        fun _ _ => allPairs_requested hp hq⟩) (fun _ _ => 5) (order := [2, 0, 1]) (by decide)
      (fun _ => 7)
    exact ⟨out, h3⟩

/-- **Found.** The covariance matrix of no parameter blocks: the maximum of an empty range is
read. -/
theorem getMatrix_empty {K : Type} [Field K] {P : Prob K} {st : State K} (h : st.valid = true)
    (lift : Bool) (ws : ℕ → ℕ → K) (order : List ℕ) (buf : ℕ → K) :
    getMatrix P st [] lift ws order buf = .error .empty := by
  unfold getMatrix
  rw [h]
  rfl

/-- **Found.** A request that has nothing to do with the failure: `Evaluate` fails, `Compute`
returns true and the covariance of block 20 reads as zero. -/
theorem failed_evaluation_reads_zero :
    (compute wProb (sparseQR none (fun _ => some ⟨wR, none, 0⟩) []) [(20, 20)]).toOption.map
      (fun st => (st.valid, (getBlock wProb st 20 20 true fun _ => 7).toOption.map
        fun r => (r.1, r.2 0))) =
    some (true, some (true, 0)) := by
  decide +kernel

/-! ### Dense SVD -/

/-- A tall matrix `[2 0; 0 1; 0 0]`. -/
def wTall : Jac ℝ := ⟨3, 2, fun i j => if i = 0 ∧ j = 0 then 2 else if i = 1 ∧ j = 1 then 1 else 0⟩

noncomputable def wSvd : Svd := ⟨2, fun i => if i = 0 then 2 else 1, fun i j => if i = j then 1 else 0⟩

theorem wSvd_of : wSvd.Of wTall where
  num := rfl
  nonneg := by
    intro i _
    simp only [wSvd]
    split <;> norm_num
  antitone := by
    intro i hi j hj
    have hi : i < 2 := hi
    have h0 : j = 0 := by omega
    have h1 : i = 1 := by omega
    subst h0
    subst h1
    norm_num [wSvd]
  orthonormal := by
    intro i hi j hj
    have hi : i < 2 := hi
    have hj : j < 2 := hj
    interval_cases i <;> interval_cases j <;> norm_num [wSvd, wTall, Finset.sum_range_succ]
  gram := by
    intro i hi j hj
    have hi : i < 2 := hi
    have hj : j < 2 := hj
    interval_cases i <;> interval_cases j <;>
      norm_num [wSvd, wTall, Jac.gram, Finset.sum_range_succ]

def wOpts : SvdOpts := ⟨0, 0⟩

/-- The algorithm succeeds on it, and the result is the inverse. -/
example (m : Csr) : ∃ v, (denseSVD wOpts (some wTall) fun _ => wSvd).values m = .ok (some v) ∧
    ∃ f, IsInverse 2 wTall.gram f ∧ Symmetric 2 f ∧
      (denseSVD wOpts (some wTall) fun _ => wSvd).Computes 2 f := by
  have hv := denseSVD_succeeds (o := wOpts) rfl (J := wTall) (svd := fun _ => wSvd) (by decide)
    (fun i hi => ⟨?_, ?_⟩) m
  · obtain ⟨v, hv⟩ := hv
    exact ⟨v, hv, denseSVD_inverse (svd := fun _ => wSvd) rfl wSvd_of (by norm_num [wSvd])
      (by decide) hv⟩
  · simp only [Svd.Large, wOpts, wSvd, Real.sqrt_zero]
    split <;> norm_num
  · simp only [wSvd]
    split <;> norm_num

/-- One residual, two columns: `[1 0]`. -/
def wWide : Jac ℝ := ⟨1, 2, fun _ j => if j = 0 then 1 else 0⟩

def wWideSvd : Svd := ⟨1, fun _ => 1, fun i _ => if i = 0 then 1 else 0⟩

theorem wWideSvd_of : wWideSvd.Of wWide where
  num := rfl
  nonneg := fun _ _ => zero_le_one
  antitone := fun _ _ _ _ => le_rfl
  orthonormal := by
    intro i hi j hj
    have hi : i < 1 := hi
    have hj : j < 1 := hj
    interval_cases i
    interval_cases j
    norm_num [wWideSvd, wWide, Finset.sum_range_succ]
  gram := by
    intro i hi j hj
    have hi : i < 2 := hi
    have hj : j < 2 := hj
    interval_cases i <;> interval_cases j <;>
      norm_num [wWideSvd, wWide, Jac.gram, Finset.sum_range_succ]

/-- **Found.** `J'J` is singular, the user asked for no pseudo-inverse, and the algorithm reports
success. -/
theorem underdetermined_accepted (m : Csr) :
    (¬∃ f, IsInverse 2 wWide.gram f) ∧
      ∃ v, (denseSVD wOpts (some wWide) fun _ => wWideSvd).values m = .ok (some v) :=
  denseSVD_accepts_underdetermined (svd := fun _ => wWideSvd) rfl (by decide) (by decide)
    wWideSvd_of
    (fun i _ => ⟨by norm_num [Svd.Large, wOpts, wWideSvd], by norm_num [wWideSvd]⟩) m

/-- **Found.** A Jacobian that is zero is not refused but divided by. -/
theorem zero_jacobian (m : Csr) :
    (denseSVD wOpts (some ⟨2, 2, fun _ _ => 0⟩) fun _ => ⟨2, fun _ => 0, wSvd.V⟩).values m =
      .error .notFinite :=
  denseSVD_zero (svd := fun _ => ⟨2, fun _ => 0, wSvd.V⟩) (by decide) rfl (by decide) m

end Ceres.Cov
