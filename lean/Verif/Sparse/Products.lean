import Verif.Sparse.Spec

/-!
# Products, column norms, scaling (C34)
-/
namespace Ceres.Sparse

variable {K : Type}

/-- The symmetric matrix that one stored triangle stands for. -/
def Mat.sym [AddMonoid K] (M : Mat K) (r c : ℕ) : K :=
  match M.storage with
  | .unsymmetric => M.entry r c
  | .upper => if r ≤ c then M.entry r c else M.entry c r
  | .lower => if c ≤ r then M.entry r c else M.entry c r

theorem dropWhile_eq_filter {α : Type} (f : α → ℕ) (r : ℕ) (l : List α)
    (h : l.Pairwise fun a b => f a ≤ f b) :
    (l.dropWhile fun i => decide (r > f i)) = l.filter fun i => decide (r ≤ f i) := by
  induction l with
  | nil => rfl
  | cons a l ih =>
    rw [List.pairwise_cons] at h
    by_cases ha : r > f a
    · rw [List.dropWhile_cons_of_pos (by simpa using ha), ih h.2,
        List.filter_cons_of_neg (by simpa using ha)]
    · rw [List.dropWhile_cons_of_neg (by simpa using ha)]
      symm
      rw [List.filter_eq_self]
      intro b hb
      rcases List.mem_cons.mp hb with rfl | hb
      · simpa using ha
      · have := h.1 b hb
        simp only [decide_eq_true_eq]; omega

theorem takeWhile_eq_filter {α : Type} (f : α → ℕ) (r : ℕ) (l : List α)
    (h : l.Pairwise fun a b => f a ≤ f b) :
    (l.takeWhile fun i => decide (r ≥ f i)) = l.filter fun i => decide (f i ≤ r) := by
  induction l with
  | nil => rfl
  | cons a l ih =>
    rw [List.pairwise_cons] at h
    by_cases ha : r ≥ f a
    · rw [List.takeWhile_cons_of_pos (by simpa using ha), ih h.2,
        List.filter_cons_of_pos (by simpa using ha)]
    · rw [List.takeWhile_cons_of_neg (by simpa using ha)]
      symm
      rw [List.filter_eq_nil_iff]
      intro b hb
      rcases List.mem_cons.mp hb with rfl | hb
      · simpa using ha
      · have := h.1 b hb
        simp only [decide_eq_true_eq]; omega

theorem sum_filter_map [AddMonoid K] {α : Type} (l : List α) (p : α → Bool) (f : α → K) :
    ((l.filter p).map f).sum = (l.map fun i => if p i then f i else 0).sum := by
  induction l with
  | nil => rfl
  | cons a l ih =>
    by_cases h : p a
    · simp [List.filter_cons_of_pos h, h, ih]
    · simp [List.filter_cons_of_neg h, h, ih]

theorem Mat.RowsSorted.idxs {M : Mat K} (h : M.RowsSorted) {r : ℕ} (hr : r < M.numRows) :
    (M.idxs r).Pairwise fun a b => M.cols a ≤ M.cols b := by
  have := h r hr
  rw [Mat.row, List.pairwise_map] at this
  exact this

/-- `y ← y + A x`, general matrices. -/
theorem rightMul_unsymmetric [CommSemiring K] {M : Mat K} (h : M.WF) (hs : M.storage = .unsymmetric)
    (x y : ℕ → K) (k : ℕ) :
    M.rightMul x y k
      = y k + if k < M.numRows then ∑ c ∈ Finset.range M.numCols, M.entry k c * x c else 0 := by
  unfold Mat.rightMul
  simp only [hs]
  rw [foldl_nested (List.range M.numRows) M.idxs
    (fun r y idx => bump y r (M.values idx * x (M.cols idx))) y]
  rw [foldl_bump (fun p : ℕ × ℕ => p.1) (fun p => M.values p.2 * x (M.cols p.2))]
  congr 1
  rw [sum_flatMap, sum_range_eq]
  by_cases hk : k < M.numRows
  · rw [if_pos hk, Finset.sum_eq_single k]
    · simp only [List.map_map, Function.comp_def, if_true]
      exact h.row_sum hk x
    · intro b _ hb
      simp [hb, Function.comp_def]
    · intro hn; exact absurd (Finset.mem_range.mpr hk) hn
  · rw [if_neg hk]
    refine Finset.sum_eq_zero fun b hb => ?_
    have : b ≠ k := fun e => hk (e ▸ Finset.mem_range.mp hb)
    simp [this, Function.comp_def]

/-- `y ← y + Aᵀ x`, general matrices. -/
theorem leftMul_unsymmetric [CommSemiring K] {M : Mat K} (h : M.WF) (hs : M.storage = .unsymmetric)
    (x y : ℕ → K) {k : ℕ} (hk : k < M.numCols) :
    M.leftMul x y k = y k + ∑ r ∈ Finset.range M.numRows, M.entry r k * x r := by
  unfold Mat.leftMul
  simp only [hs]
  rw [foldl_nested (List.range M.numRows) M.idxs
    (fun r y idx => bump y (M.cols idx) (M.values idx * x r)) y]
  rw [foldl_bump (fun p : ℕ × ℕ => M.cols p.2) (fun p => M.values p.2 * x p.1)]
  congr 1
  rw [sum_flatMap, sum_range_eq]
  refine Finset.sum_congr rfl fun r hr => ?_
  have hr := Finset.mem_range.mp hr
  have := h.row_sum hr fun c => if c = k then x r else 0
  simp only [mul_ite, mul_zero] at this
  rw [Finset.sum_ite_eq' (Finset.range M.numCols) k, if_pos (Finset.mem_range.mpr hk)] at this
  simpa [List.map_map, Function.comp_def] using this

/-- The two writes of a symmetric step as sums. -/
theorem foldl_symStep [CommSemiring K] (M : Mat K) (x : ℕ → K) (l : List (ℕ × ℕ)) (y : ℕ → K)
    (k : ℕ) :
    l.foldl (fun y p => symStep M x p.1 y p.2) y k
      = y k + (l.map fun p => M.values p.2 * ((if p.1 = k then x (M.cols p.2) else 0)
          + if p.1 ≠ M.cols p.2 ∧ M.cols p.2 = k then x p.1 else 0)).sum := by
  induction l generalizing y with
  | nil => simp
  | cons a l ih =>
    rw [List.foldl_cons, ih, List.map_cons, List.sum_cons, ← add_assoc]
    congr 1
    unfold symStep bump
    by_cases hc : a.1 = M.cols a.2
    · by_cases h : a.1 = k
      · subst h; simp [← hc]
      · simp [← hc, h, Function.update_of_ne (Ne.symm h)]
    · by_cases h : a.1 = k
      · subst h
        simp [hc, Function.update_of_ne hc, Ne.symm hc]
      · by_cases h2 : M.cols a.2 = k
        · subst h2
          simp [hc, Function.update_of_ne (Ne.symm hc)]
        · simp [hc, h, h2, Function.update_of_ne (Ne.symm h), Function.update_of_ne (Ne.symm h2)]

/-- `y ← y + S x` for the symmetric matrix one triangle stands for: entries of the other triangle
that are stored are ignored, whatever their values. -/
theorem rightMul_symmetric [CommSemiring K] {M : Mat K} (h : M.WF) (hs : M.storage ≠ .unsymmetric)
    (hsq : M.numCols = M.numRows) (hso : M.RowsSorted) (x y : ℕ → K) {k : ℕ} (hk : k < M.numRows) :
    M.rightMul x y k = y k + ∑ c ∈ Finset.range M.numCols, M.sym k c * x c := by
  -- the two cases differ only in which entries take part
  have main : ∀ keep : ℕ → ℕ → Prop, ∀ _ : DecidableRel keep,
      (∀ r c, r ≠ c → (keep r c ↔ ¬ keep c r)) → (∀ r, keep r r) →
      ((List.range M.numRows).foldl (fun y r =>
        ((M.idxs r).filter fun i => decide (keep r (M.cols i))).foldl (symStep M x r) y) y) k
      = y k + ∑ c ∈ Finset.range M.numCols,
          (if keep k c then M.entry k c else M.entry c k) * x c := by
    intro keep _ hanti hrefl
    rw [foldl_nested (List.range M.numRows)
      (fun r => (M.idxs r).filter fun i => decide (keep r (M.cols i))) (fun r y i => symStep M x r y i) y]
    rw [foldl_symStep]
    congr 1
    rw [sum_flatMap, sum_range_eq]
    have step : ∀ r ∈ Finset.range M.numRows,
        ((((M.idxs r).filter fun i => decide (keep r (M.cols i))).map fun i => (r, i)).map
          fun p : ℕ × ℕ => M.values p.2 * ((if p.1 = k then x (M.cols p.2) else 0)
          + if p.1 ≠ M.cols p.2 ∧ M.cols p.2 = k then x p.1 else 0)).sum
        = (if r = k then ∑ c ∈ Finset.range M.numCols, (if keep k c then M.entry k c else 0) * x c
            else 0)
          + (if r ≠ k ∧ keep r k then M.entry r k * x r else 0) := by
      intro r hr
      have hr := Finset.mem_range.mp hr
      rw [List.map_map, sum_filter_map]
      obtain ⟨w, hw⟩ : ∃ w : ℕ → K, w = fun c => if keep r c then ((if r = k then x c else 0)
          + if r ≠ c ∧ c = k then x r else 0) else 0 := ⟨_, rfl⟩
      have e1 : (fun i => if decide (keep r (M.cols i)) = true then
            ((fun p : ℕ × ℕ => M.values p.2 * ((if p.1 = k then x (M.cols p.2) else 0)
              + if p.1 ≠ M.cols p.2 ∧ M.cols p.2 = k then x p.1 else 0)) ∘ fun i => (r, i)) i else 0)
          = fun i => M.values i * w (M.cols i) := by
        funext i
        by_cases hkp : keep r (M.cols i) <;> simp [hkp, hw]
      rw [e1, h.row_sum hr w]
      subst hw
      by_cases hrk : r = k
      · subst hrk
        rw [if_pos rfl, if_neg (by simp), add_zero]
        refine Finset.sum_congr rfl fun c _ => ?_
        by_cases hkc : keep r c
        · have : ¬ (r ≠ c ∧ c = r) := fun ⟨a, b⟩ => a b.symm
          simp [hkc, this]
        · simp [hkc]
      · rw [if_neg hrk, zero_add]
        have hk' : k ∈ Finset.range M.numCols := by rw [hsq]; exact Finset.mem_range.mpr hk
        rw [Finset.sum_eq_single k]
        · by_cases hkk : keep r k <;> simp [hrk, hkk]
        · intro c _ hc
          simp [hrk, hc]
        · intro hn; exact absurd hk' hn
    rw [Finset.sum_congr rfl step, Finset.sum_add_distrib, Finset.sum_ite_eq' (Finset.range M.numRows) k,
      if_pos (Finset.mem_range.mpr hk), hsq, ← Finset.sum_add_distrib]
    refine Finset.sum_congr rfl fun c _ => ?_
    by_cases hck : c = k
    · subst hck; simp [hrefl]
    · have := hanti k c (Ne.symm hck)
      by_cases hkc : keep k c
      · have h2 := this.mp hkc
        simp [hkc, h2]
      · have h2 : keep c k := by by_contra h2; exact hkc (this.mpr h2)
        simp [hkc, h2, hck]
  unfold Mat.rightMul Mat.sym
  cases hst : M.storage with
  | unsymmetric => exact absurd hst hs
  | upper =>
    simp only
    rw [← main (fun r c => r ≤ c) (fun _ _ => inferInstance) (fun r c hrc => by omega) (fun r => le_rfl)]
    refine congrFun (List.foldl_ext _ _ _ fun y' r hr => ?_) k
    rw [dropWhile_eq_filter _ _ _ (hso.idxs (List.mem_range.mp hr))]
  | lower =>
    simp only
    rw [← main (fun r c => c ≤ r) (fun _ _ => inferInstance) (fun r c hrc => by omega) (fun r => le_rfl)]
    refine congrFun (List.foldl_ext _ _ _ fun y' r hr => ?_) k
    rw [takeWhile_eq_filter _ _ _ (hso.idxs (List.mem_range.mp hr))]

/-- For symmetric matrices the left product is the right product, which is what it should be. -/
theorem leftMul_symmetric [CommSemiring K] {M : Mat K} (h : M.WF) (hs : M.storage ≠ .unsymmetric)
    (hsq : M.numCols = M.numRows) (hso : M.RowsSorted) (x y : ℕ → K) {k : ℕ} (hk : k < M.numCols) :
    M.leftMul x y k = y k + ∑ r ∈ Finset.range M.numRows, M.sym r k * x r := by
  have hl : M.leftMul x y = M.rightMul x y := by
    unfold Mat.leftMul
    cases hst : M.storage with
    | unsymmetric => exact absurd hst hs
    | upper => rfl
    | lower => rfl
  rw [hl, rightMul_symmetric h hs hsq hso x y (hsq ▸ hk), hsq]
  congr 1
  refine Finset.sum_congr rfl fun c _ => ?_
  congr 1
  unfold Mat.sym
  cases hst : M.storage with
  | unsymmetric => exact absurd hst hs
  | upper =>
    simp only
    rcases Nat.lt_trichotomy k c with hlt | heq | hgt
    · rw [if_pos hlt.le, if_neg (by omega)]
    · rw [heq]
    · rw [if_neg (by omega), if_pos hgt.le]
  | lower =>
    simp only
    rcases Nat.lt_trichotomy k c with hlt | heq | hgt
    · rw [if_neg (by omega), if_pos hlt.le]
    · rw [heq]
    · rw [if_pos hgt.le, if_neg (by omega)]

/-! ### Column norms -/

/-- Without repeated columns the sum of squares of the values in a column is the square of the
entry. -/
theorem sum_sq_of_nodup [CommSemiring K] (l : List (ℕ × K)) (hl : (l.map Prod.fst).Nodup) (c : ℕ) :
    (l.map fun e => if e.1 = c then e.2 * e.2 else 0).sum = colSum l c * colSum l c := by
  induction l with
  | nil => simp [colSum]
  | cons a l ih =>
    rw [List.map_cons, List.nodup_cons] at hl
    have ih' := ih hl.2
    rw [List.map_cons, List.sum_cons, ih']
    by_cases h : a.1 = c
    · have hz : colSum l c = 0 := by
        unfold colSum
        refine List.sum_eq_zero fun v hv => ?_
        obtain ⟨e, he, rfl⟩ := List.mem_map.mp hv
        rw [if_neg]
        intro hec
        exact hl.1 (List.mem_map.mpr ⟨e, he, hec.trans h.symm⟩)
      have : colSum (a :: l) c = a.2 := by
        have : colSum (a :: l) c = a.2 + colSum l c := by simp [colSum, h]
        rw [this, hz, add_zero]
      rw [hz, this, if_pos h]; simp
    · have : colSum (a :: l) c = colSum l c := by simp [colSum, h]
      rw [this, if_neg h, zero_add]

theorem squaredColumnNorm_unsymmetric [CommSemiring K] {M : Mat K} (h : M.WF)
    (hs : M.storage = .unsymmetric) (hn : M.NoDup) (c : ℕ) :
    M.squaredColumnNorm c = ∑ r ∈ Finset.range M.numRows, M.entry r c * M.entry r c := by
  unfold Mat.squaredColumnNorm
  simp only [hs]
  rw [foldl_bump M.cols (fun i => M.values i * M.values i), zero_add, ← h.flatMap_idxs,
    sum_flatMap, sum_range_eq]
  refine Finset.sum_congr rfl fun r hr => ?_
  have := sum_sq_of_nodup (M.row r) (hn r (Finset.mem_range.mp hr)) c
  rw [← Mat.entry] at this
  rw [← this, Mat.row, List.map_map]
  rfl

theorem foldl_normStep [CommSemiring K] (M : Mat K) (l : List (ℕ × ℕ)) (y : ℕ → K) (k : ℕ) :
    l.foldl (fun y p => normStep M p.1 y p.2) y k
      = y k + (l.map fun p => (if M.cols p.2 = k then M.values p.2 * M.values p.2 else 0)
          + if p.1 ≠ M.cols p.2 ∧ p.1 = k then M.values p.2 * M.values p.2 else 0).sum := by
  induction l generalizing y with
  | nil => simp
  | cons a l ih =>
    rw [List.foldl_cons, ih, List.map_cons, List.sum_cons, ← add_assoc]
    congr 1
    unfold normStep bump
    by_cases hc : a.1 = M.cols a.2
    · by_cases h : a.1 = k
      · subst h; simp [← hc]
      · simp [← hc, h, Function.update_of_ne (Ne.symm h)]
    · by_cases h : M.cols a.2 = k
      · subst h
        simp [hc, Function.update_of_ne (Ne.symm hc)]
      · by_cases h2 : a.1 = k
        · subst h2
          simp [hc, h]
        · simp [hc, h, h2, Function.update_of_ne (Ne.symm h), Function.update_of_ne (Ne.symm h2)]

/-- Squared column norms of the symmetric matrix one triangle stands for. -/
theorem squaredColumnNorm_symmetric [CommSemiring K] {M : Mat K} (h : M.WF)
    (hs : M.storage ≠ .unsymmetric) (hsq : M.numCols = M.numRows) (hso : M.RowsSorted)
    (hn : M.NoDup) {k : ℕ} (hk : k < M.numCols) :
    M.squaredColumnNorm k = ∑ r ∈ Finset.range M.numRows, M.sym r k * M.sym r k := by
  have main : ∀ keep : ℕ → ℕ → Prop, ∀ _ : DecidableRel keep,
      (∀ r c, r ≠ c → (keep r c ↔ ¬ keep c r)) → (∀ r, keep r r) →
      ((List.range M.numRows).foldl (fun y r =>
        ((M.idxs r).filter fun i => decide (keep r (M.cols i))).foldl (normStep M r) y)
          fun _ => 0) k
      = ∑ r ∈ Finset.range M.numRows,
          (if keep r k then M.entry r k * M.entry r k else M.entry k r * M.entry k r) := by
    intro keep _ hanti hrefl
    rw [foldl_nested (List.range M.numRows)
      (fun r => (M.idxs r).filter fun i => decide (keep r (M.cols i)))
      (fun r y i => normStep M r y i) (fun _ => 0)]
    rw [foldl_normStep, zero_add, sum_flatMap, sum_range_eq]
    have hsum : ∀ r, r < M.numRows → ∀ w : ℕ → K,
        ((M.idxs r).map fun i => M.values i * M.values i * w (M.cols i)).sum
          = ∑ c ∈ Finset.range M.numCols, M.entry r c * M.entry r c * w c := by
      intro r hr w
      have hsq' : ∀ c, M.entry r c * M.entry r c
          = ({ M with values := fun i => M.values i * M.values i } : Mat K).entry r c := by
        intro c
        have := sum_sq_of_nodup (M.row r) (hn r hr) c
        rw [← Mat.entry] at this
        rw [← this, Mat.entry, colSum, Mat.row, Mat.row, List.map_map, List.map_map]
        rfl
      simp only [hsq']
      exact Mat.WF.row_sum (M := { M with values := fun i => M.values i * M.values i })
        ⟨h.start, h.mono, h.bound⟩ hr w
    have step : ∀ r ∈ Finset.range M.numRows,
        ((((M.idxs r).filter fun i => decide (keep r (M.cols i))).map fun i => (r, i)).map
          fun p : ℕ × ℕ => (if M.cols p.2 = k then M.values p.2 * M.values p.2 else 0)
          + if p.1 ≠ M.cols p.2 ∧ p.1 = k then M.values p.2 * M.values p.2 else 0).sum
        = (if keep r k then M.entry r k * M.entry r k else 0)
          + (if r = k then ∑ c ∈ Finset.range M.numCols,
              (if k ≠ c ∧ keep k c then M.entry k c * M.entry k c else 0) else 0) := by
      intro r hr
      have hr := Finset.mem_range.mp hr
      rw [List.map_map, sum_filter_map]
      obtain ⟨w, hw⟩ : ∃ w : ℕ → K, w = fun c => (if c = k ∧ keep r c then 1 else 0)
          + if r = k ∧ r ≠ c ∧ keep r c then 1 else 0 := ⟨_, rfl⟩
      have e1 : (fun i => if decide (keep r (M.cols i)) = true then
            ((fun p : ℕ × ℕ => (if M.cols p.2 = k then M.values p.2 * M.values p.2 else 0)
              + if p.1 ≠ M.cols p.2 ∧ p.1 = k then M.values p.2 * M.values p.2 else 0) ∘
                fun i => (r, i)) i else 0)
          = fun i => M.values i * M.values i * w (M.cols i) := by
        funext i
        subst hw
        simp only [Function.comp_def, decide_eq_true_eq, mul_add]
        by_cases hkp : keep r (M.cols i)
        · rw [if_pos hkp]
          congr 1
          · by_cases h1 : M.cols i = k
            · rw [if_pos h1, if_pos ⟨h1, hkp⟩, mul_one]
            · rw [if_neg h1, if_neg (fun hh => h1 hh.1), mul_zero]
          · by_cases h1 : r ≠ M.cols i ∧ r = k
            · rw [if_pos h1, if_pos ⟨h1.2, h1.1, hkp⟩, mul_one]
            · rw [if_neg h1, if_neg (fun hh => h1 ⟨hh.2.1, hh.1⟩), mul_zero]
        · rw [if_neg hkp, if_neg (fun hh => hkp hh.2), if_neg (fun hh => hkp hh.2.2)]
          simp
      rw [e1, hsum r hr w]
      subst hw
      simp only [mul_add, Finset.sum_add_distrib]
      congr 1
      · rw [Finset.sum_eq_single k]
        · by_cases hkk : keep r k <;> simp [hkk]
        · intro c _ hc; simp [hc]
        · intro hn; exact absurd (Finset.mem_range.mpr hk) hn
      · by_cases hrk : r = k
        · subst hrk
          rw [if_pos rfl]
          refine Finset.sum_congr rfl fun c _ => ?_
          by_cases hc : r ≠ c ∧ keep r c
          · rw [if_pos ⟨rfl, hc⟩, if_pos hc, mul_one]
          · rw [if_neg (fun hh => hc hh.2), if_neg hc, mul_zero]
        · rw [if_neg hrk]
          refine Finset.sum_eq_zero fun c _ => ?_
          rw [if_neg (fun hh => hrk hh.1), mul_zero]
    rw [Finset.sum_congr rfl step, Finset.sum_add_distrib,
      Finset.sum_ite_eq' (Finset.range M.numRows) k,
      if_pos (Finset.mem_range.mpr (hsq ▸ hk)), hsq, ← Finset.sum_add_distrib]
    refine Finset.sum_congr rfl fun c _ => ?_
    by_cases hck : c = k
    · subst hck; simp [hrefl]
    · have := hanti k c (Ne.symm hck)
      by_cases hkc : keep k c
      · have h2 := this.mp hkc
        simp [hkc, h2, Ne.symm hck]
      · have h2 : keep c k := by by_contra h2; exact hkc (this.mpr h2)
        simp [hkc, h2]
  unfold Mat.squaredColumnNorm Mat.sym
  cases hst : M.storage with
  | unsymmetric => exact absurd hst hs
  | upper =>
    simp only
    have := main (fun r c => r ≤ c) (fun _ _ => inferInstance) (fun r c hrc => by omega) (fun r => le_rfl)
    refine Eq.trans ?_ (this.trans ?_)
    · refine congrFun (List.foldl_ext _ _ _ fun y' r hr => ?_) k
      rw [dropWhile_eq_filter _ _ _ (hso.idxs (List.mem_range.mp hr))]
    · refine Finset.sum_congr rfl fun c _ => ?_
      by_cases hck : c ≤ k
      · rw [if_pos hck, if_pos hck]
      · rw [if_neg hck, if_neg hck]
  | lower =>
    simp only
    have := main (fun r c => c ≤ r) (fun _ _ => inferInstance) (fun r c hrc => by omega) (fun r => le_rfl)
    refine Eq.trans ?_ (this.trans ?_)
    · refine congrFun (List.foldl_ext _ _ _ fun y' r hr => ?_) k
      rw [takeWhile_eq_filter _ _ _ (hso.idxs (List.mem_range.mp hr))]
    · refine Finset.sum_congr rfl fun c _ => ?_
      by_cases hck : k ≤ c
      · rw [if_pos hck, if_pos hck]
      · rw [if_neg hck, if_neg hck]

/-! ### Scaling -/

theorem foldl_update_each {α : Type} (f : ℕ → α → α) (n : ℕ) (v : ℕ → α) (i : ℕ) :
    (List.range n).foldl (fun v i => Function.update v i (f i (v i))) v i
      = if i < n then f i (v i) else v i := by
  induction n with
  | zero => simp
  | succ n ih =>
    rw [List.range_succ, List.foldl_append, List.foldl_cons, List.foldl_nil]
    by_cases h : i = n
    · subst h
      have key : (List.range i).foldl (fun v j => Function.update v j (f j (v j))) v i = v i := by
        rw [ih]; simp
      rw [Function.update_self, if_pos (by omega), key]
    · rw [Function.update_of_ne h, ih]
      by_cases h2 : i < n
      · rw [if_pos h2, if_pos (by omega)]
      · rw [if_neg h2, if_neg (by omega)]

/-- `ScaleColumns` multiplies column `c` by `scale c` and keeps the structure. -/
theorem scaleColumns_entry [CommSemiring K] {M : Mat K} (h : M.WF) (scale : ℕ → K) {r : ℕ}
    (hr : r < M.numRows) (c : ℕ) :
    (M.scaleColumns scale).entry r c = M.entry r c * scale c ∧
      (M.scaleColumns scale).rows = M.rows ∧ (M.scaleColumns scale).cols = M.cols := by
  refine ⟨?_, rfl, rfl⟩
  unfold Mat.entry colSum Mat.row
  rw [List.map_map, List.map_map, ← List.sum_map_mul_right]
  congr 1
  refine List.map_congr_left fun i hi => ?_
  have hi' : i ∈ M.idxs r := hi
  simp only [Function.comp_def, Mat.scaleColumns]
  rw [foldl_update_each (fun i v => v * scale (M.cols i)), if_pos (h.idx_lt hr hi')]
  by_cases hc : M.cols i = c
  · subst hc; simp
  · simp [hc]

end Ceres.Sparse
