import Verif.Sparse.Rows

/-!
# Triplet matrices and their conversion (C33)
-/
namespace Ceres.Sparse

variable {K : Type}

/-! ### Lists in arrays -/

theorem foldl_zipIdx {α β : Type} (f : α → β) (l : List α) (dst : ℕ → β) (pos i : ℕ) :
    l.zipIdx.foldl (fun d p => Function.update d (pos + p.2) (f p.1)) dst i
      = if h : pos ≤ i ∧ i - pos < l.length then f l[i - pos] else dst i := by
  induction l using List.reverseRecOn with
  | nil => simp
  | append_singleton l a ih =>
    rw [List.zipIdx_append, List.foldl_append]
    simp only [List.zipIdx_singleton, List.foldl_cons, List.foldl_nil, Nat.zero_add]
    by_cases h : i = pos + l.length
    · subst h
      rw [Function.update_self, dif_pos (by simp)]
      simp
    · rw [Function.update_of_ne h, ih]
      by_cases h2 : pos ≤ i ∧ i - pos < l.length
      · rw [dif_pos h2, dif_pos (by simp; omega), List.getElem_append_left h2.2]
      · rw [dif_neg h2, dif_neg (by simp; omega)]

/-- Reading back a list from an array that holds it. -/
theorem range'_map_eq {α β : Type} (arr : ℕ → β) (f : α → β) (l : List α) (pos : ℕ)
    (h : ∀ j (hj : j < l.length), arr (pos + j) = f l[j]) :
    (List.range' pos l.length).map arr = l.map f := by
  apply List.ext_getElem
  · simp
  · intro n h1 h2
    simp only [List.length_map] at h2
    simp [h n h2]

/-- A list sorted by a key is the elements with smaller keys, those with the key, and the rest. -/
theorem sorted_split {α : Type} (key : α → ℕ) (l : List α) (h : l.Pairwise fun a b => key a ≤ key b)
    (r : ℕ) :
    l = (l.filter fun i => decide (key i < r)) ++ (l.filter fun i => decide (key i = r))
      ++ l.filter fun i => decide (r < key i) := by
  induction l with
  | nil => rfl
  | cons a l ih =>
    rw [List.pairwise_cons] at h
    have ih' := ih h.2
    rcases Nat.lt_trichotomy (key a) r with hlt | heq | hgt
    · rw [List.filter_cons_of_pos (by simpa using hlt), List.filter_cons_of_neg (by simp; omega),
        List.filter_cons_of_neg (by simp; omega)]
      simp only [List.cons_append]
      rw [← ih']
    · have h0 : (l.filter fun i => decide (key i < r)) = [] := by
        rw [List.filter_eq_nil_iff]
        intro b hb
        have := h.1 b hb
        simp only [decide_eq_true_eq]; omega
      rw [List.filter_cons_of_neg (by simp; omega), List.filter_cons_of_pos (by simpa using heq),
        List.filter_cons_of_neg (by simp; omega), h0]
      rw [h0] at ih'
      simp only [List.nil_append, List.cons_append] at ih' ⊢
      rw [← ih']
    · have h0 : (l.filter fun i => decide (key i < r)) = [] := by
        rw [List.filter_eq_nil_iff]
        intro b hb
        have := h.1 b hb
        simp only [decide_eq_true_eq]; omega
      have h1 : (l.filter fun i => decide (key i = r)) = [] := by
        rw [List.filter_eq_nil_iff]
        intro b hb
        have := h.1 b hb
        simp only [decide_eq_true_eq]; omega
      rw [List.filter_cons_of_neg (by simp; omega), List.filter_cons_of_neg (by simp; omega),
        List.filter_cons_of_pos (by simpa using hgt), h0, h1]
      rw [h0, h1] at ih'
      simp only [List.nil_append] at ih' ⊢
      rw [← ih']

/-! ### From triplets to compressed rows -/

/-- The triples to be stored: the indices exchanged if the transpose is asked for. -/
def Triplet.oriented (T : Triplet K) (tr : Bool) : List (ℕ × ℕ × K) :=
  if tr then T.triples.map fun e => (e.2.1, e.1, e.2.2) else T.triples

/-- **C33.** Whatever order `std::sort` leaves equal entries in: the conversion of a triplet matrix
with indices in range never fails, and gives a well formed matrix with the right shape whose rows
are sorted and hold exactly the entries of the triplets, repeated ones included. -/
theorem fromTriplet_spec [Zero K] {T : Triplet K} (hT : T.WF) (tr : Bool) {index : List ℕ}
    (hi : Sorted (if tr then T.cols else T.rows) (if tr then T.rows else T.cols) T.num index) :
    ∃ M, fromTriplet T tr index = some M ∧ M.WF ∧ M.storage = .unsymmetric ∧
      M.numRows = (if tr then T.numCols else T.numRows) ∧
      M.numCols = (if tr then T.numRows else T.numCols) ∧
      M.nnz = T.num ∧ M.RowsSorted ∧
      ∀ r < M.numRows, (M.row r).Perm
        (((T.oriented tr).filter fun e => decide (e.1 = r)).map fun e => (e.2.1, e.2.2)) := by
  obtain ⟨nr, hnr⟩ : ∃ nr, nr = (if tr then T.numCols else T.numRows) := ⟨_, rfl⟩
  obtain ⟨nc, hnc⟩ : ∃ nc, nc = (if tr then T.numRows else T.numCols) := ⟨_, rfl⟩
  obtain ⟨R, hR⟩ : ∃ R, R = (if tr then T.cols else T.rows) := ⟨_, rfl⟩
  obtain ⟨C, hC⟩ : ∃ C, C = (if tr then T.rows else T.cols) := ⟨_, rfl⟩
  have hor : T.oriented tr = (List.range T.num).map fun i => (R i, C i, T.values i) := by
    unfold Triplet.oriented Triplet.triples
    cases tr
    · simp [hR, hC]
    · simp [hR, hC, Function.comp_def]
  have hb : ∀ i < T.num, R i < nr ∧ C i < nc := by
    intro i hi
    have := hT i hi
    cases tr
    · simpa [hR, hC, hnr, hnc] using this
    · simpa [hR, hC, hnr, hnc] using this.symm
  rw [← hR, ← hC] at hi
  rw [hor, ← hnr, ← hnc]
  obtain ⟨hperm, hpw⟩ := hi
  have hlen : index.length = T.num := by rw [hperm.length_eq, List.length_range]
  have hmem : ∀ i ∈ index, i < T.num := fun i hi => List.mem_range.mp (hperm.mem_iff.mp hi)
  have hpwR : index.Pairwise fun a b => R a ≤ R b := by
    refine hpw.imp ?_
    intro a b hab
    unfold rowColLess at hab
    by_contra hlt
    rw [if_neg (by omega)] at hab
    omega
  unfold fromTriplet
  simp only [← hR, ← hC, ← hnr, ← hnc]
  by_cases h0 : nr = 0
  · rw [if_pos h0]
    have hnum : T.num = 0 := by
      by_contra hn
      have := hb 0 (by omega)
      omega
    refine ⟨_, rfl, ⟨rfl, fun r hr => le_rfl, fun i hi => absurd hi (Nat.not_lt_zero _)⟩, rfl,
      h0.symm, rfl, hnum.symm, fun r hr => absurd hr (Nat.not_lt_zero _),
      fun r hr => absurd hr (Nat.not_lt_zero _)⟩
  · rw [if_neg h0]
    set out : Mat K :=
      { numRows := nr, numCols := nc
        rows := cumSum nr (index.foldl (fun R' idx => bump R' (R idx + 1) 1) fun _ => 0)
        cols := (index.zipIdx).foldl (fun C' p => Function.update C' p.2 (C p.1)) fun _ => 0
        values := (index.zipIdx).foldl (fun V p => Function.update V p.2 (T.values p.1)) fun _ => 0
        storage := .unsymmetric
        rowBlocks := [] } with hout
    have hrows : ∀ k ≤ nr, out.rows k = index.countP fun i => decide (R i < k) := by
      intro k hk
      rw [hout]
      exact cumSum_count R index nr k hk
    have hcols : ∀ j (hj : j < index.length), out.cols j = C index[j] := by
      intro j hj
      have := foldl_zipIdx C index (fun _ => 0) 0 j
      simp only [Nat.zero_add, Nat.sub_zero, Nat.zero_le, true_and] at this
      exact this.trans (dif_pos hj)
    have hvals : ∀ j (hj : j < index.length), out.values j = T.values index[j] := by
      intro j hj
      have := foldl_zipIdx T.values index (fun _ => 0) 0 j
      simp only [Nat.zero_add, Nat.sub_zero, Nat.zero_le, true_and] at this
      exact this.trans (dif_pos hj)
    have hnnz : out.nnz = T.num := by
      have h1 := hrows nr le_rfl
      have h2 : out.nnz = out.rows nr := rfl
      rw [h2, h1, ← hlen, List.countP_eq_length]
      intro i hi
      simpa using (hb i (hmem i hi)).1
    rw [if_pos hnnz]
    have hrow : ∀ r < nr, out.row r
        = (index.filter fun i => decide (R i = r)).map fun i => (C i, T.values i) := by
      intro r hr
      have hs := sorted_split R index hpwR r
      unfold Mat.row Mat.idxs
      rw [hrows r hr.le, hrows (r + 1) hr, ← countP_lt_succ R, Nat.add_sub_cancel_left,
        List.countP_eq_length_filter, List.countP_eq_length_filter]
      set A := index.filter fun i => decide (R i < r) with hA
      set B := index.filter fun i => decide (R i = r) with hB
      set D := index.filter fun i => decide (r < R i) with hD
      apply range'_map_eq
      intro j hj
      have hlt : A.length + j < index.length := by
        rw [hs, List.length_append, List.length_append]; omega
      have hget : index[A.length + j] = B[j] := by
        have h1 : index[A.length + j] = (A ++ B ++ D)[A.length + j]'(by
            rw [← hs]; exact hlt) := by
          congr 1
        rw [h1, List.getElem_append_left (by simp; omega), List.getElem_append_right (by omega)]
        congr 1
        omega
      rw [hcols _ hlt, hvals _ hlt, hget]
    refine ⟨out, rfl, ⟨?_, ?_, ?_⟩, rfl, rfl, rfl, hnnz, ?_, ?_⟩
    · rw [hrows 0 (Nat.zero_le _)]; simp
    · intro r hr
      have hr' : r < nr := hr
      rw [hrows r hr'.le, hrows (r + 1) hr']
      exact countP_lt_mono R _ (by omega)
    · intro i hi
      rw [hnnz, ← hlen] at hi
      rw [hcols i hi]
      exact (hb _ (hmem _ (List.getElem_mem hi))).2
    · intro r hr
      rw [hrow r hr, List.pairwise_map]
      refine List.Pairwise.imp_of_mem ?_ (hpw.filter fun i => decide (R i = r))
      intro a b ha hb' hab
      have ha' : R a = r := by simpa using (List.mem_filter.mp ha).2
      have hb'' : R b = r := by simpa using (List.mem_filter.mp hb').2
      unfold rowColLess at hab
      rw [if_pos (by omega)] at hab
      exact Nat.le_of_not_lt hab
    · intro r hr
      rw [hrow r hr, List.filter_map, List.map_map]
      exact (hperm.filter _).map _

/-- The converted matrix has the entries of the triplets. -/
theorem fromTriplet_entry [AddCommMonoid K] {T : Triplet K} (hT : T.WF) (tr : Bool)
    {index : List ℕ}
    (hi : Sorted (if tr then T.cols else T.rows) (if tr then T.rows else T.cols) T.num index)
    {M : Mat K} (hM : fromTriplet T tr index = some M) {r c : ℕ} (hr : r < M.numRows) :
    M.entry r c = if tr then T.entry c r else T.entry r c := by
  obtain ⟨M', hM', _, _, _, _, _, _, hrow⟩ := fromTriplet_spec hT tr hi
  rw [hM] at hM'
  have hMM := Option.some.inj hM'
  subst hMM
  have hp := ((hrow r hr).map fun e : ℕ × K => if e.1 = c then e.2 else 0).sum_eq
  rw [Mat.entry, colSum, hp, List.map_map, sum_filter_map]
  cases tr
  · simp only [Triplet.oriented, Triplet.entry, tripleSum, Bool.false_eq_true, if_false]
    congr 1
    refine List.map_congr_left fun e _ => ?_
    by_cases h1 : e.1 = r <;> by_cases h2 : e.2.1 = c <;> simp [h1, h2]
  · simp only [Triplet.oriented, Triplet.entry, tripleSum, if_true, List.map_map]
    congr 1
    refine List.map_congr_left fun e _ => ?_
    by_cases h1 : e.2.1 = r <;> by_cases h2 : e.1 = c <;> simp [h1, h2]

/-- If no position is given twice, no column is stored twice in a row. -/
theorem fromTriplet_noDup [Zero K] {T : Triplet K} (hT : T.WF) (tr : Bool) {index : List ℕ}
    (hi : Sorted (if tr then T.cols else T.rows) (if tr then T.rows else T.cols) T.num index)
    (hd : (T.triples.map fun e => (e.1, e.2.1)).Nodup)
    {M : Mat K} (hM : fromTriplet T tr index = some M) : M.NoDup := by
  obtain ⟨M', hM', _, _, _, _, _, _, hrow⟩ := fromTriplet_spec hT tr hi
  rw [hM] at hM'
  have hMM := Option.some.inj hM'
  subst hMM
  intro r hr
  rw [((hrow r hr).map Prod.fst).nodup_iff, List.map_map]
  have hd' : ((T.oriented tr).map fun e => (e.1, e.2.1)).Nodup := by
    cases tr
    · simpa [Triplet.oriented] using hd
    · simp only [Triplet.oriented, if_true, List.map_map]
      have := hd.map (f := fun p : ℕ × ℕ => (p.2, p.1)) fun a b h => by
        have := Prod.mk.inj h
        exact Prod.ext this.2 this.1
      rw [List.map_map] at this
      exact this
  have hsub : (((T.oriented tr).filter fun e => decide (e.1 = r)).map fun e => (e.1, e.2.1)).Nodup :=
    hd'.sublist (List.filter_sublist.map _)
  have he : (((T.oriented tr).filter fun e => decide (e.1 = r)).map fun e => (e.1, e.2.1))
      = (((T.oriented tr).filter fun e => decide (e.1 = r)).map
          (Prod.fst ∘ fun e => (e.2.1, e.2.2))).map fun c => (r, c) := by
    rw [List.map_map]
    refine List.map_congr_left fun e he => ?_
    have := (List.mem_filter.mp he).2
    simp only [decide_eq_true_eq] at this
    simp [this]
  rw [he] at hsub
  exact List.Nodup.of_map _ hsub

theorem not_rowColLess (rows cols : ℕ → ℕ) (x y : ℕ) :
    ¬ rowColLess rows cols y x ↔ rows x < rows y ∨ (rows x = rows y ∧ cols x ≤ cols y) := by
  unfold rowColLess
  by_cases h : rows y = rows x
  · rw [if_pos h]; omega
  · rw [if_neg h]; omega

/-- A matrix with sorted index exists for any triplets: `std::sort` has something to return. -/
theorem exists_sorted (rows cols : ℕ → ℕ) (n : ℕ) : ∃ index, Sorted rows cols n index := by
  classical
  let le : ℕ → ℕ → Bool := fun x y => decide (¬ rowColLess rows cols y x)
  refine ⟨(List.range n).mergeSort le, List.mergeSort_perm _ _, ?_⟩
  have := List.pairwise_mergeSort (le := le) ?_ ?_ (List.range n)
  · exact this.imp fun h => by simpa [le] using h
  · intro a b c hab hbc
    simp only [le, decide_eq_true_eq, not_rowColLess] at hab hbc ⊢
    omega
  · intro a b
    simp only [le, Bool.or_eq_true, decide_eq_true_eq, not_rowColLess]
    omega

/-! ### Operations on triplets -/

theorem Triplet.triple_sum [CommSemiring K] {T : Triplet K} (hT : T.WF) (w : ℕ → ℕ → K) :
    ((List.range T.num).map fun i => T.values i * w (T.rows i) (T.cols i)).sum
      = ∑ r ∈ Finset.range T.numRows, ∑ c ∈ Finset.range T.numCols, T.entry r c * w r c := by
  have key : ∀ l : List (ℕ × ℕ × K), (∀ e ∈ l, e.1 < T.numRows ∧ e.2.1 < T.numCols) →
      (l.map fun e => e.2.2 * w e.1 e.2.1).sum
        = ∑ r ∈ Finset.range T.numRows, ∑ c ∈ Finset.range T.numCols, tripleSum l r c * w r c := by
    intro l
    induction l with
    | nil => intro _; simp [tripleSum]
    | cons a l ih =>
      intro hl
      have ih' := ih fun e he => hl e (List.mem_cons_of_mem _ he)
      have ha := hl a (List.mem_cons_self ..)
      simp only [tripleSum, List.map_cons, List.sum_cons, add_mul, Finset.sum_add_distrib] at ih' ⊢
      rw [ih']
      congr 1
      rw [Finset.sum_eq_single a.1, Finset.sum_eq_single a.2.1]
      · simp
      · intro b _ hb
        rw [if_neg (fun h => hb h.2.symm), zero_mul]
      · intro hn; exact absurd (Finset.mem_range.mpr ha.2) hn
      · intro b _ hb
        refine Finset.sum_eq_zero fun c _ => ?_
        rw [if_neg (fun h => hb h.1.symm), zero_mul]
      · intro hn; exact absurd (Finset.mem_range.mpr ha.1) hn
  have := key T.triples (by
    intro e he
    obtain ⟨i, hi, rfl⟩ := List.mem_map.mp he
    exact hT i (List.mem_range.mp hi))
  simpa [Triplet.triples, Triplet.entry, Function.comp_def] using this

/-- Products with triplet matrices. -/
theorem Triplet.rightMul_spec [CommSemiring K] {T : Triplet K} (hT : T.WF) (x y : ℕ → K) {k : ℕ}
    (hk : k < T.numRows) :
    T.rightMul x y k = y k + ∑ c ∈ Finset.range T.numCols, T.entry k c * x c := by
  unfold Triplet.rightMul
  rw [foldl_bump T.rows (fun i => T.values i * x (T.cols i))]
  congr 1
  have := Triplet.triple_sum hT fun r c => if r = k then x c else 0
  simp only [mul_ite, mul_zero] at this
  rw [this, Finset.sum_eq_single k]
  · simp
  · intro b _ hb; simp [hb]
  · intro hn; exact absurd (Finset.mem_range.mpr hk) hn

theorem Triplet.leftMul_spec [CommSemiring K] {T : Triplet K} (hT : T.WF) (x y : ℕ → K) {k : ℕ}
    (hk : k < T.numCols) :
    T.leftMul x y k = y k + ∑ r ∈ Finset.range T.numRows, T.entry r k * x r := by
  unfold Triplet.leftMul
  rw [foldl_bump T.cols (fun i => T.values i * x (T.rows i))]
  congr 1
  have := Triplet.triple_sum hT fun r c => if c = k then x r else 0
  simp only [mul_ite, mul_zero] at this
  rw [this]
  refine Finset.sum_congr rfl fun r _ => ?_
  rw [Finset.sum_ite_eq' (Finset.range T.numCols) k, if_pos (Finset.mem_range.mpr hk)]

/-- The dense matrix of the triplets has their sums. -/
theorem Triplet.toDense_spec [AddCommMonoid K] (T : Triplet K) (r c : ℕ) :
    T.toDense (r, c) = T.entry r c := by
  unfold Triplet.toDense Triplet.entry tripleSum Triplet.triples
  have key : ∀ (l : List ℕ) (D : ℕ × ℕ → K),
      l.foldl (fun D i => Function.update D (T.rows i, T.cols i)
        (D (T.rows i, T.cols i) + T.values i)) D (r, c)
      = D (r, c) + (l.map fun i => if T.rows i = r ∧ T.cols i = c then T.values i else 0).sum := by
    intro l
    induction l with
    | nil => simp
    | cons a l ih =>
      intro D
      rw [List.foldl_cons, ih, List.map_cons, List.sum_cons, ← add_assoc]
      congr 1
      by_cases h : T.rows a = r ∧ T.cols a = c
      · obtain ⟨rfl, rfl⟩ := h
        simp
      · rw [if_neg h, add_zero, Function.update_of_ne]
        intro he
        have := Prod.mk.inj he
        exact h ⟨this.1.symm, this.2.symm⟩
  rw [key, zero_add, List.map_map]
  rfl

/-- Appending triplets. -/
theorem triples_append {T : Triplet K} (n : ℕ) (R C : ℕ → ℕ) (V : ℕ → K) (nr nc : ℕ) :
    (⟨nr, nc, T.num + n, copyTo R n T.rows T.num, copyTo C n T.cols T.num,
      copyTo V n T.values T.num⟩ : Triplet K).triples
      = T.triples ++ (List.range n).map fun i => (R i, C i, V i) := by
  unfold Triplet.triples
  simp only [copyTo_apply]
  rw [List.range_add, List.map_append, List.map_map]
  congr 1
  · refine List.map_congr_left fun i hi => ?_
    have := List.mem_range.mp hi
    rw [if_neg (by omega), if_neg (by omega), if_neg (by omega)]
  · refine List.map_congr_left fun i hi => ?_
    have := List.mem_range.mp hi
    simp only [Function.comp_def]
    rw [if_pos (by omega), if_pos (by omega), if_pos (by omega), Nat.add_sub_cancel_left]

theorem Triplet.appendRows_spec {T B A : Triplet K} (hT : T.WF) (hB : B.WF)
    (h : T.appendRows B = some A) :
    A.WF ∧ A.numRows = T.numRows + B.numRows ∧ A.numCols = T.numCols ∧
      A.triples = T.triples ++ B.triples.map fun e => (e.1 + T.numRows, e.2.1, e.2.2) := by
  unfold Triplet.appendRows at h
  split_ifs at h with hc
  have h' := Option.some.inj h
  have ht : A.triples = T.triples ++ B.triples.map fun e => (e.1 + T.numRows, e.2.1, e.2.2) := by
    rw [← h']
    have := triples_append (T := T) B.num (fun i => B.rows i + T.numRows) B.cols B.values
      (T.numRows + B.numRows) T.numCols
    rw [this, Triplet.triples, Triplet.triples, List.map_map]
    rfl
  refine ⟨?_, by rw [← h'], by rw [← h'], ht⟩
  intro i hi
  have hm : (A.rows i, A.cols i, A.values i) ∈ A.triples :=
    List.mem_map.mpr ⟨i, List.mem_range.mpr hi, rfl⟩
  have hn : A.numRows = T.numRows + B.numRows := by rw [← h']
  have hn2 : A.numCols = T.numCols := by rw [← h']
  rw [ht] at hm
  rcases List.mem_append.mp hm with hm | hm
  · obtain ⟨j, hj, he⟩ := List.mem_map.mp hm
    have := hT j (List.mem_range.mp hj)
    simp only [Prod.mk.injEq] at he
    omega
  · obtain ⟨e, he, hee⟩ := List.mem_map.mp hm
    obtain ⟨j, hj, rfl⟩ := List.mem_map.mp he
    have := hB j (List.mem_range.mp hj)
    simp only [Prod.mk.injEq] at hee
    omega

theorem Triplet.appendCols_spec {T B A : Triplet K} (hT : T.WF) (hB : B.WF)
    (h : T.appendCols B = some A) :
    A.WF ∧ A.numRows = T.numRows ∧ A.numCols = T.numCols + B.numCols ∧
      A.triples = T.triples ++ B.triples.map fun e => (e.1, e.2.1 + T.numCols, e.2.2) := by
  unfold Triplet.appendCols at h
  split_ifs at h with hc
  have h' := Option.some.inj h
  have ht : A.triples = T.triples ++ B.triples.map fun e => (e.1, e.2.1 + T.numCols, e.2.2) := by
    rw [← h']
    have := triples_append (T := T) B.num B.rows (fun i => B.cols i + T.numCols) B.values
      T.numRows (T.numCols + B.numCols)
    rw [this, Triplet.triples, Triplet.triples, List.map_map]
    rfl
  refine ⟨?_, by rw [← h'], by rw [← h'], ht⟩
  intro i hi
  have hm : (A.rows i, A.cols i, A.values i) ∈ A.triples :=
    List.mem_map.mpr ⟨i, List.mem_range.mpr hi, rfl⟩
  have hn : A.numRows = T.numRows := by rw [← h']
  have hn2 : A.numCols = T.numCols + B.numCols := by rw [← h']
  rw [ht] at hm
  rcases List.mem_append.mp hm with hm | hm
  · obtain ⟨j, hj, he⟩ := List.mem_map.mp hm
    have := hT j (List.mem_range.mp hj)
    simp only [Prod.mk.injEq] at he
    omega
  · obtain ⟨e, he, hee⟩ := List.mem_map.mp hm
    obtain ⟨j, hj, rfl⟩ := List.mem_map.mp he
    have := hB j (List.mem_range.mp hj)
    simp only [Prod.mk.injEq] at hee
    omega

/-- `Resize` keeps exactly the entries that fit, in order, and no others. -/
theorem Triplet.resize_spec {T : Triplet K} (hT : T.WF) (nr nc : ℕ) :
    (T.resize nr nc).numRows = nr ∧ (T.resize nr nc).numCols = nc ∧ (T.resize nr nc).WF ∧
    (T.resize nr nc).triples
      = T.triples.filter fun e => decide (e.1 < nr ∧ e.2.1 < nc) := by
  have hmain : (T.resize nr nc).numRows = nr ∧ (T.resize nr nc).numCols = nc ∧
      (T.resize nr nc).triples = T.triples.filter fun e => decide (e.1 < nr ∧ e.2.1 < nc) := by
    unfold Triplet.resize
    by_cases hfit : T.numRows ≤ nr ∧ T.numCols ≤ nc
    · rw [if_pos hfit]
      refine ⟨rfl, rfl, ?_⟩
      symm
      rw [Triplet.triples, Triplet.triples, List.filter_eq_self]
      intro e he
      obtain ⟨i, hi, rfl⟩ := List.mem_map.mp he
      have := hT i (List.mem_range.mp hi)
      simp only [decide_eq_true_eq]
      omega
    · rw [if_neg hfit]
      set p : ℕ × ℕ × K → Bool := fun e => decide (e.1 < nr ∧ e.2.1 < nc) with hp
      set f : ℕ → ℕ × ℕ × K := fun i => (T.rows i, T.cols i, T.values i) with hf
      have inv : ∀ m ≤ T.num,
          let s := (List.range m).foldl (compactStep nr nc)
            (({ T with numRows := nr, numCols := nc } : Triplet K), 0)
          s.1.numRows = nr ∧ s.1.numCols = nc ∧
          s.2 + (((List.range m).map f).filter p).length = m ∧
          (List.range (m - s.2)).map (fun i => (s.1.rows i, s.1.cols i, s.1.values i))
            = ((List.range m).map f).filter p ∧
          ∀ i, m ≤ i → s.1.rows i = T.rows i ∧ s.1.cols i = T.cols i ∧
            s.1.values i = T.values i := by
        intro m
        induction m with
        | zero =>
          intro _
          simp
        | succ m ih =>
          intro hm
          obtain ⟨i1, i2, i3, i4, i5⟩ := ih (by omega)
          rw [List.range_succ, List.foldl_append, List.map_append, List.filter_append]
          simp only [List.foldl_cons, List.foldl_nil, List.map_cons, List.map_nil]
          set s := (List.range m).foldl (compactStep nr nc)
            (({ T with numRows := nr, numCols := nc } : Triplet K), 0) with hs
          obtain ⟨j1, j2, j3⟩ := i5 m le_rfl
          have hsm : s.2 ≤ m := by omega
          unfold compactStep
          by_cases hc : T.rows m < nr ∧ T.cols m < nc
          · have hpm : p (f m) = true := by simp [hp, hf, hc]
            have hff : ([f m].filter p) = [f m] := by simp [hpm]
            simp only [j1, j2, j3]
            rw [if_pos hc, hff]
            have hsub : m + 1 - s.2 = (m - s.2) + 1 := by omega
            by_cases h0 : s.2 = 0
            · rw [if_neg (by simpa using h0)]
              refine ⟨i1, i2, ?_, ?_, ?_⟩
              · rw [List.length_append]; simp; omega
              · rw [hsub, List.range_succ, List.map_append, i4]
                have : m - s.2 = m := by omega
                rw [this]
                simp [j1, j2, j3, hf]
              · intro i hi
                exact i5 i (by omega)
            · rw [if_pos h0]
              refine ⟨i1, i2, ?_, ?_, ?_⟩
              · rw [List.length_append]; simp; omega
              · simp only
                rw [hsub, List.range_succ, List.map_append, ← i4]
                congr 1
                · refine List.map_congr_left fun i hi => ?_
                  have : i ≠ m - s.2 := by have := List.mem_range.mp hi; omega
                  simp only [Function.update_of_ne this]
                · simp [hf]
              · intro i hi
                have : i ≠ m - s.2 := by omega
                simp only [Function.update_of_ne this]
                exact i5 i (by omega)
          · have hpm : p (f m) = false := by simp [hp, hf]; omega
            have hff : ([f m].filter p) = [] := by simp [hpm]
            simp only [j1, j2]
            rw [if_neg hc, hff]
            refine ⟨i1, i2, ?_, ?_, ?_⟩
            · simp only [List.append_nil]; omega
            · simp only [List.append_nil]
              have : m + 1 - (s.2 + 1) = m - s.2 := by omega
              rw [this, i4]
            · intro i hi
              exact i5 i (by omega)
      obtain ⟨i1, i2, i3, i4, _⟩ := inv T.num le_rfl
      exact ⟨i1, i2, i4⟩
  refine ⟨hmain.1, hmain.2.1, ?_, hmain.2.2⟩
  intro i hi
  have hm : ((T.resize nr nc).rows i, (T.resize nr nc).cols i, (T.resize nr nc).values i)
      ∈ (T.resize nr nc).triples := List.mem_map.mpr ⟨i, List.mem_range.mpr hi, rfl⟩
  rw [hmain.2.2] at hm
  rw [hmain.1, hmain.2.1]
  simpa using (List.mem_filter.mp hm).2

/-! ### Repeated entries -/

/-- Two entries for the same position. -/
def dupTriplet : Triplet ℤ := ⟨1, 1, 2, fun _ => 0, fun _ => 0, fun i => if i = 0 then 1 else 2⟩

/-- A finding: with repeated entries the products of the converted matrix are those of the triplets
(the sum), but its dense form keeps only the last of them. -/
theorem toDense_repeated_differs :
    ∃ M : Mat ℤ, fromTriplet dupTriplet false [0, 1] = some M ∧
      M.rightMul (fun _ => 1) (fun _ => 0) 0 = 3 ∧ dupTriplet.toDense (0, 0) = 3 ∧
      M.toDense (0, 0) = 2 := by
  refine ⟨_, rfl, ?_, ?_, ?_⟩ <;> decide +kernel

end Ceres.Sparse
