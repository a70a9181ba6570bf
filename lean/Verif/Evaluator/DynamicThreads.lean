import Verif.Evaluator.BlockLayout
import Verif.Sparse.Dynamic

/-!
# C09 and C10 for the dynamically sparse Jacobian, written by several threads

The threads of program_evaluator.h:189-263 call `Write` for different residual blocks at the same time.  Here a call is
the sequence of its accesses to the vectors of the matrix, and a run is any interleaving of these sequences (which
covers every number of threads and every assignment of residual blocks to threads).
-/
namespace Ceres.Evaluator

variable {α : Type}

/-- `dynamic_cols_` and `dynamic_values_` (dynamic_compressed_row_sparse_matrix.h:96-97). -/
structure Grow (α : Type) where
  cols : ℕ → List ℕ
  vals : ℕ → List α

/-- One access to a vector of the matrix: `resize(0)` and `push_back`
(dynamic_compressed_row_sparse_matrix.cc:53-54, 62-63). -/
inductive RowOp (α : Type) where
  | clearCols (row : ℕ)
  | clearVals (row : ℕ)
  | pushCol (row col : ℕ)
  | pushVal (row : ℕ) (v : α)

/-- The row whose vector is accessed. -/
def RowOp.row : RowOp α → ℕ
  | .clearCols r => r
  | .clearVals r => r
  | .pushCol r _ => r
  | .pushVal r _ => r

/-- The access. -/
def RowOp.run (m : Grow α) : RowOp α → Grow α
  | .clearCols r => { m with cols := Function.update m.cols r [] }
  | .clearVals r => { m with vals := Function.update m.vals r [] }
  | .pushCol r c => { m with cols := Function.update m.cols r (m.cols r ++ [c]) }
  | .pushVal r v => { m with vals := Function.update m.vals r (m.vals r ++ [v]) }

/-- Accesses one after the other. -/
def runRows (l : List (RowOp α)) (m : Grow α) : Grow α := l.foldl RowOp.run m

/-- The accesses of `DynamicCompressedRowJacobianWriter::Write` for residual block `i`
(dynamic_compressed_row_jacobian_writer.cc:60-98) with `ClearRows` and `InsertEntry`
(dynamic_compressed_row_sparse_matrix.cc:46-65).  The `CHECK`s of these are `dynamic_in_range`. -/
def dynamicOps [Zero α] [DecidableEq α] (P : Prog) (i : ℕ) (rb : RB) (jac : ℕ → ℕ → α) : List (RowOp α) :=
  ((List.range rb.numResiduals).flatMap fun r =>
    [.clearCols (P.rowOffset i + r), .clearVals (P.rowOffset i + r)]) ++
  (dynamicInserts P i rb jac).flatMap fun e => [.pushCol e.1 e.2.1, .pushVal e.1 e.2.2]

/-- What is to be done for every residual block of the program. -/
def dynamicPrograms [Zero α] [DecidableEq α] (P : Prog) (jac : ℕ → ℕ → ℕ → α) (i : ℕ) : List (RowOp α) :=
  if h : i < P.residuals.length then dynamicOps P i P.residuals[i] (jac i) else []

/-- The matrix before `Finalize`, as C38 has it; its size is that given in `CreateJacobian`
(dynamic_compressed_row_jacobian_writer.cc:51-58). -/
def Grow.dyn (P : Prog) (m : Grow α) : Sparse.Dyn α := ⟨P.numRows, P.sizes.sum, fun i => (m.cols i).zip (m.vals i)⟩

/-- `l` is an interleaving of the sequences: each is in `l` in its order, and nothing else is. -/
inductive Interleaving {β : Type} : (ℕ → List β) → List β → Prop
  | done (ls : ℕ → List β) (h : ∀ k, ls k = []) : Interleaving ls []
  | step (ls : ℕ → List β) (k : ℕ) (x : β) (t l : List β) (h : ls k = x :: t)
      (h' : Interleaving (Function.update ls k t) l) : Interleaving ls (x :: l)

/-- An interleaving has, of the elements that only one sequence has, those of this sequence in its order. -/
theorem Interleaving.filter {β : Type} {ls : ℕ → List β} {l : List β} (h : Interleaving ls l) (p : β → Bool) (k : ℕ)
    (hp : ∀ j, j ≠ k → ∀ x ∈ ls j, p x = false) : l.filter p = (ls k).filter p := by
  induction h with
  | done ls h => rw [h k]
  | step ls j x t l h _ ih =>
    have ih := ih (by
      intro i hi y hy
      by_cases hij : i = j
      · subst hij
        rw [Function.update_self] at hy
        exact hp i hi y (by rw [h]; exact List.mem_cons_of_mem _ hy)
      · rw [Function.update_of_ne hij] at hy
        exact hp i hi y hy)
    by_cases hjk : j = k
    · subst hjk
      rw [Function.update_self] at ih
      rw [h, List.filter_cons, List.filter_cons, ih]
    · rw [Function.update_of_ne (Ne.symm hjk)] at ih
      rw [List.filter_cons, hp j hjk x (by rw [h]; exact List.mem_cons_self), if_neg (by simp), ih]

theorem Interleaving.prepend {β : Type} (k : ℕ) (s : List β) (ls : ℕ → List β) (l : List β) (hs : ls k = s)
    (h : Interleaving (Function.update ls k []) l) : Interleaving ls (s ++ l) := by
  induction s generalizing ls with
  | nil => rwa [← hs, Function.update_eq_self] at h
  | cons x s ih =>
    refine .step ls k x s _ hs (ih _ (Function.update_self ..) ?_)
    rwa [Function.update_idem]

/-- There are interleavings. -/
theorem Interleaving.exists {β : Type} (n : ℕ) (ls : ℕ → List β) (h : ∀ k, n ≤ k → ls k = []) :
    ∃ l, Interleaving ls l := by
  induction n generalizing ls with
  | zero => exact ⟨[], .done ls fun k => h k (Nat.zero_le _)⟩
  | succ n ih =>
    obtain ⟨l, hl⟩ := ih (Function.update ls n []) fun k hk => by
      by_cases hkn : k = n
      · subst hkn; exact Function.update_self ..
      · rw [Function.update_of_ne hkn]; exact h k (by omega)
    exact ⟨_, .prepend n _ ls l rfl hl⟩

/-! ### One row -/

/-- The effect of an access on the two vectors of its row. -/
def RowOp.act (x : List ℕ × List α) : RowOp α → List ℕ × List α
  | .clearCols _ => ([], x.2)
  | .clearVals _ => (x.1, [])
  | .pushCol _ c => (x.1 ++ [c], x.2)
  | .pushVal _ v => (x.1, x.2 ++ [v])

theorem run_at (m : Grow α) (o : RowOp α) (R : ℕ) :
    ((RowOp.run m o).cols R, (RowOp.run m o).vals R) =
      if o.row = R then RowOp.act (m.cols R, m.vals R) o else (m.cols R, m.vals R) := by
  by_cases h : o.row = R
  · rw [if_pos h]
    subst h
    cases o <;> simp [RowOp.row, RowOp.run, RowOp.act]
  · rw [if_neg h]
    cases o <;> simp only [RowOp.row] at h <;> simp [RowOp.run, Function.update_of_ne (Ne.symm h)]

theorem runRows_at (l : List (RowOp α)) (m : Grow α) (R : ℕ) :
    ((runRows l m).cols R, (runRows l m).vals R) =
      (l.filter fun o => o.row = R).foldl RowOp.act (m.cols R, m.vals R) := by
  induction l generalizing m with
  | nil => rfl
  | cons o l ih =>
    show ((runRows l (RowOp.run m o)).cols R, (runRows l (RowOp.run m o)).vals R) = _
    rw [ih, run_at, List.filter_cons]
    by_cases h : o.row = R
    · simp [h]
    · simp [h]

theorem clears_act (o R : ℕ) (L : List ℕ) (x : List ℕ × List α) :
    (((L.flatMap fun r => ([.clearCols (o + r), .clearVals (o + r)] : List (RowOp α))).filter
      fun p => p.row = R).foldl RowOp.act x) = if ∃ r ∈ L, o + r = R then ([], []) else x := by
  induction L generalizing x with
  | nil => simp
  | cons r L ih =>
    rw [List.flatMap_cons, List.filter_append, List.foldl_append, ih]
    by_cases h : o + r = R
    · simp [RowOp.row, RowOp.act, h]
    · simp [RowOp.row, h]

theorem pushes_act (R : ℕ) (es : List (ℕ × ℕ × α)) (x : List ℕ × List α) :
    (((es.flatMap fun e => ([.pushCol e.1 e.2.1, .pushVal e.1 e.2.2] : List (RowOp α))).filter
      fun p => p.row = R).foldl RowOp.act x) =
      (x.1 ++ (es.filter fun e => e.1 = R).map fun e => e.2.1,
        x.2 ++ (es.filter fun e => e.1 = R).map fun e => e.2.2) := by
  induction es generalizing x with
  | nil => simp
  | cons e es ih =>
    rw [List.flatMap_cons, List.filter_append, List.foldl_append, ih]
    by_cases h : e.1 = R
    · simp [RowOp.row, RowOp.act, h]
    · simp [RowOp.row, h]

/-! ### The inserted entries -/

theorem mem_dynamicInserts [Zero α] [DecidableEq α] {P : Prog} {i : ℕ} {rb : RB} {jac : ℕ → ℕ → α}
    {e : ℕ × ℕ × α} (he : e ∈ dynamicInserts P i rb jac) :
    ∃ p ∈ activeArgs rb, ∃ r < rb.numResiduals, ∃ c < P.size p.1,
      e.1 = P.rowOffset i + r ∧ e.2.1 = P.offset p.1 + c ∧ e.2.2 ≠ 0 := by
  unfold dynamicInserts at he
  simp only [List.mem_flatMap, List.mem_range, List.mem_filterMap] at he
  obtain ⟨p, hp, r, hr, c, hc, h⟩ := he
  split_ifs at h with h0
  cases h
  exact ⟨p, (orderedBlocks_perm rb).mem_iff.1 hp, r, hr, c, hc, rfl, rfl, h0⟩

/-- Entries of the same row are inserted from left to right. -/
theorem inserts_ordered [Zero α] [DecidableEq α] {P : Prog} {i : ℕ} {rb : RB} (jac : ℕ → ℕ → α)
    (hd : ((activeArgs rb).map Prod.fst).Nodup) (hlt : ∀ p ∈ activeArgs rb, p.1 < P.sizes.length) :
    (dynamicInserts P i rb jac).Pairwise fun a b => a.1 = b.1 → a.2.1 < b.2.1 := by
  unfold dynamicInserts
  rw [List.pairwise_flatMap]
  constructor
  · intro p _
    rw [List.pairwise_flatMap]
    constructor
    · intro r _
      rw [List.pairwise_filterMap]
      refine List.pairwise_lt_range.imp ?_
      intro c c' hcc b hb b' hb' _
      split_ifs at hb hb'
      cases hb; cases hb'
      show P.offset p.1 + c < P.offset p.1 + c'
      omega
    · refine List.pairwise_lt_range.imp ?_
      intro r r' hrr a ha b hb hab
      rw [List.mem_filterMap] at ha hb
      obtain ⟨c, -, ha⟩ := ha
      obtain ⟨c', -, hb⟩ := hb
      split_ifs at ha hb
      cases ha; cases hb
      change P.rowOffset i + r = P.rowOffset i + r' at hab
      omega
  · refine (List.Pairwise.imp_of_mem ?_ (orderedBlocks_strict rb hd))
    intro p q hp hq hpq a ha b hb _
    rw [List.mem_flatMap] at ha hb
    obtain ⟨r, -, ha⟩ := ha
    obtain ⟨r', -, hb⟩ := hb
    rw [List.mem_filterMap] at ha hb
    obtain ⟨c, hc, ha⟩ := ha
    obtain ⟨c', -, hb⟩ := hb
    split_ifs at ha hb
    cases ha; cases hb
    have hq' := hlt q ((orderedBlocks_perm rb).mem_iff.1 hq)
    have := offset_mono P hpq hq'.le
    rw [List.mem_range] at hc
    show P.offset p.1 + c < P.offset q.1 + c'
    omega

theorem colSum_inserted [AddMonoid α] (es : List (ℕ × ℕ × α)) (R C : ℕ) :
    Sparse.colSum ((es.filter fun e => e.1 = R).map Prod.snd) C = insertedEntry es R C := by
  unfold Sparse.colSum insertedEntry
  induction es with
  | nil => rfl
  | cons e es ih =>
    rw [List.filter_cons]
    by_cases h : e.1 = R
    · simp only [h, decide_true, if_true, List.map_cons, List.sum_cons, true_and, ih]
    · simp only [h, decide_false, Bool.false_eq_true, if_false, List.map_cons, List.sum_cons, false_and, zero_add, ih]

/-! ### Rows and their owners -/

theorem owner_exists (l : List ℕ) (R : ℕ) (h : R < l.sum) :
    ∃ i r, ∃ hi : i < l.length, r < l[i] ∧ R = (l.take i).sum + r := by
  induction l generalizing R with
  | nil => simp at h
  | cons n l ih =>
    by_cases hn : R < n
    · exact ⟨0, R, by simp, by simpa using hn, by simp⟩
    · obtain ⟨i, r, hi, hr, he⟩ := ih (R - n) (by rw [List.sum_cons] at h; omega)
      refine ⟨i + 1, r, by simpa using hi, by simpa using hr, ?_⟩
      rw [List.take_succ_cons, List.sum_cons]
      omega

theorem row_owner_exists (P : Prog) {R : ℕ} (h : R < P.numRows) :
    ∃ i r, ∃ hi : i < P.residuals.length, r < (P.residuals[i]).numResiduals ∧ R = P.rowOffset i + r := by
  obtain ⟨i, r, hi, hr, he⟩ := owner_exists _ R h
  refine ⟨i, r, by simpa using hi, by simpa using hr, ?_⟩
  rw [he, ← List.map_take]
  rfl

theorem row_lt (P : Prog) {i r : ℕ} (hi : i < P.residuals.length) (hr : r < (P.residuals[i]).numResiduals) :
    P.rowOffset i + r < P.numRows := by
  unfold Prog.rowOffset Prog.numRows
  conv_rhs => rw [← List.take_append_drop i P.residuals, List.map_append, List.sum_append,
    List.drop_eq_getElem_cons hi, List.map_cons, List.sum_cons]
  omega

theorem mem_programs_row [Zero α] [DecidableEq α] {P : Prog} {jac : ℕ → ℕ → ℕ → α} {i : ℕ} {o : RowOp α}
    (ho : o ∈ dynamicPrograms P jac i) :
    ∃ hi : i < P.residuals.length, ∃ r < (P.residuals[i]).numResiduals, o.row = P.rowOffset i + r := by
  unfold dynamicPrograms at ho
  split_ifs at ho with hi
  · refine ⟨hi, ?_⟩
    unfold dynamicOps at ho
    rw [List.mem_append, List.mem_flatMap, List.mem_flatMap] at ho
    rcases ho with ⟨r, hr, ho⟩ | ⟨e, he, ho⟩
    · refine ⟨r, List.mem_range.1 hr, ?_⟩
      simp only [List.mem_cons, List.not_mem_nil, or_false] at ho
      rcases ho with rfl | rfl <;> rfl
    · obtain ⟨p, -, r, hr, c, -, h1, -⟩ := mem_dynamicInserts he
      refine ⟨r, hr, ?_⟩
      simp only [List.mem_cons, List.not_mem_nil, or_false] at ho
      rcases ho with rfl | rfl <;> exact h1
  · simp at ho

/-- **C09 (dynamic).** Two threads that write different residual blocks never access the vectors of the same row: there
is no data race, and the order of their accesses does not matter. -/
theorem dynamic_no_race [Zero α] [DecidableEq α] {P : Prog} {jac : ℕ → ℕ → ℕ → α} {i j : ℕ} {a b : RowOp α}
    (ha : a ∈ dynamicPrograms P jac i) (hb : b ∈ dynamicPrograms P jac j) (h : a.row = b.row) : i = j := by
  obtain ⟨hi, r, hr, h1⟩ := mem_programs_row ha
  obtain ⟨hj, r', hr', h2⟩ := mem_programs_row hb
  exact (row_owner P hi hj hr hr' (by rw [← h1, ← h2, h])).1

/-- **C10 (dynamic).** The `CHECK`s of `ClearRows` and `InsertEntry` hold: rows and columns are those of the matrix. -/
theorem dynamic_in_range [Zero α] [DecidableEq α] {P : Prog} (hP : P.Ok) {jac : ℕ → ℕ → ℕ → α} {i : ℕ}
    {o : RowOp α} (ho : o ∈ dynamicPrograms P jac i) :
    o.row < P.numRows ∧ ∀ r c, o = .pushCol r c → c < P.sizes.sum := by
  refine ⟨?_, ?_⟩
  · obtain ⟨hi, r, hr, h1⟩ := mem_programs_row ho
    rw [h1]
    exact row_lt P hi hr
  · rintro r c rfl
    unfold dynamicPrograms at ho
    split_ifs at ho with hi
    · unfold dynamicOps at ho
      simp only [List.mem_append, List.mem_flatMap, List.mem_cons, List.not_mem_nil, or_false, reduceCtorEq,
        and_false, exists_false, false_or, RowOp.pushCol.injEq] at ho
      obtain ⟨e, he, -, rfl⟩ := ho
      obtain ⟨p, hp, r, -, c, hc, -, h2, -⟩ := mem_dynamicInserts he
      have hlt := (hP _ (List.getElem_mem hi)).2 p hp
      have := offset_mono P (a := p.1) (b := P.sizes.length) hlt le_rfl
      have e : P.offset P.sizes.length = P.sizes.sum := by unfold Prog.offset; rw [List.take_length]
      omega
    · simp at ho

/-- The two vectors of a row after any interleaving, whatever they held before. -/
theorem dynamic_row [Zero α] [DecidableEq α] {P : Prog} (jac : ℕ → ℕ → ℕ → α) (m : Grow α) {l : List (RowOp α)}
    (hl : Interleaving (dynamicPrograms P jac) l) {i : ℕ} (hi : i < P.residuals.length) {r : ℕ}
    (hr : r < (P.residuals[i]).numResiduals) :
    ((runRows l m).cols (P.rowOffset i + r), (runRows l m).vals (P.rowOffset i + r)) =
      (((dynamicInserts P i P.residuals[i] (jac i)).filter fun e => e.1 = P.rowOffset i + r).map fun e => e.2.1,
        ((dynamicInserts P i P.residuals[i] (jac i)).filter fun e => e.1 = P.rowOffset i + r).map fun e => e.2.2) := by
  rw [runRows_at, hl.filter _ i]
  · unfold dynamicPrograms
    rw [dif_pos hi]
    unfold dynamicOps
    rw [List.filter_append, List.foldl_append, clears_act, pushes_act, if_pos ⟨r, List.mem_range.2 hr, rfl⟩]
    rfl
  · intro j hj o ho
    obtain ⟨hj', r', hr', h1⟩ := mem_programs_row ho
    simp only [decide_eq_false_iff_not, h1]
    intro h
    exact hj (row_owner P hj' hi hr' hr h).1

/-- **C09 and C10 (dynamic).** Whatever the matrix held before, and however the writes of the residual blocks are
interleaved, `Finalize` makes a well formed matrix: every row has its columns from left to right, no entry is zero, and
the matrix is the Jacobian of the program. -/
theorem dynamic_threads [AddCommMonoid α] [DecidableEq α] {P : Prog} (hP : P.Ok) (jac : ℕ → ℕ → ℕ → α) (m : Grow α)
    {l : List (RowOp α)} (hl : Interleaving (dynamicPrograms P jac) l) (s : Sparse.Flat α) :
    (∀ R < P.numRows, ((runRows l m).cols R).length = ((runRows l m).vals R).length) ∧
    ∃ M, ((runRows l m).dyn P).finalize s = some M ∧ M.WF ∧ M.numRows = P.numRows ∧ M.numCols = P.sizes.sum ∧
      ∀ i, ∀ hi : i < P.residuals.length, ∀ r < (P.residuals[i]).numResiduals,
        (M.row (P.rowOffset i + r)).Pairwise (fun a b => a.1 < b.1) ∧
        (∀ e ∈ M.row (P.rowOffset i + r), e.2 ≠ 0) ∧
        ∀ C, M.entry (P.rowOffset i + r) C = denseJacobian P i r P.residuals[i] jac C := by
  have hrow : ∀ i, ∀ hi : i < P.residuals.length, ∀ r < (P.residuals[i]).numResiduals,
      ((runRows l m).dyn P).dyn (P.rowOffset i + r) =
        ((dynamicInserts P i P.residuals[i] (jac i)).filter fun e => e.1 = P.rowOffset i + r).map Prod.snd := by
    intro i hi r hr
    have h := dynamic_row jac m hl hi hr
    rw [Prod.mk.injEq] at h
    show ((runRows l m).cols _).zip ((runRows l m).vals _) = _
    rw [h.1, h.2, List.zip_map']
  refine ⟨?_, ?_⟩
  · intro R hR
    obtain ⟨i, r, hi, hr, rfl⟩ := row_owner_exists P hR
    have h := dynamic_row jac m hl hi hr
    rw [Prod.mk.injEq] at h
    rw [h.1, h.2, List.length_map, List.length_map]
  · obtain ⟨M, h1, h2, h3, h4, -, h6⟩ := Sparse.Dyn.finalize_spec ((runRows l m).dyn P) s (by
      intro R hR e he
      obtain ⟨i, r, hi, hr, rfl⟩ := row_owner_exists P hR
      rw [hrow i hi r hr, List.mem_map] at he
      obtain ⟨e', he', rfl⟩ := he
      obtain ⟨p, hp, r', -, c, hc, -, h2, -⟩ := mem_dynamicInserts (List.mem_filter.1 he').1
      have hlt := (hP _ (List.getElem_mem hi)).2 p hp
      have := offset_mono P (a := p.1) (b := P.sizes.length) hlt le_rfl
      have e : P.offset P.sizes.length = P.sizes.sum := by unfold Prog.offset; rw [List.take_length]
      show e'.2.1 < P.sizes.sum
      omega)
    refine ⟨M, h1, h2, h3, h4, fun i hi r hr => ?_⟩
    have hM : M.row (P.rowOffset i + r) = _ := (h6 _ (row_lt P hi hr)).trans (hrow i hi r hr)
    refine ⟨?_, ?_, fun C => ?_⟩
    · rw [hM, List.pairwise_map]
      obtain ⟨hd, hlt⟩ := hP _ (List.getElem_mem hi)
      refine List.Pairwise.imp_of_mem ?_ ((inserts_ordered (P := P) (i := i) (jac i) hd hlt).filter _)
      intro a b ha hb hab
      have ha' := (List.mem_filter.1 ha).2
      have hb' := (List.mem_filter.1 hb).2
      exact hab ((of_decide_eq_true ha').trans (of_decide_eq_true hb').symm)
    · intro e he
      rw [hM, List.mem_map] at he
      obtain ⟨e', he', rfl⟩ := he
      obtain ⟨p, hp, r', -, c, hc, -, -, h0⟩ := mem_dynamicInserts (List.mem_filter.1 he').1
      exact h0
    · unfold Sparse.Mat.entry
      rw [hM, colSum_inserted, dynamic_entry jac hi hr]

/-- Two residual blocks of two residuals each that share a parameter block: the theorem applies, for a matrix that held
something else, and there are interleavings of the writes. -/
example : ∃ P : Prog, P.Ok ∧ P.numRows = 4 ∧
    ∃ l, Interleaving (dynamicPrograms P fun i j k => ((i + j + k : ℕ) : ℕ)) l :=
  ⟨⟨[2, 1], [⟨2, [some 1, some 0]⟩, ⟨2, [none, some 1]⟩]⟩, by
    intro rb hrb
    simp only [List.mem_cons, List.not_mem_nil, or_false] at hrb
    rcases hrb with rfl | rfl <;> simp [activeArgs, List.zipIdx_cons], rfl,
    Interleaving.exists 2 _ fun k hk => dif_neg (by simpa using hk)⟩

end Ceres.Evaluator
