import Verif.Sparse.Convert

/-!
# The dynamic matrix (C38)
-/
namespace Ceres.Sparse

variable {K : Type}

/-- What a caller does to a dynamic matrix between two calls of `Finalize`. -/
inductive DynOp (K : Type) where
  | insert (row col : ℕ) (v : K)
  | clear (start n : ℕ)

/-- Running one call. -/
def Dyn.run1 (D : Dyn K) : DynOp K → Option (Dyn K)
  | .insert r c v => D.insert r c v
  | .clear s n => D.clear s n

/-- Running a history of calls. -/
def Dyn.run (D : Dyn K) : List (DynOp K) → Option (Dyn K)
  | [] => some D
  | op :: ops => (D.run1 op).bind fun D => D.run ops

/-- The arguments are in range. -/
def DynOp.ok (nr nc : ℕ) : DynOp K → Prop
  | .insert r c _ => r < nr ∧ c < nc
  | .clear s n => n = 0 ∨ s + n ≤ nr

/-- The call clears row `i`. -/
def DynOp.clears (i : ℕ) : DynOp K → Bool
  | .insert _ _ _ => false
  | .clear s n => decide (s ≤ i ∧ i < s + n)

/-- The entry the call puts into row `i`. -/
def DynOp.entry? (i : ℕ) : DynOp K → Option (ℕ × K)
  | .insert r c v => if r = i then some (c, v) else none
  | .clear _ _ => none

/-- The specification of row `i`: what was inserted into it since it was last cleared, in order of
insertion. -/
def sinceCleared (i : ℕ) (ops : List (DynOp K)) : List (ℕ × K) :=
  ((ops.reverse.takeWhile fun op => !op.clears i).reverse).filterMap (DynOp.entry? i)

theorem Dyn.clear_spec (D : Dyn K) (s n : ℕ) (h : n = 0 ∨ s + n ≤ D.numRows) :
    ∃ D', D.clear s n = some D' ∧ D'.numRows = D.numRows ∧ D'.numCols = D.numCols ∧
      ∀ i, D'.dyn i = if s ≤ i ∧ i < s + n then [] else D.dyn i := by
  induction n generalizing D s with
  | zero => exact ⟨D, rfl, rfl, rfl, fun i => by rw [if_neg (by omega)]⟩
  | succ n ih =>
    have hs : s < D.numRows := by omega
    obtain ⟨D', h1, h2, h3, h4⟩ := ih { D with dyn := Function.update D.dyn s [] } (s + 1)
      (by right; show s + 1 + n ≤ D.numRows; omega)
    refine ⟨D', ?_, h2, h3, ?_⟩
    · simp only [Dyn.clear]
      rw [if_pos hs, h1]
    · intro i
      rw [h4]
      by_cases hi : i = s
      · subst hi
        simp
      · simp only [Function.update_of_ne hi]
        by_cases h5 : s + 1 ≤ i ∧ i < s + 1 + n
        · rw [if_pos h5, if_pos (by omega)]
        · rw [if_neg h5, if_neg (by omega)]

/-- A clear outside of the matrix aborts. -/
theorem Dyn.clear_none (D : Dyn K) (s n : ℕ) (h : n ≠ 0) (h2 : D.numRows < s + n) :
    D.clear s n = none := by
  induction n generalizing D s with
  | zero => exact absurd rfl h
  | succ n ih =>
    simp only [Dyn.clear]
    by_cases hs : s < D.numRows
    · rw [if_pos hs]
      exact ih _ _ (by omega) (by show D.numRows < s + 1 + n; omega)
    · rw [if_neg hs]

theorem sinceCleared_snoc (i : ℕ) (ops : List (DynOp K)) (op : DynOp K) :
    sinceCleared i (ops ++ [op])
      = (if op.clears i then [] else sinceCleared i ops) ++ (op.entry? i).toList := by
  unfold sinceCleared
  rw [List.reverse_append, List.reverse_singleton, List.singleton_append]
  by_cases h : op.clears i
  · rw [List.takeWhile_cons_of_neg (by simpa using h), if_pos h]
    cases op with
    | insert r c v => simp [DynOp.clears] at h
    | clear s n => simp [DynOp.entry?]
  · rw [List.takeWhile_cons_of_pos (by simpa using h), if_neg h, List.reverse_cons,
      List.filterMap_append]
    rfl

theorem Dyn.run_append (D : Dyn K) (a b : List (DynOp K)) :
    D.run (a ++ b) = (D.run a).bind fun D => D.run b := by
  induction a generalizing D with
  | nil => rfl
  | cons op a ih =>
    simp only [List.cons_append, Dyn.run]
    cases h : D.run1 op with
    | none => rfl
    | some D' => simp [ih]

/-- After any history of calls with arguments in range, each row holds what was inserted into it
since it was last cleared. -/
theorem Dyn.run_spec (nr nc : ℕ) (ops : List (DynOp K)) (hok : ∀ op ∈ ops, op.ok nr nc) :
    ∃ D : Dyn K, (⟨nr, nc, fun _ => []⟩ : Dyn K).run ops = some D ∧ D.numRows = nr ∧
      D.numCols = nc ∧ ∀ i, D.dyn i = sinceCleared i ops := by
  induction ops using List.reverseRecOn with
  | nil => exact ⟨_, rfl, rfl, rfl, fun i => rfl⟩
  | append_singleton ops op ih =>
    obtain ⟨D, h1, h2, h3, h4⟩ := ih fun o ho => hok o (by simp [ho])
    have hop := hok op (by simp)
    rw [Dyn.run_append, h1]
    simp only [Option.bind_some, Dyn.run]
    cases op with
    | insert r c v =>
      simp only [DynOp.ok] at hop
      refine ⟨{ D with dyn := Function.update D.dyn r (D.dyn r ++ [(c, v)]) }, ?_, h2, h3, ?_⟩
      · simp only [Dyn.run1, Dyn.insert]
        rw [if_pos (by rw [h2, h3]; exact hop)]
        rfl
      · intro i
        rw [sinceCleared_snoc]
        by_cases hi : r = i
        · subst hi
          simp [DynOp.clears, DynOp.entry?, h4]
        · simp only [Function.update_of_ne (Ne.symm hi)]
          simp [DynOp.clears, DynOp.entry?, h4, hi]
    | clear s n =>
      simp only [DynOp.ok] at hop
      obtain ⟨D', g1, g2, g3, g4⟩ := Dyn.clear_spec D s n (by rw [h2]; exact hop)
      refine ⟨D', ?_, g2.trans h2, g3.trans h3, ?_⟩
      · simp only [Dyn.run1]
        rw [g1]
        rfl
      · intro i
        rw [g4, sinceCleared_snoc, h4]
        simp [DynOp.clears, DynOp.entry?]

theorem copyList_apply {α : Type} (l : List α) (dst : ℕ → α) (pos i : ℕ) :
    copyList l dst pos i = if h : pos ≤ i ∧ i - pos < l.length then l[i - pos] else dst i :=
  foldl_zipIdx id l dst pos i

/-- `Finalize` never aborts and lays out the rows one after the other, whatever was in the arrays
before. -/
theorem Dyn.finalize_spec (D : Dyn K) (s : Flat K)
    (hb : ∀ i < D.numRows, ∀ e ∈ D.dyn i, e.1 < D.numCols) :
    ∃ M, D.finalize s = some M ∧ M.WF ∧ M.numRows = D.numRows ∧ M.numCols = D.numCols ∧
      M.storage = .unsymmetric ∧ ∀ i < D.numRows, M.row i = D.dyn i := by
  set step : Flat K → ℕ → Flat K := fun s i =>
    { rows := Function.update s.rows i s.index
      cols := if 0 < (D.dyn i).length then copyList ((D.dyn i).map Prod.fst) s.cols s.index
        else s.cols
      vals := if 0 < (D.dyn i).length then copyList ((D.dyn i).map Prod.snd) s.vals s.index
        else s.vals
      index := if 0 < (D.dyn i).length then s.index + (D.dyn i).length else s.index } with hstep
  have hstep' : ∀ (t : Flat K) (i : ℕ), step t i =
      { rows := Function.update t.rows i t.index
        cols := copyList ((D.dyn i).map Prod.fst) t.cols t.index
        vals := copyList ((D.dyn i).map Prod.snd) t.vals t.index
        index := t.index + (D.dyn i).length } := by
    intro t i
    simp only [hstep]
    by_cases h : 0 < (D.dyn i).length
    · simp [h]
    · have h0 : D.dyn i = [] := List.length_eq_zero_iff.mp (by omega)
      simp [h0, copyList]
  set len : ℕ → ℕ := fun n => (List.range n).foldl (fun a i => a + (D.dyn i).length) 0 with hlen
  have hlen_succ : ∀ n, len (n + 1) = len n + (D.dyn n).length := by
    intro n; simp only [hlen]; rw [List.range_succ, List.foldl_append]; rfl
  have inv : ∀ n, let t := (List.range n).foldl step { s with index := 0 }
      t.index = len n ∧ (∀ i < n, t.rows i = len i) ∧
      ∀ i < n, (List.range' (len i) (D.dyn i).length).map (fun j => (t.cols j, t.vals j))
        = D.dyn i := by
    intro n
    induction n with
    | zero => exact ⟨rfl, fun i hi => absurd hi (Nat.not_lt_zero _),
        fun i hi => absurd hi (Nat.not_lt_zero _)⟩
    | succ n ih =>
      obtain ⟨i1, i2, i3⟩ := ih
      have hmono : ∀ i ≤ n, ∀ k, i + k = n → len i ≤ len n := by
        intro i hi k
        induction k generalizing i with
        | zero => intro h; simp at h; rw [h]
        | succ k ih' =>
          intro h
          have := ih' (i + 1) (by omega) (by omega)
          have := hlen_succ i
          omega
      rw [List.range_succ, List.foldl_append, List.foldl_cons, List.foldl_nil]
      set t := (List.range n).foldl step { s with index := 0 } with ht
      rw [hstep']
      refine ⟨?_, ?_, ?_⟩
      · rw [hlen_succ, ← i1]
      · intro i hi
        simp only
        by_cases h : i = n
        · subst h; rw [Function.update_self, i1]
        · rw [Function.update_of_ne h, i2 i (by omega)]
      · intro i hi
        simp only
        by_cases h : i = n
        · subst h
          have := range'_map_eq (fun j => (copyList ((D.dyn i).map Prod.fst) t.cols t.index j,
            copyList ((D.dyn i).map Prod.snd) t.vals t.index j)) id (D.dyn i) (len i) (by
              intro j hj
              rw [copyList_apply, copyList_apply, i1]
              rw [dif_pos (by simp; omega), dif_pos (by simp; omega)]
              simp)
          rw [this, List.map_id]
        · rw [← i3 i (by omega)]
          have hl : (D.dyn i).length = ((D.dyn i)).length := rfl
          rw [i3 i (by omega)]
          conv_rhs => rw [← i3 i (by omega)]
          refine List.map_congr_left fun j hj => ?_
          rw [List.mem_range'_1] at hj
          have h1 := hlen_succ i
          have h2 : len (i + 1) ≤ len n := hmono (i + 1) (by omega) (n - (i + 1)) (by omega)
          rw [copyList_apply, copyList_apply, dif_neg (by omega), dif_neg (by omega)]
  obtain ⟨i1, i2, i3⟩ := inv D.numRows
  set t := (List.range D.numRows).foldl step { s with index := 0 } with ht
  set M : Mat K := ⟨D.numRows, D.numCols, Function.update t.rows D.numRows t.index, t.cols, t.vals,
    .unsymmetric, []⟩ with hM
  have hfin : D.finalize s = some M := by
    have : D.finalize s = if t.index = len D.numRows then some M else none := rfl
    rw [this, if_pos i1]
  have hrows : ∀ i ≤ D.numRows, M.rows i = len i := by
    intro i hi
    show Function.update t.rows D.numRows t.index i = len i
    by_cases h : i = D.numRows
    · subst h; rw [Function.update_self, i1]
    · rw [Function.update_of_ne h, i2 i (by omega)]
  have hrow : ∀ i < D.numRows, M.row i = D.dyn i := by
    intro i hi
    unfold Mat.row Mat.idxs
    rw [hrows i hi.le, hrows (i + 1) hi, hlen_succ, Nat.add_sub_cancel_left]
    exact i3 i hi
  have hstart : M.rows 0 = 0 := hrows 0 (Nat.zero_le _)
  refine ⟨M, hfin, ⟨hstart, ?_, ?_⟩, rfl, rfl, rfl, hrow⟩
  · intro r hr
    have hr' : r < D.numRows := hr
    rw [hrows r hr'.le, hrows (r + 1) hr', hlen_succ]
    omega
  · intro i hi
    have key : ∀ n ≤ D.numRows, i < M.rows n → ∃ c < n, i ∈ M.idxs c := by
      intro n
      induction n with
      | zero => intro _ h0; rw [hstart] at h0; omega
      | succ n ih =>
        intro hn hin
        by_cases hlt : i < M.rows n
        · obtain ⟨c, hc, hi⟩ := ih (by omega) hlt
          exact ⟨c, by omega, hi⟩
        · exact ⟨n, by omega, Mat.mem_idxs.mpr ⟨by omega, hin⟩⟩
    obtain ⟨c, hc, hic⟩ := key _ le_rfl hi
    have hmem : (M.cols i, M.values i) ∈ M.row c := List.mem_map.mpr ⟨i, hic, rfl⟩
    rw [hrow c hc] at hmem
    exact hb c hc _ hmem

/-- **C38.** After any history of insertions and clears with arguments in range, `Finalize` succeeds
and row `i` of the matrix is what was inserted into it since it was last cleared, in order, whatever
the arrays held from earlier calls of `Finalize`. -/
theorem dynamic_history (nr nc : ℕ) (ops : List (DynOp K)) (hok : ∀ op ∈ ops, op.ok nr nc)
    (s : Flat K) :
    ∃ D M, (⟨nr, nc, fun _ => []⟩ : Dyn K).run ops = some D ∧ D.finalize s = some M ∧ M.WF ∧
      M.numRows = nr ∧ M.numCols = nc ∧ ∀ i < nr, M.row i = sinceCleared i ops := by
  obtain ⟨D, h1, h2, h3, h4⟩ := Dyn.run_spec nr nc ops hok
  obtain ⟨M, g1, g2, g3, g4, _, g5⟩ := Dyn.finalize_spec D s (by
    intro i hi e he
    rw [h4] at he
    unfold sinceCleared at he
    obtain ⟨op, hop, hoe⟩ := List.mem_filterMap.mp he
    have hmem : op ∈ ops := by
      rw [List.mem_reverse] at hop
      have := List.takeWhile_subset _ hop
      simpa using this
    have := hok op hmem
    cases op with
    | insert r c v =>
      simp only [DynOp.entry?] at hoe
      split_ifs at hoe
      simp only [DynOp.ok] at this
      rw [h3, ← Option.some.inj hoe]
      exact this.2
    | clear a b => simp [DynOp.entry?] at hoe)
  exact ⟨D, M, h1, g1, g2, g3.trans h2, g4.trans h3, fun i hi => by rw [g5 i (by omega), h4]⟩

/-- A concrete history: insert, clear, insert. -/
example : ∃ D M, (⟨2, 3, fun _ => []⟩ : Dyn ℤ).run
      [.insert 0 1 5, .insert 1 2 7, .clear 0 1, .insert 0 2 9, .insert 0 0 4] = some D ∧
    D.finalize ⟨fun _ => 8, fun _ => 8, fun _ => 8, 8⟩ = some M ∧
    M.row 0 = [(2, 9), (0, 4)] ∧ M.row 1 = [(2, 7)] := by
  refine ⟨_, _, rfl, rfl, ?_, ?_⟩ <;> decide +kernel

end Ceres.Sparse
