import Verif.Cov.Layout

/-! # Filling the sparsity pattern -/

namespace Ceres.Cov

variable {K : Type} {P : Prob K}

/-- First row of an active block. -/
def colAt (P : Prob K) (p : ℕ) : ℕ := ((idx P).lookup p).getD 0

theorem findRow_active (hP : P.ptrs.Nodup) {p : ℕ} (h : p ∈ P.active) :
    findRow (idx P) p = .ok (colAt P p) := by
  obtain ⟨a, ha⟩ := exists_mem_index (P := P) 0 h
  have := findRow_of_mem (active_sorted hP) ha
  unfold findRow at this ⊢
  unfold colAt
  cases hl : (idx P).lookup p with
  | none => rw [hl] at this; cases this
  | some b => rfl

theorem mem_colAt (hP : P.ptrs.Nodup) {p : ℕ} (h : p ∈ P.active) : (p, colAt P p) ∈ idx P :=
  findRow_ok (findRow_active hP h)

theorem colAt_eq (hP : P.ptrs.Nodup) {p a : ℕ} (h : (p, a) ∈ idx P) : colAt P p = a :=
  index_unique (active_sorted hP) (mem_colAt hP (mem_index_keys h)) h

theorem colAt_lt (hP : P.ptrs.Nodup) {p q : ℕ} (hp : p ∈ P.active) (hq : q ∈ P.active)
    (h : p < q) : colAt P p + P.tangent p ≤ colAt P q :=
  index_lt (active_sorted hP) (mem_colAt hP hp) (mem_colAt hP hq) h

/-- The number of rows. -/
abbrev dim (P : Prob K) : ℕ := numRows P P.active 0

theorem colAt_le (hP : P.ptrs.Nodup) {p : ℕ} (hp : p ∈ P.active) :
    colAt P p + P.tangent p ≤ dim P := (index_ge (mem_colAt hP hp)).2

/-- Columns of a row, from the pairs of its block. -/
def colsOf (P : Prob K) (mine : List (ℕ × ℕ)) : List ℕ :=
  mine.flatMap fun q => List.range' (colAt P q.2) (P.tangent q.2)

theorem rowCols_ok (hP : P.ptrs.Nodup) {mine : List (ℕ × ℕ)} (h : ∀ q ∈ mine, q.2 ∈ P.active) :
    rowCols P (idx P) mine = .ok (colsOf P mine) := by
  induction mine with
  | nil => rfl
  | cons q qs ih =>
    rw [List.forall_mem_cons] at h
    unfold rowCols
    rw [findRow_active hP h.1, ih h.2]
    rfl

theorem fillBlock_ok (hP : P.ptrs.Nodup) {mine : List (ℕ × ℕ)} (h : ∀ q ∈ mine, q.2 ∈ P.active)
    (b t : ℕ) (s : ℕ) (rows : ℕ → ℕ) (cols : List ℕ) :
    ∃ rows' cols', fillBlock P (idx P) mine b (List.range' s t) rows cols = .ok (rows', cols') ∧
      cols' = cols ++ (List.replicate t (colsOf P mine)).flatten ∧
      ∀ i, rows' i = if b + s ≤ i ∧ i < b + s + t
        then cols.length + (i - (b + s)) * (colsOf P mine).length else rows i := by
  induction t generalizing s rows cols with
  | zero =>
    refine ⟨rows, cols, rfl, by simp, fun i => ?_⟩
    rw [if_neg (by omega)]
  | succ t ih =>
    obtain ⟨rows', cols', h1, h2, h3⟩ := ih (s + 1) (Function.update rows (b + s) cols.length)
      (cols ++ colsOf P mine)
    refine ⟨rows', cols', ?_, ?_, fun i => ?_⟩
    · rw [List.range'_succ]
      unfold fillBlock
      rw [rowCols_ok hP h]
      exact h1
    · rw [h2, List.replicate_succ, List.flatten_cons, List.append_assoc]
    · rw [h3]
      by_cases hi : i = b + s
      · subst hi
        rw [if_neg (by omega), if_pos (by omega)]
        simp
      · by_cases hr : b + s ≤ i ∧ i < b + s + (t + 1)
        · rw [if_pos hr, if_pos (by omega), List.length_append]
          have : i - (b + s) = (i - (b + (s + 1))) + 1 := by omega
          rw [this]
          ring
        · rw [if_neg hr, if_neg (by omega), Function.update_of_ne hi]

/-- In a list sorted by first component, the pairs of the smallest one are in front. -/
theorem span_sorted {p : ℕ} {rest : List (ℕ × ℕ)} (hs : rest.Pairwise fun a b => a.1 ≤ b.1)
    (hp : ∀ q ∈ rest, p ≤ q.1) :
    (rest.takeWhile fun q => decide (q.1 = p)) = rest.filter (fun q => decide (q.1 = p)) ∧
    rest.drop (rest.takeWhile fun q => decide (q.1 = p)).length =
      rest.filter (fun q => decide (q.1 ≠ p)) := by
  induction rest with
  | nil => simp
  | cons q qs ih =>
    rw [List.pairwise_cons] at hs
    rw [List.forall_mem_cons] at hp
    obtain ⟨h1, h2⟩ := ih hs.2 hp.2
    by_cases hq : q.1 = p
    · rw [List.takeWhile_cons_of_pos (by simpa using hq), List.filter_cons_of_pos (by simpa using hq),
        List.filter_cons_of_neg (by simpa using hq), h1]
      refine ⟨rfl, ?_⟩
      rw [List.length_cons, List.drop_succ_cons, ← h1, h2]
    · have hall : ∀ x ∈ q :: qs, x.1 ≠ p := by
        rw [List.forall_mem_cons]
        exact ⟨hq, fun x hx he => hq (le_antisymm (he ▸ hs.1 x hx) hp.1)⟩
      rw [List.takeWhile_cons_of_neg (by simpa using hq)]
      constructor
      · symm
        rw [List.filter_eq_nil_iff]
        intro x hx
        simpa using hall x hx
      · symm
        rw [List.length_nil, List.drop_zero, List.filter_eq_self]
        intro x hx
        simpa using hall x hx

/-- The rows and columns that belong to the blocks of a list. -/
structure Filled (P : Prob K) (blocks es : List (ℕ × ℕ)) (stop : ℕ) (rows : ℕ → ℕ)
    (cols : List ℕ) : Prop where
  next : ∀ p b, (p, b) ∈ es → ∀ r < P.tangent p,
    (b + r + 1 < stop → rows (b + r + 1) =
      rows (b + r) + (colsOf P (blocks.filter fun q => q.1 = p)).length) ∧
    (b + r + 1 = stop → cols.length =
      rows (b + r) + (colsOf P (blocks.filter fun q => q.1 = p)).length)
  get : ∀ p b, (p, b) ∈ es → ∀ r < P.tangent p, ∀ t,
    t < (colsOf P (blocks.filter fun q => q.1 = p)).length →
    cols[rows (b + r) + t]? = (colsOf P (blocks.filter fun q => q.1 = p))[t]?

theorem flatten_replicate_get {α : Type} (l : List α) (n r t : ℕ) (hr : r < n)
    (ht : t < l.length) : (List.replicate n l).flatten[r * l.length + t]? = l[t]? := by
  induction n generalizing r with
  | zero => omega
  | succ n ih =>
    rw [List.replicate_succ, List.flatten_cons]
    cases r with
    | zero => rw [Nat.zero_mul, Nat.zero_add, List.getElem?_append_left ht]
    | succ r =>
      rw [List.getElem?_append_right (by rw [Nat.succ_mul]; omega)]
      rw [← ih r (by omega)]
      congr 1
      rw [Nat.succ_mul]
      omega

theorem colsOf_length (mine : List (ℕ × ℕ)) :
    (colsOf P mine).length = (mine.map fun q => P.tangent q.2).sum := by
  unfold colsOf
  rw [List.length_flatMap]
  simp

theorem fill_ok (hP : P.ptrs.Nodup) (ps : List ℕ) (n : ℕ) (hs : ps.Pairwise (· < ·))
    (ht : ∀ p ∈ ps, 0 < P.tangent p) (rest : List (ℕ × ℕ))
    (hrest : rest.Pairwise fun a b => a.1 ≤ b.1) (hfst : ∀ q ∈ rest, q.1 ∈ ps)
    (hsnd : ∀ q ∈ rest, q.2 ∈ P.active) (rows : ℕ → ℕ) (cols : List ℕ) :
    ∃ rows' cols', fill P (idx P) (indexRows P ps n) rest rows cols = .ok (rows', cols') ∧
      (∃ tail, cols' = cols ++ tail ∧
        tail.length = (rest.map fun q => P.tangent q.1 * P.tangent q.2).sum) ∧
      (∀ i, (i < n ∨ numRows P ps n ≤ i) → rows' i = rows i) ∧
      (ps ≠ [] → rows' n = cols.length) ∧
      Filled P rest (indexRows P ps n) (numRows P ps n) rows' cols' := by
  induction ps generalizing n rest rows cols with
  | nil =>
    have hr : rest = [] := List.eq_nil_iff_forall_not_mem.2 fun q hq => by simpa using hfst q hq
    subst hr
    exact ⟨rows, cols, rfl, ⟨[], by simp, by simp⟩, fun i _ => rfl, fun h => absurd rfl h,
      ⟨by simp [indexRows], by simp [indexRows]⟩⟩
  | cons p ps ih =>
    rw [List.pairwise_cons] at hs
    rw [List.forall_mem_cons] at ht
    have hge : ∀ q ∈ rest, p ≤ q.1 := by
      intro q hq
      rcases List.mem_cons.1 (hfst q hq) with h | h
      · exact h.ge
      · exact (hs.1 _ h).le
    obtain ⟨e1, e2⟩ := span_sorted hrest hge
    set mine := rest.takeWhile fun q => decide (q.1 = p) with hmine
    have hmineA : ∀ q ∈ mine, q.2 ∈ P.active := by
      intro q hq
      rw [e1] at hq
      exact hsnd q (List.mem_of_mem_filter hq)
    obtain ⟨rows1, cols1, f1, f2, f3⟩ := fillBlock_ok hP hmineA n (P.tangent p) 0 rows cols
    have hrest' : (rest.drop mine.length).Pairwise fun a b => a.1 ≤ b.1 :=
      hrest.sublist (List.drop_sublist _ _)
    have hfst' : ∀ q ∈ rest.drop mine.length, q.1 ∈ ps := by
      intro q hq
      rw [e2, List.mem_filter] at hq
      rcases List.mem_cons.1 (hfst q hq.1) with h | h
      · simp [h] at hq
      · exact h
    have hsnd' : ∀ q ∈ rest.drop mine.length, q.2 ∈ P.active :=
      fun q hq => hsnd q (List.mem_of_mem_drop hq)
    obtain ⟨rows2, cols2, g1, ⟨tail, g2, g3⟩, g4, g5, g6⟩ := ih (n + P.tangent p) hs.2 ht.2
      (rest.drop mine.length) hrest' hfst' hsnd' rows1 cols1
    simp only [Nat.add_zero] at f3
    have hlen1 : cols1.length = cols.length + P.tangent p * (colsOf P mine).length := by
      rw [f2]
      simp
    have hrow : ∀ r < P.tangent p, rows2 (n + r) = cols.length + r * (colsOf P mine).length := by
      intro r hr
      rw [g4 _ (.inl (by omega)), f3, if_pos (by omega)]
      congr 2
      omega
    refine ⟨rows2, cols2, ?_, ⟨_, by rw [g2, f2, List.append_assoc], ?_⟩, ?_, ?_, ?_⟩
    · rw [List.range_eq_range'.symm] at f1
      rw [show indexRows P (p :: ps) n = (p, n) :: indexRows P ps (n + P.tangent p) from rfl, fill]
      simp only [← hmine, f1]
      exact g1
    · have hperm : (rest.map fun q => P.tangent q.1 * P.tangent q.2).sum
          = (mine.map fun q => P.tangent q.1 * P.tangent q.2).sum +
            ((rest.drop mine.length).map fun q => P.tangent q.1 * P.tangent q.2).sum := by
        rw [← List.sum_append, ← List.map_append]
        congr 2
        have : rest.take mine.length = mine := by
          have := List.takeWhile_append_dropWhile (p := fun q : ℕ × ℕ => decide (q.1 = p)) (l := rest)
          rw [← hmine] at this
          conv_lhs => rw [← this]
          rw [List.take_left]
        conv_lhs => rw [← List.take_append_drop mine.length rest, this]
      rw [List.length_append, g3, hperm]
      congr 1
      rw [List.length_flatten, List.map_replicate, List.sum_replicate, colsOf_length, smul_eq_mul,
        ← List.sum_map_mul_left]
      congr 1
      refine List.map_congr_left fun q hq => ?_
      rw [e1, List.mem_filter] at hq
      simp only [decide_eq_true_eq] at hq
      rw [hq.2]
    · intro i hi
      have hmono : n + P.tangent p ≤ numRows P ps (n + P.tangent p) := by
        have : ∀ (ps : List ℕ) (n : ℕ), n ≤ numRows P ps n := by
          intro ps
          induction ps with
          | nil => intro n; exact le_rfl
          | cons p ps ih => intro n; exact (Nat.le_add_right _ _).trans (ih _)
        exact this _ _
      have e : numRows P (p :: ps) n = numRows P ps (n + P.tangent p) := rfl
      rw [g4 _ (by rcases hi with hi | hi <;> omega), f3, if_neg (by omega)]
    · intro _
      have := hrow 0 ht.1
      simpa using this
    · have e : numRows P (p :: ps) n = numRows P ps (n + P.tangent p) := rfl
      have hstop : ps = [] ∨ n + P.tangent p < numRows P ps (n + P.tangent p) := by
        cases ps with
        | nil => exact .inl rfl
        | cons q qs =>
          right
          have h1 := ht.2 q (List.mem_cons_self ..)
          have : ∀ (ps : List ℕ) (n : ℕ), n ≤ numRows P ps n := by
            intro ps
            induction ps with
            | nil => intro n; exact le_rfl
            | cons p ps ih => intro n; exact (Nat.le_add_right _ _).trans (ih _)
          have h2 := this qs (n + P.tangent p + P.tangent q)
          change _ < numRows P qs (n + P.tangent p + P.tangent q)
          omega
      have hfil : ∀ q ∈ ps, (rest.drop mine.length).filter (fun x => decide (x.1 = q)) =
          rest.filter fun x => decide (x.1 = q) := by
        intro q hq
        rw [e2, List.filter_filter]
        refine List.filter_congr fun x _ => ?_
        have := hs.1 q hq
        by_cases hx : x.1 = q
        · have hne : x.1 ≠ p := by omega
          simp [hx]
          omega
        · simp [hx]
      constructor
      · intro q b hq r hr
        simp only [indexRows, List.mem_cons, Prod.mk.injEq] at hq
        rcases hq with ⟨rfl, rfl⟩ | hq
        · rw [← e1, hrow r hr, e]
          constructor
          · intro hlt
            by_cases hr' : r + 1 < P.tangent q
            · rw [Nat.add_assoc, hrow _ hr']
              ring
            · have hrt : r + 1 = P.tangent q := by omega
              have hne : ps ≠ [] := by
                rintro rfl
                simp only [numRows] at hlt
                omega
              rw [Nat.add_assoc, hrt, g5 hne, hlen1, ← hrt]
              ring
          · intro heq
            have hnil : ps = [] := by
              rcases hstop with h | h
              · exact h
              · omega
            subst hnil
            simp only [numRows] at heq
            have hrt : r + 1 = P.tangent q := by omega
            have htail : tail = [] := by
              have : rest.drop mine.length = [] :=
                List.eq_nil_iff_forall_not_mem.2 fun x hx => by simpa using hfst' x hx
              rw [this] at g3
              exact List.length_eq_zero_iff.1 (by simpa using g3)
            rw [g2, htail, List.append_nil, hlen1, ← hrt]
            ring
        · rw [← hfil q (mem_index_keys hq), e]
          exact g6.next q b hq r hr
      · intro q b hq r hr t
        simp only [indexRows, List.mem_cons, Prod.mk.injEq] at hq
        rcases hq with ⟨rfl, rfl⟩ | hq
        · rw [← e1, hrow r hr]
          intro htl
          have hlt : r * (colsOf P mine).length + t < P.tangent q * (colsOf P mine).length := by
            calc r * (colsOf P mine).length + t < r * (colsOf P mine).length + (colsOf P mine).length := by
                  omega
              _ = (r + 1) * (colsOf P mine).length := by ring
              _ ≤ _ := Nat.mul_le_mul_right _ hr
          rw [g2, List.getElem?_append_left (by rw [hlen1]; omega), f2,
            List.getElem?_append_right (by omega)]
          rw [← flatten_replicate_get (colsOf P mine) (P.tangent q) r t hr htl]
          congr 1
          omega
        · rw [← hfil q (mem_index_keys hq)]
          exact g6.get q b hq r hr t

end Ceres.Cov
