import Verif.InnerProduct.Layout

/-!
# The product terms, their counts, offsets and columns
-/
namespace Ceres.InnerProduct

open Ceres.BlockSparse

/-- The block a term belongs to. -/
def Term.key (t : Term) : ℕ × ℕ := (t.row, t.col)

/-- In the order of rows and columns. -/
def InOrder (ts : List Term) : Prop := ts.Pairwise fun a b => a.key = b.key ∨ Before a.key b.key

theorem le_key {a b : Term} (h : a.le b = true) : a.key = b.key ∨ Before a.key b.key := by
  unfold Term.le at h
  unfold Term.key Before
  simp only [Prod.mk.injEq]
  split at h
  · split at h
    · exact Or.inl ⟨by assumption, by assumption⟩
    · simp only [decide_eq_true_eq] at h
      right; right
      constructor
      · assumption
      · omega
  · simp only [decide_eq_true_eq] at h
    right; left; omega

theorem le_total (a b : Term) : (a.le b || b.le a) = true := by
  unfold Term.le
  by_cases h1 : a.row = b.row
  · by_cases h2 : a.col = b.col
    · simp only [h1, h2, if_true, Bool.or_eq_true, decide_eq_true_eq]; omega
    · simp only [h1, h2, Ne.symm h2, if_true, if_false, Bool.or_eq_true, decide_eq_true_eq]; omega
  · simp only [h1, Ne.symm h1, if_false, Bool.or_eq_true, decide_eq_true_eq]; omega

theorem le_trans' (a b c : Term) (h1 : a.le b = true) (h2 : b.le c = true) : a.le c = true := by
  unfold Term.le at *
  split at h1 <;> split at h2 <;> (try split at h1) <;> (try split at h2) <;>
    simp only [decide_eq_true_eq] at h1 h2 <;> split <;> (try split) <;>
    simp only [decide_eq_true_eq] <;> omega

/-- Sorting puts the terms in order. -/
theorem sorted_inOrder (ts : List Term) : InOrder (ts.mergeSort Term.le) :=
  (List.pairwise_mergeSort le_trans' le_total ts).imp fun h => le_key h

/-- The blocks of the terms after `prev` that differ from the one before. -/
def keysFrom : Term → List Term → List (ℕ × ℕ)
  | _, [] => []
  | prev, cur :: ts => if cur.key = prev.key then keysFrom cur ts else cur.key :: keysFrom cur ts

/-- The blocks of a list of terms, each once if the terms are in order. -/
def keys : List Term → List (ℕ × ℕ)
  | [] => []
  | t :: ts => t.key :: keysFrom t ts

theorem mem_keysFrom {prev : Term} {ts : List Term} {k : ℕ × ℕ} (h : k ∈ keysFrom prev ts) :
    ∃ t ∈ ts, t.key = k := by
  induction ts generalizing prev with
  | nil => simp [keysFrom] at h
  | cons cur ts ih =>
    rw [keysFrom] at h
    split at h
    · obtain ⟨t, ht, e⟩ := ih h
      exact ⟨t, List.mem_cons_of_mem _ ht, e⟩
    · rcases List.mem_cons.1 h with rfl | h
      · exact ⟨cur, by simp, rfl⟩
      · obtain ⟨t, ht, e⟩ := ih h
        exact ⟨t, List.mem_cons_of_mem _ ht, e⟩

theorem keysFrom_mem {prev : Term} {ts : List Term} {t : Term} (h : t ∈ ts) :
    t.key = prev.key ∨ t.key ∈ keysFrom prev ts := by
  induction ts generalizing prev with
  | nil => cases h
  | cons cur ts ih =>
    rw [keysFrom]
    split
    · rename_i he
      rcases List.mem_cons.1 h with rfl | h
      · exact Or.inl he
      · rcases ih (prev := cur) h with h | h
        · exact Or.inl (h.trans he)
        · exact Or.inr h
    · right
      rcases List.mem_cons.1 h with rfl | h
      · simp
      · rcases ih (prev := cur) h with h | h
        · rw [h]; simp
        · exact List.mem_cons_of_mem _ h

theorem mem_keys {ts : List Term} {k : ℕ × ℕ} : k ∈ keys ts ↔ ∃ t ∈ ts, t.key = k := by
  cases ts with
  | nil => simp [keys]
  | cons t ts =>
    rw [keys]
    constructor
    · intro h
      rcases List.mem_cons.1 h with rfl | h
      · exact ⟨t, by simp, rfl⟩
      · obtain ⟨u, hu, e⟩ := mem_keysFrom h
        exact ⟨u, List.mem_cons_of_mem _ hu, e⟩
    · rintro ⟨u, hu, rfl⟩
      rcases List.mem_cons.1 hu with rfl | hu
      · simp
      · rcases keysFrom_mem (prev := t) hu with h | h
        · rw [h]; simp
        · exact List.mem_cons_of_mem _ h

theorem before_trans {a b c : ℕ × ℕ} (h1 : Before a b) (h2 : Before b c) : Before a c := by
  rcases h1 with h | h <;> rcases h2 with h' | h' <;> first | (left; omega) | (right; omega)

theorem keysFrom_sorted {prev : Term} {ts : List Term} (h : InOrder (prev :: ts)) :
    (prev.key :: keysFrom prev ts).Pairwise Before := by
  induction ts generalizing prev with
  | nil => simp [keysFrom]
  | cons cur ts ih =>
    have h2 := List.pairwise_cons.1 h
    have := ih h2.2
    rw [keysFrom]
    split
    · rename_i he
      rw [← he]
      exact this
    · rename_i he
      have hb : Before prev.key cur.key := (h2.1 cur (by simp)).resolve_left (Ne.symm he)
      rw [List.pairwise_cons]
      refine ⟨fun d hd => ?_, this⟩
      rcases List.mem_cons.1 hd with rfl | hd
      · exact hb
      · exact before_trans hb ((List.pairwise_cons.1 this).1 d hd)

theorem keys_sorted {ts : List Term} (h : InOrder ts) : (keys ts).Pairwise Before := by
  cases ts with
  | nil => simp [keys]
  | cons t ts => exact keysFrom_sorted h

/-! ## Counts -/

theorem nonzerosLoop_eq (cols : ℕ → Block) (prev : Term) (ts : List Term) (s : (ℕ → ℕ) × ℕ) :
    nonzerosLoop cols prev ts s =
      (fun i => s.1 i + wide (fun j => (cols j).size) (keysFrom prev ts) i,
        s.2 + ((keysFrom prev ts).map fun d => (cols d.1).size * (cols d.2).size).sum) := by
  induction ts generalizing prev s with
  | nil => simp [nonzerosLoop, keysFrom, wide]
  | cons cur ts ih =>
    rw [nonzerosLoop, ih, keysFrom]
    by_cases h : cur.key = prev.key
    · rw [if_pos h, if_neg]
      unfold Term.key at h
      simp only [Prod.mk.injEq] at h
      rw [not_or, not_not, not_not]
      exact h
    · rw [if_neg h, if_pos]
      · refine Prod.ext ?_ ?_
        · funext i
          simp only [wide, List.filter_cons, Term.key, Sparse.bump]
          by_cases hi : cur.row = i
          · subst hi
            simp only [Function.update_self, decide_true, if_true, List.map_cons, List.sum_cons]
            omega
          · rw [Function.update_of_ne (Ne.symm hi), if_neg (by simpa using hi)]
        · simp only [List.map_cons, List.sum_cons, Term.key]
          omega
      · unfold Term.key at h
        simp only [Prod.mk.injEq] at h
        omega

/-- **The counts**: row by row, and in total. -/
theorem computeNonzeros_eq (cols : ℕ → Block) (ts : List Term) :
    computeNonzeros cols ts =
      (wide (fun j => (cols j).size) (keys ts),
        ((keys ts).map fun d => (cols d.1).size * (cols d.2).size).sum) := by
  cases ts with
  | nil => rfl
  | cons t ts =>
    rw [computeNonzeros, nonzerosLoop_eq, keys]
    refine Prod.ext ?_ ?_
    · funext i
      simp only [wide, List.filter_cons, Term.key]
      by_cases hi : t.row = i
      · subst hi
        simp
      · rw [Function.update_of_ne (Ne.symm hi), if_neg (by simpa using hi)]
        simp
    · simp [Term.key]

/-! ## Offsets and columns -/

/-- The writes of `FILL_CRSM_COL_BLOCK` for a block. -/
def colWrites (cols : ℕ → Block) (D : List (ℕ × ℕ)) (d : ℕ × ℕ) : List (ℕ × ℕ) :=
  (List.range (cols d.1).size).flatMap fun a => (List.range (cols d.2).size).map fun b =>
    (place (fun j => (cols j).size) D d.1 a d.2 b, (cols d.2).position + b)

theorem fillBlock_cols (cols : ℕ → Block) (D : List (ℕ × ℕ)) (t : Term) (s : Fill)
    (h1 : s.nnz = base (fun j => (cols j).size) D t.row)
    (h2 : s.colNnz = ahead (fun j => (cols j).size) D t.row t.col) :
    (fillBlock cols (wide (fun j => (cols j).size) D) t s).cols =
      (colWrites cols D t.key).foldl (fun a w => Function.update a w.1 w.2) s.cols := by
  unfold fillBlock colWrites
  simp only [Term.key]
  rw [List.foldl_flatMap]
  refine List.foldl_ext _ _ _ fun a j _ => ?_
  rw [List.foldl_map]
  refine List.foldl_ext _ _ _ fun a k _ => ?_
  simp only [place, h1, h2]

/-- The loop keeps track of where it is. -/
theorem fillLoop_eq (cols : ℕ → Block) (D : List (ℕ × ℕ)) (hD : D.Pairwise Before) (prev : Term)
    (ts : List Term) (pre : List (ℕ × ℕ)) (hpre : D = pre ++ prev.key :: keysFrom prev ts) (s : Fill)
    (h1 : s.nnz = base (fun j => (cols j).size) D prev.row)
    (h2 : s.colNnz = ahead (fun j => (cols j).size) D prev.row prev.col)
    (h3 : s.offsets prev.index = s.nnz + s.colNnz)
    (hnd : ((prev :: ts).map Term.index).Nodup) :
    (∀ t ∈ ts, (fillLoop cols (wide (fun j => (cols j).size) D) prev ts s).offsets t.index =
      place (fun j => (cols j).size) D t.row 0 t.col 0) ∧
    (∀ k, k ∉ ts.map Term.index →
      (fillLoop cols (wide (fun j => (cols j).size) D) prev ts s).offsets k = s.offsets k) ∧
    (fillLoop cols (wide (fun j => (cols j).size) D) prev ts s).cols =
      ((keysFrom prev ts).flatMap (colWrites cols D)).foldl (fun a w => Function.update a w.1 w.2) s.cols := by
  induction ts generalizing prev pre s with
  | nil => exact ⟨fun t ht => absurd ht (by simp), fun _ _ => rfl, rfl⟩
  | cons cur ts ih =>
    have hnd2 : ((cur :: ts).map Term.index).Nodup := (List.nodup_cons.1 hnd).2
    -- what the state must satisfy after one step
    have key : ∀ (s' : Fill) (pre' : List (ℕ × ℕ)), D = pre' ++ cur.key :: keysFrom cur ts →
        s'.nnz = base (fun j => (cols j).size) D cur.row →
        s'.colNnz = ahead (fun j => (cols j).size) D cur.row cur.col →
        s'.offsets = Function.update s.offsets cur.index (s'.nnz + s'.colNnz) →
        s'.cols = (if cur.key = prev.key then [] else colWrites cols D cur.key).foldl
          (fun a w => Function.update a w.1 w.2) s.cols →
        (∀ t ∈ cur :: ts, (fillLoop cols (wide (fun j => (cols j).size) D) cur ts s').offsets t.index =
          place (fun j => (cols j).size) D t.row 0 t.col 0) ∧
        (∀ k, k ∉ (cur :: ts).map Term.index →
          (fillLoop cols (wide (fun j => (cols j).size) D) cur ts s').offsets k = s.offsets k) ∧
        (fillLoop cols (wide (fun j => (cols j).size) D) cur ts s').cols =
          ((keysFrom prev (cur :: ts)).flatMap (colWrites cols D)).foldl
            (fun a w => Function.update a w.1 w.2) s.cols := by
      intro s' pre' hp g1 g2 g3 g4
      obtain ⟨i1, i2, i3⟩ := ih cur pre' hp s' g1 g2 (by rw [g3, Function.update_self]) hnd2
      refine ⟨?_, ?_, ?_⟩
      · intro t ht
        rcases List.mem_cons.1 ht with rfl | ht
        · rw [i2 _ (by rw [List.map_cons, List.nodup_cons] at hnd2; exact hnd2.1), g3, Function.update_self, g1, g2]
          simp [place]
        · exact i1 t ht
      · intro k hk
        rw [List.map_cons, List.mem_cons, not_or] at hk
        rw [i2 k hk.2, g3, Function.update_of_ne hk.1]
      · rw [i3, g4, keysFrom]
        split
        · rfl
        · rw [List.flatMap_cons, List.foldl_append]
    rw [fillLoop]
    by_cases hk : cur.key = prev.key
    · have hk' : prev.row = cur.row ∧ prev.col = cur.col := by
        unfold Term.key at hk
        simp only [Prod.mk.injEq] at hk
        exact ⟨hk.1.symm, hk.2.symm⟩
      rw [if_pos hk']
      refine key _ pre ?_ ?_ ?_ ?_ ?_
      · rw [keysFrom, if_pos hk] at hpre
        rw [hk]; exact hpre
      · rw [← hk'.1]; exact h1
      · rw [← hk'.1, ← hk'.2]; exact h2
      · simp only [h3]
      · rw [if_pos hk]; rfl
    · have hk' : ¬ (prev.row = cur.row ∧ prev.col = cur.col) := by
        unfold Term.key at hk
        simp only [Prod.mk.injEq] at hk
        omega
      rw [if_neg hk']
      rw [keysFrom, if_neg hk] at hpre
      have hD' := hD
      rw [hpre] at hD'
      obtain ⟨n1, n2⟩ := next_place (size := fun j => (cols j).size) hD'
      rw [← hpre] at n1 n2
      have hpre' : D = (pre ++ [prev.key]) ++ cur.key :: keysFrom cur ts := by
        rw [hpre, List.append_assoc]; rfl
      by_cases hr : prev.row = cur.row
      · rw [if_pos hr]
        have h1' : s.nnz = base (fun j => (cols j).size) D cur.row := by rw [← hr]; exact h1
        have h2' : s.colNnz + (cols prev.col).size = ahead (fun j => (cols j).size) D cur.row cur.col := by
          have := n1 hr
          simp only [Term.key] at this
          rw [this, h2]
        refine key _ _ hpre' h1' h2' rfl ?_
        rw [fillBlock_cols cols D cur { s with colNnz := s.colNnz + (cols prev.col).size } h1' h2', if_neg hk]
      · rw [if_neg hr]
        have h1' : s.nnz + wide (fun j => (cols j).size) D prev.row * (cols prev.row).size =
            base (fun j => (cols j).size) D cur.row := by
          have := (n2 hr).2
          simp only [Term.key] at this
          rw [this, h1]
        have h2' : 0 = ahead (fun j => (cols j).size) D cur.row cur.col := by
          have := (n2 hr).1
          simp only [Term.key] at this
          rw [this]
        refine key _ _ hpre' h1' h2' rfl ?_
        rw [fillBlock_cols cols D cur { s with
          colNnz := 0
          nnz := s.nnz + wide (fun j => (cols j).size) D prev.row * (cols prev.row).size } h1' h2', if_neg hk]

/-- **The offsets and the columns.** -/
theorem fill_eq (cols : ℕ → Block) {ts : List Term} (ho : InOrder ts) (hnd : (ts.map Term.index).Nodup)
    (old : ℕ → ℕ) :
    (∀ t ∈ ts, (fill cols (wide (fun j => (cols j).size) (keys ts)) old ts).offsets t.index =
      place (fun j => (cols j).size) (keys ts) t.row 0 t.col 0) ∧
    (fill cols (wide (fun j => (cols j).size) (keys ts)) old ts).cols =
      ((keys ts).flatMap (colWrites cols (keys ts))).foldl (fun a w => Function.update a w.1 w.2) old := by
  cases ts with
  | nil => exact ⟨fun t ht => absurd ht (by simp), rfl⟩
  | cons t ts =>
    have hD := keys_sorted ho
    obtain ⟨f1, f2⟩ := first_place (size := fun j => (cols j).size) (show (t.key :: keysFrom t ts).Pairwise Before from hD)
    have g1 : (0 : ℕ) = base (fun j => (cols j).size) (keys (t :: ts)) t.row := f1.symm
    have g2 : (0 : ℕ) = ahead (fun j => (cols j).size) (keys (t :: ts)) t.row t.col := f2.symm
    rw [fill]
    obtain ⟨i1, i2, i3⟩ := fillLoop_eq cols _ hD t ts [] rfl
      (fillBlock cols (wide (fun j => (cols j).size) (keys (t :: ts))) t ⟨0, 0, fun _ => 0, old⟩) g1 g2
      (by simp [fillBlock]) hnd
    refine ⟨?_, ?_⟩
    · intro u hu
      rcases List.mem_cons.1 hu with rfl | hu
      · rw [i2 _ (by rw [List.map_cons, List.nodup_cons] at hnd; exact hnd.1)]
        simp only [fillBlock, Function.update_self, place, ← g1, ← g2]
        omega
      · exact i1 u hu
    · rw [i3, fillBlock_cols cols (keys (t :: ts)) t _ g1 g2]
      conv_rhs => rw [keys]
      rw [List.flatMap_cons, List.foldl_append]
      rfl

/-- The column array at the position of an element. -/
theorem fill_cols (cols : ℕ → Block) {ts : List Term} (ho : InOrder ts) (hnd : (ts.map Term.index).Nodup)
    (old : ℕ → ℕ) {i a j b : ℕ} (hm : (i, j) ∈ keys ts) (ha : a < (cols i).size) (hb : b < (cols j).size) :
    (fill cols (wide (fun j => (cols j).size) (keys ts)) old ts).cols
      (place (fun j => (cols j).size) (keys ts) i a j b) = (cols j).position + b := by
  rw [(fill_eq cols ho hnd old).2]
  have hD := keys_sorted ho
  have : ∀ (l : List (ℕ × ℕ)) (f : ℕ → ℕ) (q v : ℕ), (q, v) ∈ l → (∀ w ∈ l, w.1 = q → w.2 = v) →
      l.foldl (fun a w => Function.update a w.1 w.2) f q = v := by
    intro l
    induction l using List.reverseRecOn with
    | nil => intro f q v h; cases h
    | append_singleton l w ih =>
      intro f q v h h2
      rw [List.foldl_append, List.foldl_cons, List.foldl_nil]
      by_cases hw : w.1 = q
      · rw [← hw, Function.update_self]
        exact h2 w (by simp) hw
      · rw [Function.update_of_ne (Ne.symm hw)]
        refine ih f q v ?_ fun w hw => h2 w (List.mem_append_left _ hw)
        rcases List.mem_append.1 h with h | h
        · exact h
        · rw [List.mem_singleton] at h
          rw [← h] at hw
          exact absurd rfl hw
  refine this _ _ _ _ ?_ ?_
  · refine List.mem_flatMap.2 ⟨(i, j), hm, ?_⟩
    refine List.mem_flatMap.2 ⟨a, List.mem_range.2 ha, ?_⟩
    exact List.mem_map.2 ⟨b, List.mem_range.2 hb, rfl⟩
  · intro w hw he
    obtain ⟨d, hd, hw⟩ := List.mem_flatMap.1 hw
    obtain ⟨a', ha', hw⟩ := List.mem_flatMap.1 hw
    obtain ⟨b', hb', rfl⟩ := List.mem_map.1 hw
    rw [List.mem_range] at ha' hb'
    obtain ⟨-, -, h3, h4⟩ := place_inj hD (i := d.1) (j := d.2) hd ha' hb' hm ha hb he
    simp only [h3, h4]

/-! ## Row starts -/

theorem resultRows_eq (w : ℕ → ℕ) (bs : List Block) (i0 off : ℕ) (p i : ℕ) (b : Block) (hl : Laid p bs)
    (hb : bs[i]? = some b) (a : ℕ) (ha : a ≤ b.size) :
    (off :: resultRows w i0 off bs).getD (b.position - p + a) 0 =
      off + (((bs.take i).zipIdx i0).map fun c => c.1.size * w c.2).sum + a * w (i0 + i) := by
  induction bs generalizing i0 off p i with
  | nil => simp at hb
  | cons c bs ih =>
    rw [resultRows]
    have hcp := hl.1
    have hlen : ((List.range c.size).map fun j => off + (j + 1) * w i0).length = c.size := by simp
    have hget : ∀ k, k ≤ c.size →
        (off :: (((List.range c.size).map fun j => off + (j + 1) * w i0) ++
          resultRows w (i0 + 1) (off + c.size * w i0) bs)).getD k 0 = off + k * w i0 := by
      intro k hk
      cases k with
      | zero => simp
      | succ k =>
        rw [List.getD_cons_succ, List.getD_eq_getElem?_getD, List.getElem?_append_left (by rw [hlen]; omega),
          List.getElem?_map, List.getElem?_range (by omega)]
        rfl
    cases i with
    | zero =>
      simp only [List.getElem?_cons_zero, Option.some.injEq] at hb
      subst hb
      rw [hcp, Nat.sub_self, Nat.zero_add, hget a ha]
      simp
    | succ i =>
      rw [List.getElem?_cons_succ] at hb
      have hbd := laid_bounds hl.2 (List.mem_of_getElem? hb)
      have := ih (i0 + 1) (off + c.size * w i0) (p + c.size) i hl.2 hb
      have hsplit : b.position - p + a = c.size + (b.position - (p + c.size) + a) := by omega
      have hgo : ∀ k, (off :: (((List.range c.size).map fun j => off + (j + 1) * w i0) ++
          resultRows w (i0 + 1) (off + c.size * w i0) bs)).getD (c.size + k) 0 =
          ((off + c.size * w i0) :: resultRows w (i0 + 1) (off + c.size * w i0) bs).getD k 0 := by
        intro k
        cases k with
        | zero => exact (hget _ le_rfl).trans (by simp)
        | succ k =>
          rw [← Nat.add_assoc, List.getD_cons_succ, List.getD_eq_getElem?_getD,
            List.getElem?_append_right (by rw [hlen]; omega), hlen,
            List.getD_cons_succ, List.getD_eq_getElem?_getD, Nat.add_sub_cancel_left]
      rw [hsplit, hgo, this, List.take_succ_cons, List.zipIdx_cons, List.map_cons, List.sum_cons]
      have : i0 + 1 + i = i0 + (i + 1) := by omega
      rw [this]
      simp only
      omega

theorem base_eq_zip (cols : List Block) (D : List (ℕ × ℕ)) (i : ℕ) (hi : i ≤ cols.length) :
    (((cols.take i).zipIdx 0).map fun c => c.1.size *
      wide (fun j => (cols.getD j ⟨0, 0⟩).size) D c.2).sum =
      base (fun j => (cols.getD j ⟨0, 0⟩).size) D i := by
  unfold base
  congr 1
  refine List.ext_getElem? fun k => ?_
  rw [List.getElem?_map, List.getElem?_map, List.getElem?_zipIdx]
  by_cases hk : k < i
  · rw [List.getElem?_take_of_lt hk, List.getElem?_eq_getElem (by omega), List.getElem?_range hk]
    simp only [Option.map_some, Option.some.injEq, Nat.zero_add]
    rw [List.getD_eq_getElem?_getD, List.getElem?_eq_getElem (by omega), Nat.mul_comm]
    rfl
  · rw [List.getElem?_eq_none (by rw [List.length_take]; omega), List.getElem?_eq_none (by simp; omega)]
    rfl

end Ceres.InnerProduct
