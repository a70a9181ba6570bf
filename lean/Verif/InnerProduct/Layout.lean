import Verif.InnerProduct.Model
import Verif.BlockSparse.Crs

/-!
# Where the blocks of the product are stored
-/
namespace Ceres.InnerProduct

open Ceres.BlockSparse

/-- Lexicographic order of pairs of blocks. -/
def Before (a b : ℕ × ℕ) : Prop := a.1 < b.1 ∨ (a.1 = b.1 ∧ a.2 < b.2)

section
variable (size : ℕ → ℕ) (D : List (ℕ × ℕ))

/-- The number of entries per row in row block `i`, for the blocks `D`. -/
def wide (i : ℕ) : ℕ := ((D.filter fun d => d.1 = i).map fun d => size d.2).sum

/-- The number of entries of a row in front of column block `j`. -/
def ahead (i j : ℕ) : ℕ := ((D.filter fun d => d.1 = i ∧ d.2 < j).map fun d => size d.2).sum

/-- The number of entries in front of row block `i`. -/
def base (i : ℕ) : ℕ := ((List.range i).map fun k => wide size D k * size k).sum

/-- The position of element `(a, b)` of block `(i, j)`. -/
def place (i a j b : ℕ) : ℕ := base size D i + a * wide size D i + ahead size D i j + b

end

section
variable {size : ℕ → ℕ} {D : List (ℕ × ℕ)}

theorem filter_sum_add {α : Type} (l : List α) (p q r : α → Bool) (f : α → ℕ)
    (h : ∀ x ∈ l, r x = (p x || q x)) (hd : ∀ x ∈ l, ¬ (p x = true ∧ q x = true)) :
    ((l.filter r).map f).sum = ((l.filter p).map f).sum + ((l.filter q).map f).sum := by
  induction l with
  | nil => rfl
  | cons a l ih =>
    have ih := ih (fun x hx => h x (List.mem_cons_of_mem _ hx)) (fun x hx => hd x (List.mem_cons_of_mem _ hx))
    have h1 := h a (by simp)
    have h2 := hd a (by simp)
    rw [List.filter_cons, List.filter_cons, List.filter_cons, h1]
    cases hp : p a <;> cases hq : q a <;> simp_all <;> omega

theorem filter_sum_le {α : Type} (l : List α) (p q : α → Bool) (f : α → ℕ)
    (h : ∀ x ∈ l, p x = true → q x = true) : ((l.filter p).map f).sum ≤ ((l.filter q).map f).sum := by
  rw [filter_sum_add l p (fun x => q x && !p x) q f]
  · omega
  · intro x hx
    cases hp : p x with
    | false => simp
    | true => simp [h x hx hp]
  · intro x _
    cases p x <;> simp

theorem single_sum (hD : D.Pairwise Before) {i j : ℕ} (hm : (i, j) ∈ D) (f : ℕ × ℕ → ℕ) :
    ((D.filter fun d => d.1 = i ∧ d.2 = j).map f).sum = f (i, j) := by
  have hnd : D.Nodup := hD.imp fun {a b} h => by
    rintro rfl
    rcases h with h | h <;> omega
  have : (D.filter fun d => d.1 = i ∧ d.2 = j) = [(i, j)] := by
    have h1 : (D.filter fun d => d.1 = i ∧ d.2 = j) = D.filter fun d => d = (i, j) := by
      refine List.filter_congr fun d _ => ?_
      simp [Prod.ext_iff]
    rw [h1, List.filter_eq, List.count_eq_one_of_mem hnd hm]
    rfl
  rw [this]
  simp

theorem ahead_add (hD : D.Pairwise Before) {i j : ℕ} (hm : (i, j) ∈ D) {j' : ℕ} (hj : j < j') :
    ahead size D i j + size j ≤ ahead size D i j' := by
  unfold ahead
  have h1 := single_sum hD hm fun d => size d.2
  rw [← h1, ← filter_sum_add D (fun d => d.1 = i ∧ d.2 < j) (fun d => d.1 = i ∧ d.2 = j)
    (fun d => d.1 = i ∧ d.2 ≤ j)]
  · refine filter_sum_le _ _ _ _ fun d _ hd => ?_
    simp only [decide_eq_true_eq] at hd ⊢
    omega
  · intro d _
    rw [← Bool.decide_or]
    refine decide_eq_decide.2 ?_
    omega
  · intro d _
    simp only [decide_eq_true_eq]
    omega

theorem ahead_add_wide (hD : D.Pairwise Before) {i j : ℕ} (hm : (i, j) ∈ D) :
    ahead size D i j + size j ≤ wide size D i := by
  refine le_trans (ahead_add hD hm (j' := j + 1) (Nat.lt_succ_self j)) ?_
  refine filter_sum_le _ _ _ _ fun d _ hd => ?_
  simp only [decide_eq_true_eq] at hd ⊢
  exact hd.1

theorem base_succ (i : ℕ) : base size D (i + 1) = base size D i + wide size D i * size i := by
  unfold base
  rw [List.range_succ, List.map_append, List.sum_append]
  simp

theorem base_mono {i i' : ℕ} (h : i ≤ i') : base size D i ≤ base size D i' := by
  induction h with
  | refl => exact le_rfl
  | step _ ih => rw [Nat.succ_eq_add_one, base_succ]; omega

/-- Elements of a row block come before the next row block. -/
theorem place_lt (hD : D.Pairwise Before) {i a j b : ℕ} (hm : (i, j) ∈ D) (ha : a < size i) (hb : b < size j) :
    place size D i a j b < base size D (i + 1) := by
  have h1 := ahead_add_wide (size := size) hD hm
  rw [base_succ]
  unfold place
  have h2 : (a + 1) * wide size D i ≤ size i * wide size D i := Nat.mul_le_mul_right _ ha
  rw [Nat.mul_comm (size i), Nat.add_mul] at h2
  omega

/-- No two elements have the same position. -/
theorem place_inj (hD : D.Pairwise Before) {i a j b i' a' j' b' : ℕ} (hm : (i, j) ∈ D) (ha : a < size i)
    (hb : b < size j) (hm' : (i', j') ∈ D) (ha' : a' < size i') (hb' : b' < size j')
    (h : place size D i a j b = place size D i' a' j' b') : i = i' ∧ a = a' ∧ j = j' ∧ b = b' := by
  have hi : i = i' := by
    by_contra hne
    rcases Nat.lt_or_gt_of_ne hne with hlt | hlt
    · have h1 := place_lt hD hm ha hb
      have h2 := base_mono (size := size) (D := D) (Nat.succ_le_of_lt hlt)
      have h3 : base size D i' ≤ place size D i' a' j' b' := by unfold place; omega
      rw [Nat.succ_eq_add_one] at h2
      omega
    · have h1 := place_lt hD hm' ha' hb'
      have h2 := base_mono (size := size) (D := D) (Nat.succ_le_of_lt hlt)
      have h3 : base size D i ≤ place size D i a j b := by unfold place; omega
      rw [Nat.succ_eq_add_one] at h2
      omega
  subst hi
  unfold place at h
  have h1 := ahead_add_wide (size := size) hD hm
  have h2 := ahead_add_wide (size := size) hD hm'
  have ha2 : a = a' := by
    by_contra hne
    rcases Nat.lt_or_gt_of_ne hne with hlt | hlt
    · have h3 : (a + 1) * wide size D i ≤ a' * wide size D i := Nat.mul_le_mul_right _ hlt
      rw [Nat.add_mul] at h3
      omega
    · have h3 : (a' + 1) * wide size D i ≤ a * wide size D i := Nat.mul_le_mul_right _ hlt
      rw [Nat.add_mul] at h3
      omega
  subst ha2
  have hj : j = j' := by
    by_contra hne
    rcases Nat.lt_or_gt_of_ne hne with hlt | hlt
    · have := ahead_add (size := size) hD hm hlt
      omega
    · have := ahead_add (size := size) hD hm' hlt
      omega
  subst hj
  exact ⟨rfl, rfl, rfl, by omega⟩

/-- The first block. -/
theorem first_place {d : ℕ × ℕ} {post : List (ℕ × ℕ)} (hD : (d :: post).Pairwise Before) :
    base size (d :: post) d.1 = 0 ∧ ahead size (d :: post) d.1 d.2 = 0 := by
  have h1 : ∀ e ∈ d :: post, ¬ Before e d := by
    intro e he hb
    rcases List.mem_cons.1 he with rfl | he
    · rcases hb with h | h <;> omega
    · have := (List.pairwise_cons.1 hD).1 e he
      rcases hb with h | h <;> rcases this with h' | h' <;> omega
  constructor
  · unfold base
    refine List.sum_eq_zero fun x hx => ?_
    obtain ⟨k, hk, rfl⟩ := List.mem_map.1 hx
    have : (d :: post).filter (fun e => e.1 = k) = [] := by
      refine List.filter_eq_nil_iff.2 fun e he => ?_
      have := h1 e he
      rw [List.mem_range] at hk
      simp only [decide_eq_true_eq]
      intro h
      exact this (Or.inl (by omega))
    unfold wide
    rw [this]
    simp
  · unfold ahead
    have : (d :: post).filter (fun e => e.1 = d.1 ∧ e.2 < d.2) = [] := by
      refine List.filter_eq_nil_iff.2 fun e he => ?_
      have := h1 e he
      simp only [decide_eq_true_eq]
      intro h
      exact this (Or.inr h)
    rw [this]
    rfl

/-- From a block to the next one. -/
theorem next_place {pre : List (ℕ × ℕ)} {c d : ℕ × ℕ} {post : List (ℕ × ℕ)}
    (hD : (pre ++ c :: d :: post).Pairwise Before) :
    (c.1 = d.1 → ahead size (pre ++ c :: d :: post) d.1 d.2 =
      ahead size (pre ++ c :: d :: post) c.1 c.2 + size c.2) ∧
    (c.1 ≠ d.1 → ahead size (pre ++ c :: d :: post) d.1 d.2 = 0 ∧
      base size (pre ++ c :: d :: post) d.1 =
        base size (pre ++ c :: d :: post) c.1 + wide size (pre ++ c :: d :: post) c.1 * size c.1) := by
  set D := pre ++ c :: d :: post with hDe
  have hc : c ∈ D := by simp [hDe]
  have hcd : Before c d := by
    have := (List.pairwise_append.1 hD).2.1
    exact (List.pairwise_cons.1 this).1 d (by simp)
  -- nothing lies between `c` and `d`
  have hgap : ∀ e ∈ D, Before e d → e = c ∨ Before e c := by
    intro e he hb
    rw [hDe] at he hD
    rcases List.mem_append.1 he with he | he
    · exact Or.inr ((List.pairwise_append.1 hD).2.2 e he c (by simp))
    · rcases List.mem_cons.1 he with rfl | he
      · exact Or.inl rfl
      · exfalso
        rcases List.mem_cons.1 he with rfl | he
        · rcases hb with h | h <;> omega
        · have h1 := (List.pairwise_append.1 hD).2.1
          have h2 := (List.pairwise_cons.1 (List.pairwise_cons.1 h1).2).1 e he
          rcases hb with h | h <;> rcases h2 with h' | h' <;> omega
  constructor
  · intro h
    unfold ahead
    rw [← single_sum hD (i := c.1) (j := c.2) hc fun e => size e.2]
    refine filter_sum_add _ _ _ _ _ ?_ ?_
    · intro e he
      rw [← Bool.decide_or]
      refine decide_eq_decide.2 ?_
      constructor
      · intro h1
        rcases hgap e he (Or.inr h1) with rfl | h2
        · exact Or.inr ⟨rfl, rfl⟩
        · rcases h2 with h2 | h2
          · omega
          · exact Or.inl h2
      · rcases hcd with h' | h' <;> omega
    · intro e _
      simp only [decide_eq_true_eq]
      omega
  · intro h
    have hlt : c.1 < d.1 := by rcases hcd with h' | h' <;> omega
    constructor
    · unfold ahead
      have : D.filter (fun e => e.1 = d.1 ∧ e.2 < d.2) = [] := by
        refine List.filter_eq_nil_iff.2 fun e he => ?_
        simp only [decide_eq_true_eq]
        intro h1
        rcases hgap e he (Or.inr h1) with rfl | h2
        · omega
        · rcases h2 with h2 | h2 <;> omega
      rw [this]
      rfl
    · rw [← base_succ]
      have hz : ∀ k, c.1 < k → k < d.1 → wide size D k = 0 := by
        intro k h1 h2
        unfold wide
        have : D.filter (fun e => e.1 = k) = [] := by
          refine List.filter_eq_nil_iff.2 fun e he => ?_
          simp only [decide_eq_true_eq]
          intro h3
          rcases hgap e he (Or.inl (by omega)) with rfl | h4
          · omega
          · rcases h4 with h4 | h4 <;> omega
        rw [this]
        rfl
      obtain ⟨n, hn⟩ := Nat.exists_eq_add_of_le (Nat.succ_le_of_lt hlt)
      rw [hn]
      have : ∀ m ≤ n, base size D (c.1.succ + m) = base size D (c.1 + 1) := by
        intro m
        induction m with
        | zero => intro _; rfl
        | succ m ih =>
          intro hm
          rw [← Nat.add_assoc, base_succ, ih (by omega), hz _ (by omega) (by omega)]
          simp
      exact this n le_rfl

/-- The entries of a row are those of its blocks, one after the other. -/
theorem flat_row (P : List ℕ) (hP : P.Pairwise (· < ·)) (s : ℕ) :
    (P.flatMap fun j => List.range' (s + ((P.filter (· < j)).map size).sum) (size j)) =
      List.range' s (P.map size).sum := by
  induction P generalizing s with
  | nil => rfl
  | cons j0 P ih =>
    rw [List.pairwise_cons] at hP
    rw [List.flatMap_cons, List.map_cons, List.sum_cons]
    have h0 : (j0 :: P).filter (· < j0) = [] := by
      refine List.filter_eq_nil_iff.2 fun e he => ?_
      simp only [decide_eq_true_eq]
      rcases List.mem_cons.1 he with rfl | he
      · omega
      · have := hP.1 e he; omega
    rw [h0]
    have h1 : (P.flatMap fun j => List.range' (s + (((j0 :: P).filter (· < j)).map size).sum) (size j)) =
        P.flatMap fun j => List.range' (s + size j0 + ((P.filter (· < j)).map size).sum) (size j) := by
      rw [List.flatMap_def, List.flatMap_def]
      congr 1
      refine List.map_congr_left fun j hj => ?_
      rw [List.filter_cons, if_pos (by simpa using hP.1 j hj), List.map_cons, List.sum_cons, Nat.add_assoc]
    rw [h1, ih hP.2]
    simp only [List.map_nil, List.sum_nil, Nat.add_zero]
    exact List.range'_append_1

/-- The column blocks of row block `i`. -/
def colsOf (D : List (ℕ × ℕ)) (i : ℕ) : List ℕ := (D.filter fun d => d.1 = i).map Prod.snd

theorem mem_colsOf {i j : ℕ} : j ∈ colsOf D i ↔ (i, j) ∈ D := by
  unfold colsOf
  simp

theorem colsOf_sorted (hD : D.Pairwise Before) (i : ℕ) : (colsOf D i).Pairwise (· < ·) := by
  unfold colsOf
  rw [List.pairwise_map]
  refine List.Pairwise.imp_of_mem (R := Before) ?_ (hD.filter _)
  intro a b ha hb h
  simp only [List.mem_filter, decide_eq_true_eq] at ha hb
  rcases h with h | h <;> omega

theorem wide_eq (i : ℕ) : wide size D i = ((colsOf D i).map size).sum := by
  unfold wide colsOf
  rw [List.map_map]
  rfl

theorem ahead_eq (i j : ℕ) : ahead size D i j = (((colsOf D i).filter (· < j)).map size).sum := by
  unfold ahead colsOf
  rw [List.filter_map, List.map_map, List.filter_filter]
  congr 2
  refine List.filter_congr fun d _ => ?_
  simp [Bool.and_comm]

theorem row_range (hD : D.Pairwise Before) (i s : ℕ) :
    List.range' s (wide size D i) =
      (colsOf D i).flatMap fun j => List.range' (s + ahead size D i j) (size j) := by
  rw [wide_eq, ← flat_row _ (colsOf_sorted hD i)]
  simp only [ahead_eq]

end

end Ceres.InnerProduct
