import Verif.SchurThreads.Model
import Verif.Schur.Elim

/-!
# The layout of the buffers: every f block of a chunk has its own part of the thread's slice
-/

noncomputable section

namespace Ceres.SchurThreads

open Matrix Ceres.Schur Ceres.Tasks

variable {sz : ℕ → ℕ}

/-- A layout of disjoint parts of `[0, s.2)`. -/
structure Lay (sz : ℕ → ℕ) (e : ℕ) (s : List (ℕ × ℕ) × ℕ) : Prop where
  sorted : (s.1.map Prod.fst).Pairwise (· < ·)
  inside : ∀ a ∈ s.1, a.2 + sz e * sz a.1 ≤ s.2
  apart : ∀ a ∈ s.1, ∀ b ∈ s.1, a.1 ≠ b.1 →
    a.2 + sz e * sz a.1 ≤ b.2 ∨ b.2 + sz e * sz b.1 ≤ a.2

theorem mem_insertSlot {e a : ℕ × ℕ} {l : List (ℕ × ℕ)} : a ∈ insertSlot e l ↔ a = e ∨ a ∈ l := by
  induction l with
  | nil => simp [insertSlot]
  | cons b l ih =>
    simp only [insertSlot]
    split_ifs
    · simp
    · simp only [List.mem_cons, ih]; tauto

theorem insertSlot_keys {e : ℕ × ℕ} {l : List (ℕ × ℕ)} (h : e.1 ∉ l.map Prod.fst) :
    (insertSlot e l).map Prod.fst = insertKey e.1 (l.map Prod.fst) := by
  induction l with
  | nil => rfl
  | cons b l ih =>
    simp only [List.map_cons, List.mem_cons, not_or] at h
    simp only [insertSlot, List.map_cons, insertKey]
    by_cases h1 : e.1 < b.1
    · rw [if_pos h1, if_pos h1]; rfl
    · rw [if_neg h1, if_neg h1, if_neg h.1, List.map_cons, ih h.2]

theorem insertKey_of_mem {k : ℕ} {l : List ℕ} (hs : l.Pairwise (· < ·)) (h : k ∈ l) :
    insertKey k l = l := by
  induction l with
  | nil => cases h
  | cons b l ih =>
    rw [List.pairwise_cons] at hs
    simp only [insertKey]
    rcases List.mem_cons.1 h with rfl | h
    · rw [if_neg (Nat.lt_irrefl _), if_pos rfl]
    · have := hs.1 k h
      rw [if_neg (by omega), if_neg (by omega), ih hs.2 h]

theorem any_iff {l : List (ℕ × ℕ)} {f : ℕ} : (l.any fun a => a.1 = f) = true ↔ f ∈ l.map Prod.fst := by
  simp only [List.any_eq_true, decide_eq_true_eq, List.mem_map]

theorem addSlot_keys {e : ℕ} {s : List (ℕ × ℕ) × ℕ} (h : Lay sz e s) (f : ℕ) :
    (addSlot sz e s f).1.map Prod.fst = insertKey f (s.1.map Prod.fst) := by
  unfold addSlot
  split_ifs with ha
  · rw [insertKey_of_mem h.sorted (any_iff.1 ha)]
  · exact insertSlot_keys fun hf => ha (any_iff.2 hf)

theorem addSlot_lay {e : ℕ} {s : List (ℕ × ℕ) × ℕ} (h : Lay sz e s) (f : ℕ) :
    Lay sz e (addSlot sz e s f) := by
  have hk := addSlot_keys h f
  refine ⟨by rw [hk]; exact insertKey_sorted f _ h.sorted, ?_, ?_⟩
  · unfold addSlot
    split_ifs with ha
    · exact h.inside
    · intro a hm
      rcases mem_insertSlot.1 hm with rfl | hm
      · exact le_rfl
      · have := h.inside a hm
        show _ ≤ s.2 + _
        omega
  · unfold addSlot
    split_ifs with ha
    · exact h.apart
    · intro a hm b hb hne
      rcases mem_insertSlot.1 hm with rfl | hm <;> rcases mem_insertSlot.1 hb with rfl | hb
      · exact absurd rfl hne
      · exact Or.inr (h.inside b hb)
      · exact Or.inl (h.inside a hm)
      · exact h.apart a hm b hb hne

theorem layout_aux {e : ℕ} (chunk : List (Row sz)) :
    ∀ s : List (ℕ × ℕ) × ℕ, Lay sz e s →
    Lay sz e (chunk.foldl (fun s r => r.cells.tail.foldl (fun s c => addSlot sz e s c.id) s) s) ∧
    (chunk.foldl (fun s r => r.cells.tail.foldl (fun s c => addSlot sz e s c.id) s) s).1.map Prod.fst =
      chunk.foldl (fun l r => r.cells.tail.foldl (fun l c => insertKey c.id l) l) (s.1.map Prod.fst) := by
  have hrow : ∀ {m : ℕ} (cs : List (Cell sz m)) (s : List (ℕ × ℕ) × ℕ), Lay sz e s →
      Lay sz e (cs.foldl (fun s c => addSlot sz e s c.id) s) ∧
      (cs.foldl (fun s c => addSlot sz e s c.id) s).1.map Prod.fst =
        cs.foldl (fun l c => insertKey c.id l) (s.1.map Prod.fst) := by
    intro m cs
    induction cs with
    | nil => exact fun s h => ⟨h, rfl⟩
    | cons c cs ih =>
      intro s h
      obtain ⟨h1, h2⟩ := ih _ (addSlot_lay h c.id)
      refine ⟨h1, ?_⟩
      rw [List.foldl_cons, h2, addSlot_keys h, List.foldl_cons]
  induction chunk with
  | nil => exact fun s h => ⟨h, rfl⟩
  | cons r rs ih =>
    intro s h
    obtain ⟨h1, h2⟩ := hrow r.cells.tail s h
    obtain ⟨h3, h4⟩ := ih _ h1
    refine ⟨h3, ?_⟩
    rw [List.foldl_cons, h4, h2, List.foldl_cons]

theorem layout_lay (ch : ℕ × List (Row sz)) : Lay sz ch.1 (layoutOf ch) :=
  (layout_aux ch.2 ([], 0) ⟨by simp, by simp, by simp⟩).1

/-- The layout has exactly the f blocks of the chunk. -/
theorem layout_keys (ch : ℕ × List (Row sz)) : (layoutOf ch).1.map Prod.fst = bufferKeys ch.2 :=
  (layout_aux ch.2 ([], 0) ⟨by simp, by simp, by simp⟩).2

theorem Lay.slot {e : ℕ} {s : List (ℕ × ℕ) × ℕ} (h : Lay sz e s) {a : ℕ × ℕ} (ha : a ∈ s.1) :
    slotOf s.1 a.1 = a.2 := by
  unfold slotOf
  obtain ⟨l, n⟩ := s
  have hs := h.sorted
  simp only at ha hs ⊢
  clear h
  induction l with
  | nil => cases ha
  | cons b l ih =>
    rw [List.map_cons, List.pairwise_cons] at hs
    rcases List.mem_cons.1 ha with rfl | ha
    · rw [List.find?_cons_of_pos (by simp)]; rfl
    · have := hs.1 a.1 (List.mem_map.2 ⟨a, ha, rfl⟩)
      rw [List.find?_cons_of_neg (by simp; omega)]
      exact ih ha hs.2

theorem foldl_max_le (l : List (ℕ × List (Row sz))) (n : ℕ) :
    n ≤ l.foldl (fun n ch => max (layoutOf ch).2 n) n := by
  induction l generalizing n with
  | nil => exact le_rfl
  | cons a l ih => exact le_trans (le_max_right _ _) (ih _)

theorem layout_le_bufferSize {chunks : List (ℕ × List (Row sz))} {ch : ℕ × List (Row sz)}
    (h : ch ∈ chunks) : (layoutOf ch).2 ≤ bufferSize chunks := by
  unfold bufferSize
  generalize 1 = n
  induction chunks generalizing n with
  | nil => cases h
  | cons a l ih =>
    rw [List.foldl_cons]
    rcases List.mem_cons.1 h with rfl | h
    · exact le_trans (le_max_left _ _) (foldl_max_le l _)
    · exact ih h _

theorem bufferSize_pos (chunks : List (ℕ × List (Row sz))) : 0 < bufferSize chunks :=
  foldl_max_le chunks 1

/-! ## Positions -/

theorem pos_lt {m c : ℕ} (i : Fin m) (j : Fin c) : (i : ℕ) * c + j < m * c := by
  have h1 := i.isLt
  have h2 := j.isLt
  calc (i : ℕ) * c + j < i * c + c := by omega
    _ = (i + 1) * c := by rw [Nat.add_mul, one_mul]
    _ ≤ m * c := Nat.mul_le_mul_right _ h1

theorem pos_inj {m c : ℕ} {i i' : Fin m} {j j' : Fin c} (h : (i : ℕ) * c + j = i' * c + j') :
    i = i' ∧ j = j' := by
  have h2 := j.isLt
  have h3 := j'.isLt
  have hc : 0 < c := by omega
  have e1 : (i : ℕ) = i' := by
    have := congrArg (· / c) h
    simp only [Nat.add_comm (_ * c), Nat.add_mul_div_right _ _ hc, Nat.div_eq_of_lt h2,
      Nat.div_eq_of_lt h3] at this
    omega
  refine ⟨Fin.ext e1, Fin.ext ?_⟩
  rw [e1] at h
  omega

theorem bufLoc_inj (p : ℕ) {m c : ℕ} (i : Fin m) (j : Fin c) (i' : Fin m) (j' : Fin c)
    (h : bufLoc p i j = bufLoc p i' j') : i = i' ∧ j = j' := by
  unfold bufLoc at h
  simp only [Loc.buffer.injEq] at h
  exact pos_inj (by omega)

theorem outLoc_inj (p : ℕ) {m c : ℕ} (i : Fin m) (j : Fin c) (i' : Fin m) (j' : Fin c)
    (h : outLoc p i j = outLoc p i' j') : i = i' ∧ j = j' := by
  unfold outLoc at h
  simp only [Loc.outer.injEq] at h
  exact pos_inj (by omega)

theorem lhsLoc_inj (x y : ℕ) (i : Fin (sz x)) (j : Fin (sz y)) (i' : Fin (sz x)) (j' : Fin (sz y))
    (h : lhsLoc x y i j = lhsLoc x y i' j') : i = i' ∧ j = j' := by
  unfold lhsLoc at h
  simp only [Loc.lhs.injEq, true_and] at h
  exact ⟨Fin.ext h.1, Fin.ext h.2⟩

theorem rhsLoc_inj (x : ℕ) : Function.Injective (rhsLoc (sz := sz) x) := by
  intro i i' h
  unfold rhsLoc at h
  simp only [Loc.rhs.injEq, true_and] at h
  exact Fin.ext h

theorem solLoc_inj (x : ℕ) : Function.Injective (solLoc (sz := sz) x) := by
  intro i i' h
  unfold solLoc at h
  simp only [Loc.sol.injEq, true_and] at h
  exact Fin.ext h

end Ceres.SchurThreads
