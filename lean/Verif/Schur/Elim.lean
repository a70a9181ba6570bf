import Verif.Schur.Model
import Mathlib.Tactic.Abel
import Mathlib.Tactic.Ring
import Mathlib.Tactic.Linarith
import Mathlib.Algebra.BigOperators.Group.List.Lemmas
import Mathlib.Algebra.BigOperators.Group.List.Basic

/-!
# What `Eliminate` computes, as sums over the rows
-/

noncomputable section

namespace Ceres.Schur

open Matrix

variable {sz : ℕ → ℕ}

/-- The block of a list of cells in column block `b` (zero if there is no such cell). -/
def sumAt {m : ℕ} (cells : List (Cell sz m)) (b : ℕ) : Matrix (Fin m) (Fin (sz b)) ℝ :=
  (cells.map fun c => c.at b).sum

@[simp] theorem sumAt_nil {m : ℕ} (b : ℕ) : sumAt ([] : List (Cell sz m)) b = 0 := rfl

@[simp] theorem sumAt_cons {m : ℕ} (c : Cell sz m) (cs : List (Cell sz m)) (b : ℕ) :
    sumAt (c :: cs) b = c.at b + sumAt cs b := by simp [sumAt]

theorem Cell.at_self {m : ℕ} (c : Cell sz m) : c.at c.id = c.val := by simp [Cell.at]

theorem Cell.at_ne {m : ℕ} (c : Cell sz m) {b : ℕ} (h : c.id ≠ b) : c.at b = 0 := by
  simp [Cell.at, h]

theorem sumAt_zero {m : ℕ} {cells : List (Cell sz m)} {b : ℕ} (h : ∀ c ∈ cells, c.id ≠ b) :
    sumAt cells b = 0 := by
  induction cells with
  | nil => rfl
  | cons c cs ih =>
    rw [sumAt_cons, c.at_ne (h c (by simp)), ih fun d hd => h d (by simp [hd]), add_zero]

theorem addCell_has (L : Lhs sz) (b1 b2 : ℕ) (M) : (addCell L b1 b2 M).has = L.has := by
  unfold addCell; split <;> rfl

/-- Adding a product of two cells. -/
theorem addCell_at {m : ℕ} (L : Lhs sz) (c d : Cell sz m) (x y : ℕ) :
    (addCell L c.id d.id (c.valᵀ * d.val)).val x y =
      L.val x y + if L.has x y then (c.at x)ᵀ * d.at y else 0 := by
  by_cases hx : c.id = x
  · subst hx
    by_cases hy : d.id = y
    · subst hy
      rw [c.at_self, d.at_self]
      unfold addCell
      split_ifs with h
      · simp
      · simp
    · rw [d.at_ne hy]
      unfold addCell
      split_ifs with h h'
      all_goals simp [Function.update_of_ne (Ne.symm hy)]
  · rw [c.at_ne hx]
    unfold addCell
    split_ifs with h h'
    all_goals simp [Function.update_of_ne (Ne.symm hx)]

/-- Adding a block at `(k, l)`, the added blocks being given by a family. -/
theorem addCell_family (L : Lhs sz) (k l : ℕ)
    (F : (x y : ℕ) → Matrix (Fin (sz x)) (Fin (sz y)) ℝ) (x y : ℕ) :
    (addCell L k l (F k l)).val x y =
      L.val x y + if L.has x y ∧ k = x ∧ l = y then F x y else 0 := by
  by_cases hx : k = x
  · subst hx
    by_cases hy : l = y
    · subst hy
      unfold addCell
      split_ifs with h h' h'
      · simp
      · simp [h] at h'
      · simp [h] at h'
      · simp
    · unfold addCell
      split_ifs with h h' h'
      all_goals first | simp [Function.update_of_ne (Ne.symm hy)] | skip
      all_goals exact absurd h'.2.2 hy
  · unfold addCell
    split_ifs with h h' h'
    all_goals first | simp [Function.update_of_ne (Ne.symm hx)] | skip
    all_goals exact absurd h'.2.1 hx

/-! ## Outer products of rows -/

theorem foldl_addCell {m : ℕ} (c : Cell sz m) (cs : List (Cell sz m)) (L : Lhs sz) (x y : ℕ) :
    (cs.foldl (fun L d => addCell L c.id d.id (c.valᵀ * d.val)) L).has = L.has ∧
    (cs.foldl (fun L d => addCell L c.id d.id (c.valᵀ * d.val)) L).val x y =
      L.val x y + if L.has x y then (c.at x)ᵀ * sumAt cs y else 0 := by
  induction cs generalizing L with
  | nil => simp
  | cons d cs ih =>
    rw [List.foldl_cons]
    obtain ⟨h1, h2⟩ := ih (addCell L c.id d.id (c.valᵀ * d.val))
    refine ⟨by rw [h1, addCell_has], ?_⟩
    rw [h2, addCell_has, addCell_at, sumAt_cons, add_assoc]
    congr 1
    split_ifs
    · rw [Matrix.mul_add]
    · simp

theorem rowOuterProduct_has {m : ℕ} (cs : List (Cell sz m)) (L : Lhs sz) :
    (rowOuterProduct cs L).has = L.has := by
  induction cs generalizing L with
  | nil => rfl
  | cons c cs ih =>
    rw [rowOuterProduct, ih, (foldl_addCell c cs _ 0 0).1, addCell_has]

/-- The upper triangle of `FᵀF` is added. -/
theorem rowOuterProduct_val {m : ℕ} (cs : List (Cell sz m))
    (hs : cs.Pairwise fun c d => c.id < d.id) (L : Lhs sz) {x y : ℕ} (hxy : x ≤ y) :
    (rowOuterProduct cs L).val x y =
      L.val x y + if L.has x y then (sumAt cs x)ᵀ * sumAt cs y else 0 := by
  induction cs generalizing L with
  | nil => simp [rowOuterProduct]
  | cons c cs ih =>
    rw [List.pairwise_cons] at hs
    rw [rowOuterProduct, ih hs.2]
    obtain ⟨h1, h2⟩ := foldl_addCell c cs (addCell L c.id c.id (c.valᵀ * c.val)) x y
    rw [h1, h2, addCell_has, addCell_at, add_assoc, add_assoc]
    congr 1
    split_ifs
    · rw [sumAt_cons, sumAt_cons, transpose_add, Matrix.add_mul, Matrix.mul_add, Matrix.mul_add]
      have hz : (sumAt cs x)ᵀ * c.at y = 0 := by
        by_cases hy : c.id = y
        · rw [sumAt_zero (b := x)]
          · simp
          · intro d hd h
            have := hs.1 d hd
            omega
        · rw [c.at_ne hy, Matrix.mul_zero]
      rw [hz]
      abel
    · simp

/-! ## Chunks -/

/-- The f cells of a row with an e block. -/
abbrev Row.fCells (r : Row sz) := r.cells.tail

theorem foldl_buffer {e m : ℕ} (E : Matrix (Fin m) (Fin (sz e)) ℝ) (cs : List (Cell sz m))
    (buf : (f : ℕ) → Matrix (Fin (sz e)) (Fin (sz f)) ℝ) (f : ℕ) :
    cs.foldl (fun buf c =>
      let EtF := Eᵀ * c.val
      Function.update buf c.id (buf c.id + EtF)) buf f = buf f + Eᵀ * sumAt cs f := by
  induction cs generalizing buf with
  | nil => simp
  | cons c cs ih =>
    rw [List.foldl_cons, ih, sumAt_cons, Matrix.mul_add, ← add_assoc]
    congr 1
    by_cases h : c.id = f
    · subst h
      simp [c.at_self]
    · simp [Function.update_of_ne (Ne.symm h), c.at_ne h]

theorem chunkDiag_spec (e : ℕ) (chunk : List (Row sz)) (a : Acc sz e) (L : Lhs sz) :
    (chunkDiagonalBlockAndGradient e chunk a L).1.ete =
        a.ete + (chunk.map fun r => (r.eCell e)ᵀ * r.eCell e).sum ∧
    (chunkDiagonalBlockAndGradient e chunk a L).1.g =
        a.g + (chunk.map fun r => (r.eCell e)ᵀ *ᵥ r.rhs).sum ∧
    (∀ f, (chunkDiagonalBlockAndGradient e chunk a L).1.buffer f =
        a.buffer f + (chunk.map fun r => (r.eCell e)ᵀ * sumAt r.fCells f).sum) ∧
    (chunkDiagonalBlockAndGradient e chunk a L).2.has = L.has ∧
    ((∀ r ∈ chunk, r.cells.Pairwise fun c d => c.id < d.id) → ∀ x y, x ≤ y →
      (chunkDiagonalBlockAndGradient e chunk a L).2.val x y =
        L.val x y + if L.has x y then
          (chunk.map fun r => (sumAt r.fCells x)ᵀ * sumAt r.fCells y).sum else 0) := by
  unfold chunkDiagonalBlockAndGradient
  induction chunk generalizing a L with
  | nil => simp
  | cons r rs ih =>
    simp only [List.foldl_cons, List.map_cons, List.sum_cons]
    obtain ⟨h1, h2, h3, h4, h5⟩ := ih
      { ete := a.ete + (r.eCell e)ᵀ * r.eCell e
        g := a.g + (r.eCell e)ᵀ *ᵥ r.rhs
        buffer := r.cells.tail.foldl (fun buf c =>
             let EtF := (r.eCell e)ᵀ * c.val
             Function.update buf c.id (buf c.id + EtF)) a.buffer } (rowOuterProduct r.cells.tail L)
    refine ⟨?_, ?_, ?_, ?_, ?_⟩
    · rw [h1]; simp only [add_assoc]
    · rw [h2]; simp only [add_assoc]
    · intro f
      rw [h3]
      simp only [foldl_buffer, add_assoc]
    · rw [h4, rowOuterProduct_has]
    · intro hs x y hxy
      have hr := (hs r (by simp)).tail
      rw [h5 (fun s hs' => hs s (by simp [hs'])) x y hxy, rowOuterProduct_has,
        rowOuterProduct_val _ hr _ hxy, add_assoc]
      congr 1
      split_ifs
      · rfl
      · simp

theorem insertKey_mem (k : ℕ) (l : List ℕ) (a : ℕ) : a ∈ insertKey k l ↔ a = k ∨ a ∈ l := by
  induction l with
  | nil => simp [insertKey]
  | cons b l ih =>
    simp only [insertKey]
    split_ifs with h1 h2
    · simp
    · subst h2; simp
    · simp only [List.mem_cons, ih]; tauto

theorem insertKey_sorted (k : ℕ) (l : List ℕ) (h : l.Pairwise (· < ·)) :
    (insertKey k l).Pairwise (· < ·) := by
  induction l with
  | nil => simp [insertKey]
  | cons b l ih =>
    have hb := List.pairwise_cons.1 h
    simp only [insertKey]
    split_ifs with h1 h2
    · refine List.pairwise_cons.2 ⟨?_, h⟩
      intro a ha
      rcases List.mem_cons.1 ha with rfl | ha
      · exact h1
      · exact h1.trans (hb.1 a ha)
    · exact h
    · refine List.pairwise_cons.2 ⟨?_, ih hb.2⟩
      intro a ha
      rcases (insertKey_mem k l a).1 ha with rfl | ha
      · omega
      · exact hb.1 a ha

theorem foldl_insertKey {m : ℕ} (cs : List (Cell sz m)) (l : List ℕ) (h : l.Pairwise (· < ·)) :
    (cs.foldl (fun l c => insertKey c.id l) l).Pairwise (· < ·) ∧
      ∀ a, a ∈ cs.foldl (fun l c => insertKey c.id l) l ↔ a ∈ l ∨ ∃ c ∈ cs, c.id = a := by
  induction cs generalizing l with
  | nil => simp [h]
  | cons c cs ih =>
    rw [List.foldl_cons]
    obtain ⟨h1, h2⟩ := ih _ (insertKey_sorted c.id l h)
    refine ⟨h1, fun a => ?_⟩
    rw [h2, insertKey_mem]
    simp only [List.mem_cons, exists_eq_or_imp]
    constructor
    · rintro ((rfl | h) | h)
      · exact .inr (.inl rfl)
      · exact .inl h
      · exact .inr (.inr h)
    · rintro (h | rfl | h)
      · exact .inl (.inr h)
      · exact .inl (.inl rfl)
      · exact .inr h

/-- The buffer has exactly one slot for every f block of the chunk, in increasing order. -/
theorem bufferKeys_spec (chunk : List (Row sz)) :
    (bufferKeys chunk).Pairwise (· < ·) ∧
      ∀ a, a ∈ bufferKeys chunk ↔ ∃ r ∈ chunk, ∃ c ∈ r.fCells, c.id = a := by
  have key : ∀ (chunk : List (Row sz)) (l : List ℕ), l.Pairwise (· < ·) →
      (chunk.foldl (fun l r => r.cells.tail.foldl (fun l c => insertKey c.id l) l) l).Pairwise
        (· < ·) ∧
      ∀ a, a ∈ chunk.foldl (fun l r => r.cells.tail.foldl (fun l c => insertKey c.id l) l) l ↔
        a ∈ l ∨ ∃ r ∈ chunk, ∃ c ∈ r.fCells, c.id = a := by
    intro chunk
    induction chunk with
    | nil => intro l h; simp [h]
    | cons r rs ih =>
      intro l h
      rw [List.foldl_cons]
      obtain ⟨h1, h2⟩ := foldl_insertKey r.cells.tail l h
      obtain ⟨h3, h4⟩ := ih _ h1
      refine ⟨h3, fun a => ?_⟩
      rw [h4, h2]
      simp only [List.mem_cons, exists_eq_or_imp, or_assoc]
  obtain ⟨h1, h2⟩ := key chunk [] List.Pairwise.nil
  exact ⟨h1, fun a => by rw [bufferKeys, h2]; simp⟩

theorem foldl_addCell_keys (F : (x y : ℕ) → Matrix (Fin (sz x)) (Fin (sz y)) ℝ) (k : ℕ)
    (ks : List ℕ) (hn : ks.Nodup) (L : Lhs sz) (x y : ℕ) :
    (ks.foldl (fun L k2 => addCell L k k2 (F k k2)) L).has = L.has ∧
    (ks.foldl (fun L k2 => addCell L k k2 (F k k2)) L).val x y =
      L.val x y + if L.has x y ∧ k = x ∧ y ∈ ks then F x y else 0 := by
  induction ks generalizing L with
  | nil => simp
  | cons k2 ks ih =>
    rw [List.nodup_cons] at hn
    rw [List.foldl_cons]
    obtain ⟨h1, h2⟩ := ih hn.2 (addCell L k k2 (F k k2))
    refine ⟨by rw [h1, addCell_has], ?_⟩
    rw [h2, addCell_has, addCell_family, add_assoc]
    congr 1
    by_cases hy : k2 = y
    · subst hy
      simp [hn.1]
    · simp [hy, Ne.symm hy]

theorem chunkOuter_spec {e : ℕ} (inv : Matrix (Fin (sz e)) (Fin (sz e)) ℝ)
    (buf : (f : ℕ) → Matrix (Fin (sz e)) (Fin (sz f)) ℝ) (ks : List ℕ)
    (hs : ks.Pairwise (· < ·)) (L : Lhs sz) :
    (chunkOuterProduct inv buf ks L).has = L.has ∧
    ∀ x y, x ≤ y → (chunkOuterProduct inv buf ks L).val x y =
      L.val x y + if L.has x y ∧ x ∈ ks ∧ y ∈ ks then -((buf x)ᵀ * inv * buf y) else 0 := by
  induction ks generalizing L with
  | nil => simp [chunkOuterProduct]
  | cons k ks ih =>
    rw [chunkOuterProduct]
    have hp := List.pairwise_cons.1 hs
    have hn : (k :: ks).Nodup := hs.imp fun h => Nat.ne_of_lt h
    obtain ⟨h1, h2⟩ := ih hp.2 ((k :: ks).foldl
      (fun L k2 => addCell L k k2 (-((buf k)ᵀ * inv * buf k2))) L)
    have hk := fun x y => foldl_addCell_keys (fun x y => -((buf x)ᵀ * inv * buf y)) k (k :: ks) hn L x y
    refine ⟨by rw [h1, (hk 0 0).1], fun x y hxy => ?_⟩
    rw [h2 x y hxy, (hk x y).1, (hk x y).2, add_assoc]
    congr 1
    by_cases hx : k = x
    · subst hx
      have : k ∉ ks := fun h => lt_irrefl _ (hp.1 k h)
      simp [this]
    · by_cases hy : k = y
      · subst hy
        have h3 : k ∉ ks := fun h => lt_irrefl _ (hp.1 k h)
        have h4 : x ∉ ks := fun h => by have := hp.1 x h; omega
        simp [h3, h4, Ne.symm hx, hx]
      · simp [hx, hy, Ne.symm hx, Ne.symm hy]

theorem foldl_addVec {m : ℕ} (cs : List (Cell sz m)) (v : Fin m → ℝ) (rhs : BVec sz) (x : ℕ) :
    cs.foldl (fun rhs c => addVec rhs c.id (c.valᵀ *ᵥ v)) rhs x =
      rhs x + (sumAt cs x)ᵀ *ᵥ v := by
  induction cs generalizing rhs with
  | nil => simp
  | cons c cs ih =>
    rw [List.foldl_cons, ih, sumAt_cons, transpose_add, add_mulVec, ← add_assoc]
    congr 1
    by_cases h : c.id = x
    · subst h; simp [addVec, c.at_self]
    · simp [addVec, Function.update_of_ne (Ne.symm h), c.at_ne h]

theorem updateRhs_spec (e : ℕ) (chunk : List (Row sz)) (v : Fin (sz e) → ℝ) (rhs : BVec sz)
    (x : ℕ) : updateRhs e chunk v rhs x =
      rhs x + (chunk.map fun r => (sumAt r.fCells x)ᵀ *ᵥ (r.rhs - r.eCell e *ᵥ v)).sum := by
  unfold updateRhs
  induction chunk generalizing rhs with
  | nil => simp
  | cons r rs ih =>
    rw [List.foldl_cons, ih, foldl_addVec, List.map_cons, List.sum_cons, add_assoc]

/-! ## The quantities of a chunk -/

/-- `EᵀE + D²` of a chunk. -/
def eteOf (D : Option (BVec sz)) (ch : ℕ × List (Row sz)) :
    Matrix (Fin (sz ch.1)) (Fin (sz ch.1)) ℝ :=
  eteInit D ch.1 + (ch.2.map fun r => (r.eCell ch.1)ᵀ * r.eCell ch.1).sum

/-- `Eᵀb` of a chunk. -/
def gOf (ch : ℕ × List (Row sz)) : Fin (sz ch.1) → ℝ :=
  (ch.2.map fun r => (r.eCell ch.1)ᵀ *ᵥ r.rhs).sum

/-- `EᵀF` of a chunk. -/
def bufOf (ch : ℕ × List (Row sz)) (f : ℕ) : Matrix (Fin (sz ch.1)) (Fin (sz f)) ℝ :=
  (ch.2.map fun r => (r.eCell ch.1)ᵀ * sumAt r.fCells f).sum

/-- What a chunk adds to the block `(x, y)` of the reduced matrix. -/
def chunkLhs (inv : Inverter) (D : Option (BVec sz)) (ch : ℕ × List (Row sz)) (x y : ℕ) :
    Matrix (Fin (sz x)) (Fin (sz y)) ℝ :=
  (ch.2.map fun r => (sumAt r.fCells x)ᵀ * sumAt r.fCells y).sum -
    (bufOf ch x)ᵀ * inv _ (eteOf D ch) * bufOf ch y

/-- What a chunk adds to block `x` of the reduced right hand side. -/
def chunkRhs (inv : Inverter) (D : Option (BVec sz)) (ch : ℕ × List (Row sz)) (x : ℕ) : Fin (sz x) → ℝ :=
  (ch.2.map fun r => (sumAt r.fCells x)ᵀ *ᵥ
    (r.rhs - r.eCell ch.1 *ᵥ (inv _ (eteOf D ch) *ᵥ gOf ch))).sum

theorem bufOf_zero (ch : ℕ × List (Row sz)) {f : ℕ} (h : f ∉ bufferKeys ch.2) :
    bufOf ch f = 0 := by
  unfold bufOf
  rw [List.map_congr_left (g := fun _ => 0)]
  · simp
  · intro r hr
    rw [sumAt_zero, Matrix.mul_zero]
    intro c hc hf
    exact h ((bufferKeys_spec ch.2).2 f |>.2 ⟨r, hr, c, hc, hf⟩)

theorem eliminateChunk_spec (inv : Inverter) (D : Option (BVec sz)) (s : Lhs sz × BVec sz)
    (ch : ℕ × List (Row sz)) (hs : ∀ r ∈ ch.2, r.cells.Pairwise fun c d => c.id < d.id) :
    (eliminateChunk inv D s ch).1.has = s.1.has ∧
    (∀ x y, x ≤ y → (eliminateChunk inv D s ch).1.val x y =
      s.1.val x y + if s.1.has x y then chunkLhs inv D ch x y else 0) ∧
    (∀ x, (eliminateChunk inv D s ch).2 x = s.2 x + chunkRhs inv D ch x) := by
  obtain ⟨h1, h2, h3, h4, h5⟩ := chunkDiag_spec ch.1 ch.2
    (⟨eteInit D ch.1, 0, fun _ => 0⟩ : Acc sz ch.1) s.1
  have e1 : (chunkDiagonalBlockAndGradient ch.1 ch.2 ⟨eteInit D ch.1, 0, fun _ => 0⟩ s.1).1.ete =
      eteOf D ch := h1
  have e2 : (chunkDiagonalBlockAndGradient ch.1 ch.2 ⟨eteInit D ch.1, 0, fun _ => 0⟩ s.1).1.g =
      gOf ch := by rw [h2, zero_add]; rfl
  have e3 : ∀ f, (chunkDiagonalBlockAndGradient ch.1 ch.2 ⟨eteInit D ch.1, 0, fun _ => 0⟩
      s.1).1.buffer f = bufOf ch f := by intro f; rw [h3, zero_add]; rfl
  obtain ⟨hk1, hk2⟩ := bufferKeys_spec ch.2
  obtain ⟨c1, c2⟩ := chunkOuter_spec (inv _ (eteOf D ch))
    (chunkDiagonalBlockAndGradient ch.1 ch.2 ⟨eteInit D ch.1, 0, fun _ => 0⟩ s.1).1.buffer
    (bufferKeys ch.2) hk1
    (chunkDiagonalBlockAndGradient ch.1 ch.2 ⟨eteInit D ch.1, 0, fun _ => 0⟩ s.1).2
  refine ⟨?_, ?_, ?_⟩
  · simp only [eliminateChunk, e1]
    rw [c1, h4]
  · intro x y hxy
    simp only [eliminateChunk, e1]
    rw [c2 x y hxy, h4, h5 hs x y hxy, add_assoc]
    congr 1
    simp only [e3]
    by_cases hh : s.1.has x y
    · simp only [hh, if_true, true_and, chunkLhs, sub_eq_add_neg]
      congr 1
      split_ifs with hm
      · rfl
      · rcases not_and_or.1 hm with hm | hm
        · rw [bufOf_zero ch hm]; simp
        · rw [bufOf_zero ch hm]; simp
    · simp [hh]
  · intro x
    simp only [eliminateChunk, e1, e2]
    rw [updateRhs_spec]
    rfl

theorem foldl_chunks (inv : Inverter) (D : Option (BVec sz)) (order : List (ℕ × List (Row sz)))
    (s : Lhs sz × BVec sz)
    (hs : ∀ ch ∈ order, ∀ r ∈ ch.2, r.cells.Pairwise fun c d => c.id < d.id) :
    (order.foldl (eliminateChunk inv D) s).1.has = s.1.has ∧
    (∀ x y, x ≤ y → (order.foldl (eliminateChunk inv D) s).1.val x y =
      s.1.val x y + if s.1.has x y then (order.map fun ch => chunkLhs inv D ch x y).sum else 0) ∧
    (∀ x, (order.foldl (eliminateChunk inv D) s).2 x =
      s.2 x + (order.map fun ch => chunkRhs inv D ch x).sum) := by
  induction order generalizing s with
  | nil => simp
  | cons ch order ih =>
    rw [List.foldl_cons]
    obtain ⟨h1, h2, h3⟩ := eliminateChunk_spec inv D s ch (hs ch (by simp))
    obtain ⟨i1, i2, i3⟩ := ih (eliminateChunk inv D s ch) fun c hc => hs c (by simp [hc])
    refine ⟨by rw [i1, h1], ?_, ?_⟩
    · intro x y hxy
      rw [i2 x y hxy, h1, h2 x y hxy, add_assoc, List.map_cons, List.sum_cons]
      congr 1
      split_ifs <;> simp
    · intro x
      rw [i3, h3, List.map_cons, List.sum_cons, add_assoc]

theorem noEBlockRows_spec (rows : List (Row sz)) (s : Lhs sz × BVec sz)
    (hs : ∀ r ∈ rows, r.cells.Pairwise fun c d => c.id < d.id) :
    (noEBlockRowsUpdate rows s).1.has = s.1.has ∧
    (∀ x y, x ≤ y → (noEBlockRowsUpdate rows s).1.val x y =
      s.1.val x y + if s.1.has x y then
        (rows.map fun r => (sumAt r.cells x)ᵀ * sumAt r.cells y).sum else 0) ∧
    (∀ x, (noEBlockRowsUpdate rows s).2 x =
      s.2 x + (rows.map fun r => (sumAt r.cells x)ᵀ *ᵥ r.rhs).sum) := by
  unfold noEBlockRowsUpdate
  induction rows generalizing s with
  | nil => simp
  | cons r rows ih =>
    rw [List.foldl_cons]
    obtain ⟨i1, i2, i3⟩ := ih (rowOuterProduct r.cells s.1,
      r.cells.foldl (fun rhs (c : Cell sz r.size) => addVec rhs c.id (c.valᵀ *ᵥ r.rhs)) s.2)
      fun c hc => hs c (by simp [hc])
    refine ⟨by rw [i1, rowOuterProduct_has], ?_, ?_⟩
    · intro x y hxy
      rw [i2 x y hxy, rowOuterProduct_has, rowOuterProduct_val _ (hs r (by simp)) _ hxy,
        add_assoc, List.map_cons, List.sum_cons]
      congr 1
      split_ifs <;> simp
    · intro x
      rw [i3]
      simp only [foldl_addVec, List.map_cons, List.sum_cons, add_assoc]

/-- `D²` as a block diagonal matrix. -/
def dBlock (D : Option (BVec sz)) (x y : ℕ) : Matrix (Fin (sz x)) (Fin (sz y)) ℝ :=
  match D with
  | some D => Matrix.of fun i j => if x = y ∧ (i : ℕ) = j then D x i ^ 2 else 0
  | none => 0

theorem eliminateInit_spec (ne nb : ℕ) (has : ℕ → ℕ → Bool) (D : Option (BVec sz)) :
    (eliminateInit ne nb has D).1.has = has ∧
    (∀ x y, ne ≤ x → x < nb → (eliminateInit ne nb has D).1.val x y =
      if has x y then dBlock D x y else 0) ∧
    (∀ x, (eliminateInit ne nb has D).2 x = 0) := by
  cases D with
  | none => simp [eliminateInit, dBlock]
  | some D =>
    have key : ∀ (l : List ℕ) (L : Lhs sz), l.Nodup →
        (l.foldl (fun L b => addCell L b b (Matrix.diagonal fun i => D b i ^ 2)) L).has = L.has ∧
        ∀ x y, (l.foldl (fun L b => addCell L b b (Matrix.diagonal fun i => D b i ^ 2)) L).val x y =
          L.val x y + if L.has x y ∧ x ∈ l then dBlock (some D) x y else 0 := by
      intro l
      induction l with
      | nil => intro L _; simp
      | cons b l ih =>
        intro L hn
        rw [List.nodup_cons] at hn
        rw [List.foldl_cons]
        have e : (Matrix.diagonal fun i => D b i ^ 2) = dBlock (some D) b b := by
          ext i j
          simp [dBlock, diagonal_apply, Fin.ext_iff]
        obtain ⟨h1, h2⟩ := ih (addCell L b b (Matrix.diagonal fun i => D b i ^ 2)) hn.2
        refine ⟨by rw [h1, addCell_has], fun x y => ?_⟩
        rw [h2, addCell_has, e, addCell_family, add_assoc]
        congr 1
        by_cases hx : b = x
        · subst hx
          by_cases hy : b = y
          · subst hy; simp [hn.1]
          · have : dBlock (some D) b y = 0 := by ext i j; simp [dBlock, hy]
            simp [hy, this]
        · simp [hx, Ne.symm hx]
    obtain ⟨h1, h2⟩ := key (List.range' ne (nb - ne)) ⟨has, fun _ _ => 0⟩ (List.nodup_range' ..)
    refine ⟨h1, fun x y h3 h4 => ?_, fun _ => rfl⟩
    have hm : x ∈ List.range' ne (nb - ne) := by
      rw [List.mem_range'_1]; omega
    have := h2 x y
    simp only [hm, and_true, zero_add] at this
    exact this

/-- The block `(x, y)` of the reduced matrix. -/
def schurLhs (inv : Inverter) (ne : ℕ) (rows : List (Row sz)) (D : Option (BVec sz)) (x y : ℕ) :
    Matrix (Fin (sz x)) (Fin (sz y)) ℝ :=
  dBlock D x y + ((detectChunks ne rows).1.map fun ch => chunkLhs inv D ch x y).sum +
    ((detectChunks ne rows).2.map fun r => (sumAt r.cells x)ᵀ * sumAt r.cells y).sum

/-- The block `x` of the reduced right hand side. -/
def schurRhs (inv : Inverter) (ne : ℕ) (rows : List (Row sz)) (D : Option (BVec sz)) (x : ℕ) : Fin (sz x) → ℝ :=
  ((detectChunks ne rows).1.map fun ch => chunkRhs inv D ch x).sum +
    ((detectChunks ne rows).2.map fun r => (sumAt r.cells x)ᵀ *ᵥ r.rhs).sum

theorem detectChunks_flatten (ne : ℕ) (rows : List (Row sz)) :
    ((detectChunks ne rows).1.map Prod.snd).flatten ++ (detectChunks ne rows).2 = rows := by
  fun_induction detectChunks ne rows with
  | case1 => rfl
  | case2 => rfl
  | case3 => rfl
  | case4 r rs id hf hlt chunk rest ih =>
    simp only [List.map_cons, List.flatten_cons, List.append_assoc, rest, ih]
    rw [List.cons_append, List.takeWhile_append_dropWhile]

/-- Whatever the order in which the chunks are processed, every stored block of the upper
triangle and every block of the right hand side has the specified value. -/
theorem eliminate_spec (inv : Inverter) (ne nb : ℕ) (has : ℕ → ℕ → Bool) (rows : List (Row sz))
    (D : Option (BVec sz)) (order : List (ℕ × List (Row sz)))
    (ho : order.Perm (detectChunks ne rows).1)
    (hs : ∀ r ∈ rows, r.cells.Pairwise fun c d => c.id < d.id) :
    (eliminate inv ne nb has rows D order).1.has = has ∧
    (∀ x y, ne ≤ x → x ≤ y → x < nb → has x y →
      (eliminate inv ne nb has rows D order).1.val x y = schurLhs inv ne rows D x y) ∧
    (∀ x, (eliminate inv ne nb has rows D order).2 x = schurRhs inv ne rows D x) := by
  have hsub1 : ∀ ch ∈ order, ∀ r ∈ ch.2, r ∈ rows := by
    intro ch hch r hr
    rw [← detectChunks_flatten ne rows]
    refine List.mem_append_left _ (List.mem_flatten.2 ⟨ch.2, ?_, hr⟩)
    exact List.mem_map.2 ⟨ch, ho.subset hch, rfl⟩
  have hsub2 : ∀ r ∈ (detectChunks ne rows).2, r ∈ rows := by
    intro r hr
    rw [← detectChunks_flatten ne rows]
    exact List.mem_append_right _ hr
  obtain ⟨a1, a2, a3⟩ := eliminateInit_spec ne nb has D
  obtain ⟨b1, b2, b3⟩ := foldl_chunks inv D order (eliminateInit ne nb has D)
    fun ch hch r hr => hs r (hsub1 ch hch r hr)
  obtain ⟨c1, c2, c3⟩ := noEBlockRows_spec (detectChunks ne rows).2
    (order.foldl (eliminateChunk inv D) (eliminateInit ne nb has D)) fun r hr => hs r (hsub2 r hr)
  refine ⟨?_, ?_, ?_⟩
  · unfold eliminate; rw [c1, b1, a1]
  · intro x y h1 h2 h3 h4
    unfold eliminate
    rw [c2 x y h2, b1, a1, if_pos h4, b2 x y h2, a1, if_pos h4, a2 x y h1 h3, if_pos h4,
      schurLhs, (ho.map fun ch => chunkLhs inv D ch x y).sum_eq]
  · intro x
    unfold eliminate
    rw [c3, b3, a3, zero_add, schurRhs, (ho.map fun ch => chunkRhs inv D ch x).sum_eq]

end Ceres.Schur
