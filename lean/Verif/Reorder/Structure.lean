import Verif.Reorder.Model
import Verif.Evaluator.BlockLayout
import Verif.BlockSparse.Delete
import Verif.InnerProduct.Algebra

/-!
# C91: the Jacobian of a program in block sparse form
-/
namespace Ceres.Reorder

open Ceres.BlockSparse Ceres.InnerProduct

theorem laidFrom_length (c : ℕ) (l : List ℕ) : (laidFrom c l).length = l.length := by
  induction l generalizing c with
  | nil => rfl
  | cons s l ih => simp [laidFrom, ih]

theorem laidFrom_laid (c : ℕ) (l : List ℕ) : Laid c (laidFrom c l) := by
  induction l generalizing c with
  | nil => trivial
  | cons s l ih => exact ⟨rfl, ih _⟩

theorem laidFrom_get (c : ℕ) (l : List ℕ) (i : ℕ) :
    (laidFrom c l)[i]? = l[i]?.map fun s => ⟨s, c + (l.take i).sum⟩ := by
  induction l generalizing c i with
  | nil => rfl
  | cons s l ih =>
    cases i with
    | zero => simp [laidFrom]
    | succ i =>
      simp only [laidFrom, List.getElem?_cons_succ, ih, List.take_succ_cons, List.sum_cons, Nat.add_assoc]

theorem laidFrom_sizes (c : ℕ) (l : List ℕ) : (laidFrom c l).map Block.size = l := by
  induction l generalizing c with
  | nil => rfl
  | cons s l ih => simp [laidFrom, ih]

variable (P : Evaluator.Prog) (ne : ℕ)

/-- The row block of residual block `i`. -/
def rowOf (i : ℕ) (rb : Evaluator.RB) : BRow :=
  ⟨⟨rb.numResiduals, P.rowOffset i⟩,
    (Evaluator.rowCells rb (Evaluator.layoutOf P ne i)).map fun c => ⟨c.1, c.2⟩, 0, 0⟩

theorem structureOf_rows : (structureOf P ne).rows = P.residuals.zipIdx.map fun q => rowOf P ne q.2 q.1 := by
  unfold structureOf
  refine List.ext_getElem? fun i => ?_
  simp only [List.getElem?_map, List.getElem?_zip_eq_some, List.getElem?_zipIdx]
  by_cases hi : i < P.residuals.length
  · have h1 : P.residuals.zipIdx[i]? = some (P.residuals[i], i) := by simp [hi]
    have h2 : (laidFrom 0 (P.residuals.map Evaluator.RB.numResiduals))[i]? =
        some ⟨(P.residuals[i]).numResiduals, P.rowOffset i⟩ := by
      rw [laidFrom_get]
      simp [hi, Evaluator.Prog.rowOffset]
    have h3 : (P.residuals.zipIdx.zip (laidFrom 0 (P.residuals.map Evaluator.RB.numResiduals)))[i]? =
        some ((P.residuals[i], i), ⟨(P.residuals[i]).numResiduals, P.rowOffset i⟩) :=
      List.getElem?_zip_eq_some.2 ⟨h1, h2⟩
    rw [h3]
    simp [hi, rowOf, Evaluator.layoutOf]
  · have h3 : (P.residuals.zipIdx.zip (laidFrom 0 (P.residuals.map Evaluator.RB.numResiduals)))[i]? = none := by
      rw [List.getElem?_eq_none]
      simp [laidFrom_length]; omega
    rw [h3]
    simp only [Option.map_none]
    rw [List.getElem?_eq_none (by omega)]
    rfl

theorem structureOf_col {i : ℕ} (hi : i < P.sizes.length) : (structureOf P ne).col i = ⟨P.size i, P.offset i⟩ := by
  unfold BS.col structureOf Evaluator.Prog.size Evaluator.Prog.offset
  simp only [List.getD_eq_getElem?_getD, laidFrom_get, List.getElem?_eq_getElem hi, Option.map_some, Option.getD_some,
    Nat.zero_add]

theorem structureOf_cols_length : (structureOf P ne).cols.length = P.sizes.length := laidFrom_length _ _

theorem mem_rowCells {rb : Evaluator.RB} {L : ℕ → ℕ} {c : ℕ × ℕ} :
    c ∈ Evaluator.rowCells rb L ↔ ∃ j k, ((c.1, j), k) ∈ (Evaluator.activeArgs rb).zipIdx ∧ c.2 = L k := by
  unfold Evaluator.rowCells
  rw [List.mem_mergeSort, List.mem_map]
  constructor
  · rintro ⟨⟨⟨a, j⟩, k⟩, h, rfl⟩; exact ⟨j, k, h, rfl⟩
  · rintro ⟨j, k, h, h'⟩; exact ⟨((c.1, j), k), h, by rw [← h']⟩

/-- The columns of the cells of a row. -/
theorem rowCells_ids (rb : Evaluator.RB) (L : ℕ → ℕ) :
    ((Evaluator.rowCells rb L).map Prod.fst).Perm ((Evaluator.activeArgs rb).map Prod.fst) := by
  refine ((List.mergeSort_perm _ _).map Prod.fst).trans ?_
  rw [List.map_map]
  have : (Prod.fst ∘ fun p : (ℕ × ℕ) × ℕ => (p.1.1, L p.2)) = Prod.fst ∘ Prod.fst := rfl
  rw [this, ← List.map_map, List.zipIdx_map_fst]

theorem rowCells_sorted {rb : Evaluator.RB} (L : ℕ → ℕ) (h : ((Evaluator.activeArgs rb).map Prod.fst).Nodup) :
    ((Evaluator.rowCells rb L).map Prod.fst).Pairwise (· < ·) := by
  have hs : ((Evaluator.rowCells rb L).map Prod.fst).Pairwise (· ≤ ·) := by
    rw [List.pairwise_map]
    have := List.pairwise_mergeSort (le := fun a b : ℕ × ℕ => decide (a.1 ≤ b.1))
      (fun a b c hab hbc => by simp only [decide_eq_true_eq] at *; omega)
      (fun a b => by simp only [Bool.or_eq_true, decide_eq_true_eq]; omega)
      ((Evaluator.activeArgs rb).zipIdx.map fun p => (p.1.1, L p.2))
    exact this.imp fun h => by simpa using h
  have hn : ((Evaluator.rowCells rb L).map Prod.fst).Nodup := (rowCells_ids rb L).nodup_iff.2 h
  exact (hs.and hn).imp fun h => lt_of_le_of_ne h.1 h.2

variable {P}

theorem structureOf_ids (hP : P.Ok) : ∀ row ∈ (structureOf P ne).rows, ∀ cell ∈ row.cells,
    cell.blockId < (structureOf P ne).cols.length := by
  intro row hrow cell hcell
  rw [structureOf_rows] at hrow
  obtain ⟨q, hq, rfl⟩ := List.mem_map.1 hrow
  obtain ⟨c, hc, rfl⟩ := List.mem_map.1 hcell
  rw [structureOf_cols_length]
  have hmem : q.1 ∈ P.residuals := by
    obtain ⟨_, _, h⟩ := List.mem_zipIdx hq
    rw [h]; exact List.getElem_mem _
  have : c.1 ∈ (Evaluator.activeArgs q.1).map Prod.fst := (rowCells_ids q.1 _).mem_iff.1 (List.mem_map_of_mem hc)
  obtain ⟨a, ha, h⟩ := List.mem_map.1 this
  have := (hP q.1 hmem).2 a ha
  rw [h] at this
  exact this

theorem structureOf_sorted (hP : P.Ok) : CellsSorted (structureOf P ne) := by
  intro row hrow
  rw [structureOf_rows] at hrow
  obtain ⟨q, hq, rfl⟩ := List.mem_map.1 hrow
  have hmem : q.1 ∈ P.residuals := by
    obtain ⟨_, _, h⟩ := List.mem_zipIdx hq
    rw [h]; exact List.getElem_mem _
  have := rowCells_sorted (Evaluator.layoutOf P ne q.2) (hP q.1 hmem).1
  unfold rowOf
  rw [List.map_map]
  exact this

theorem structureOf_blocks : (structureOf P ne).rows.map BRow.block =
    laidFrom 0 (P.residuals.map Evaluator.RB.numResiduals) := by
  rw [structureOf_rows, List.map_map]
  refine List.ext_getElem? fun i => ?_
  rw [laidFrom_get]
  simp only [List.getElem?_map, List.getElem?_zipIdx, Nat.zero_add]
  cases P.residuals[i]? <;> simp [rowOf, Evaluator.Prog.rowOffset]

theorem structureOf_slots (hP : P.Ok) : (structureOf P ne).slots.Perm (List.range (structureOf P ne).slots.length) := by
  have h := Evaluator.layout_tiles P ne
  have key : (structureOf P ne).slots.Perm (P.residuals.zipIdx.flatMap fun q => (Evaluator.activeArgs q.1).zipIdx.flatMap
      fun c => List.range' (Evaluator.layoutOf P ne q.2 c.2) (q.1.numResiduals * P.size c.1.1)) := by
    unfold BS.slots
    rw [structureOf_rows, List.flatMap_map]
    refine List.Perm.flatMap_left _ fun q hq => ?_
    have hmem : q.1 ∈ P.residuals := by
      obtain ⟨_, _, h⟩ := List.mem_zipIdx hq
      rw [h]; exact List.getElem_mem _
    unfold rowOf
    simp only [List.flatMap_map]
    unfold Evaluator.rowCells
    refine (List.Perm.flatMap_right _ (List.mergeSort_perm _ _)).trans ?_
    rw [List.flatMap_map]
    refine List.Perm.of_eq (List.flatMap_congr fun c hc => ?_)
    have hc' : c.1 ∈ Evaluator.activeArgs q.1 := by
      obtain ⟨_, _, h⟩ := List.mem_zipIdx hc
      rw [h]; exact List.getElem_mem _
    simp only [structureOf_col P ne ((hP q.1 hmem).2 c.1 hc')]
  have hall := key.trans h
  have hlen : (structureOf P ne).slots.length = Evaluator.baseOf P P.residuals P.residuals.length := by
    simpa using hall.length_eq
  rw [hlen]; exact hall

/-- The block structure of a program is in order. -/
theorem structureOf_ok {K : Type} (hP : P.Ok) (v : ℕ → K) : (BMat.ofStructure (structureOf P ne) v).Ok := by
  refine ofStructure_ok (laidFrom_laid _ _) ?_ (structureOf_ids ne hP) (structureOf_slots ne hP)
  rw [structureOf_blocks]
  exact laidFrom_laid _ _

theorem sum_zipIdx_single {α K : Type} [AddMonoid K] (l : List α) (g : α → K) (f : α × ℕ → K) {i : ℕ}
    (hi : i < l.length) (h1 : f (l[i], i) = g l[i]) (k : ℕ) (h0 : ∀ q ∈ l.zipIdx k, q.2 ≠ k + i → f q = 0)
    (hk : f (l[i], k + i) = g l[i]) : ((l.zipIdx k).map f).sum = g l[i] := by
  clear h1
  induction l generalizing i k with
  | nil => simp at hi
  | cons a l ih =>
    rw [List.zipIdx_cons, List.map_cons, List.sum_cons]
    cases i with
    | zero =>
      have hz : ((l.zipIdx (k + 1)).map f).sum = 0 := by
        refine List.sum_eq_zero fun x hx => ?_
        obtain ⟨q, hq, rfl⟩ := List.mem_map.1 hx
        refine h0 q (by rw [List.zipIdx_cons]; exact List.mem_cons_of_mem _ hq) ?_
        have := (List.mem_zipIdx hq).1
        omega
      rw [hz, add_zero]
      simpa using hk
    | succ i =>
      have h2 := ih (i := i) (by simpa using hi) (k + 1)
        (fun q hq hne => h0 q (by rw [List.zipIdx_cons]; exact List.mem_cons_of_mem _ hq) (by omega))
        (by have : k + 1 + i = k + (i + 1) := by omega
            rw [this]; simpa using hk)
      rw [h2, h0 (a, k) (by rw [List.zipIdx_cons]; exact List.mem_cons_self) (by simp only; omega), zero_add]
      simp

/-- The elements of the matrix in terms of the layout. -/
theorem structureOf_entry {K : Type} [AddMonoid K] (hP : P.Ok) (v : ℕ → K) {i : ℕ} (hi : i < P.residuals.length)
    {r : ℕ} (hr : r < (P.residuals[i]).numResiduals) (C : ℕ) :
    (BMat.ofStructure (structureOf P ne) v).entry (P.rowOffset i + r) C =
      Evaluator.bsmEntry P ne i r P.residuals[i] v C := by
  show (structureOf P ne).entry v _ _ = _
  unfold BS.entry
  rw [structureOf_rows, List.map_map]
  have hmem : ∀ q ∈ P.residuals.zipIdx, ∃ h : q.2 < P.residuals.length, q.1 = P.residuals[q.2] := by
    intro q hq
    obtain ⟨_, h2, h⟩ := List.mem_zipIdx hq
    exact ⟨by omega, by simpa using h⟩
  have hval : ∀ (rb : Evaluator.RB), rb = P.residuals[i] → ((rowOf P ne i rb).cells.map fun cell =>
      cellAt (rowOf P ne i rb).block ((structureOf P ne).col cell.blockId) cell.position v (P.rowOffset i + r) C).sum =
      Evaluator.bsmEntry P ne i r rb v C := by
    rintro rb rfl
    unfold Evaluator.bsmEntry rowOf
    simp only [List.map_map]
    congr 1
    refine List.map_congr_left fun c hc => ?_
    have hc' : c.1 ∈ (Evaluator.activeArgs P.residuals[i]).map Prod.fst :=
      (rowCells_ids _ _).mem_iff.1 (List.mem_map_of_mem hc)
    obtain ⟨a, ha, hac⟩ := List.mem_map.1 hc'
    have hlt := (hP _ (List.getElem_mem hi)).2 a ha
    rw [hac] at hlt
    simp only [Function.comp, cellAt, structureOf_col P ne hlt]
    by_cases hC : P.offset c.1 ≤ C ∧ C < P.offset c.1 + P.size c.1
    · rw [if_pos hC, if_pos ⟨by omega, by omega, hC.1, hC.2⟩]
      congr 1
      have : P.rowOffset i + r - P.rowOffset i = r := by omega
      rw [this, Nat.add_assoc]
    · rw [if_neg hC, if_neg (fun h => hC ⟨h.2.2.1, h.2.2.2⟩)]
  refine (sum_zipIdx_single P.residuals (fun rb => Evaluator.bsmEntry P ne i r rb v C) _ hi
    (hval _ rfl) 0 ?_ ?_)
  · intro q hq hne
    obtain ⟨hq1, hq2⟩ := hmem q hq
    simp only [Function.comp]
    refine List.sum_eq_zero fun x hx => ?_
    obtain ⟨c, hc, rfl⟩ := List.mem_map.1 hx
    unfold cellAt
    rw [if_neg]
    rintro ⟨h1, h2, -⟩
    simp only [rowOf] at h1 h2
    have hr' : P.rowOffset i + r - P.rowOffset q.2 < (P.residuals[q.2]).numResiduals := by
      rw [← hq2]; omega
    have := (Evaluator.row_owner P hi hq1 hr hr' (by omega)).1
    omega
  · rw [Nat.zero_add]
    exact hval _ rfl

end Ceres.Reorder
