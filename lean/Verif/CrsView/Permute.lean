import Verif.CrsView.Arrays
import Mathlib.Data.Fintype.EquivFin

/-!
# Where the threads store the values
-/
namespace Ceres.CrsView

open Ceres.BlockSparse

/-! ## The binary search -/

theorem bisect_spec (p : ℕ → Option Bool) (first last : ℕ) (hlt : first < last) (h1 : p first = some true)
    (hd : ∀ i, first ≤ i → i < last → p i ≠ none) :
    ∃ m, bisect p first last = some m ∧ first < m ∧ m ≤ last ∧ p (m - 1) = some true ∧
      (m = last ∨ p m = some false) := by
  generalize hn : last - first = n
  induction n using Nat.strong_induction_on generalizing first last with
  | _ n ih =>
    rw [bisect]
    by_cases h : 1 < last - first
    · rw [if_pos h]
      have hmid : first < first + (last - first) / 2 ∧ first + (last - first) / 2 < last := by omega
      cases hp : p (first + (last - first) / 2) with
      | none => exact absurd hp (hd _ (by omega) hmid.2)
      | some b =>
        cases b with
        | true =>
          obtain ⟨m, k1, k2, k3, k4, k5⟩ := ih (last - (first + (last - first) / 2)) (by omega)
            (first + (last - first) / 2) last hmid.2 hp (fun i a b => hd i (by omega) b) rfl
          exact ⟨m, k1, by omega, k3, k4, k5⟩
        | false =>
          obtain ⟨m, k1, k2, k3, k4, k5⟩ := ih (first + (last - first) / 2 - first) (by omega)
            first (first + (last - first) / 2) hmid.1 h1 (fun i a b => hd i a (by omega)) rfl
          refine ⟨m, k1, k2, by omega, k4, .inr ?_⟩
          rcases k5 with rfl | k5
          · exact hp
          · exact k5
    · rw [if_neg h]
      have : last = first + 1 := by omega
      subst this
      exact ⟨first + 1, rfl, by omega, le_rfl, by simpa using h1, .inl rfl⟩

/-! ## Starts of the row blocks -/

/-- The number of values before row block `i`. -/
def valuesBefore (bs : BS) (rows : List BRow) (i : ℕ) : ℕ :=
  ((rows.take i).map fun r => width bs r.cells * r.block.size).sum

theorem valuesBefore_succ (bs : BS) {rows : List BRow} {i : ℕ} {r : BRow} (h : rows[i]? = some r) :
    valuesBefore bs rows (i + 1) = valuesBefore bs rows i + width bs r.cells * r.block.size := by
  unfold valuesBefore
  rw [List.take_succ, h]
  simp

theorem rowsFollow_get (bs : BS) (rows : List BRow) (p : ℕ) (h : RowsFollow bs p rows) {i : ℕ} {r : BRow}
    (hr : rows[i]? = some r) : CellsFollow bs r.block.size (p + valuesBefore bs rows i) r.cells := by
  induction rows generalizing p i with
  | nil => simp at hr
  | cons r0 rs ih =>
    obtain ⟨h1, h2⟩ := h
    cases i with
    | zero =>
      have : r0 = r := by simpa using hr
      subst this
      simpa [valuesBefore] using h1
    | succ i =>
      have := ih _ h2 (by simpa using hr)
      simpa [valuesBefore, width, Nat.add_assoc] using this

theorem flatten_length (bs : BS) (rows : List BRow) :
    (rowLists false bs rows).flatten.length = valuesBefore bs rows rows.length := by
  unfold valuesBefore
  rw [List.take_length]
  induction rows with
  | nil => rfl
  | cons r rs ih =>
    have hRL : rowLists false bs (r :: rs) =
        ((List.range r.block.size).map fun i => rowList false bs r.block.size i r.cells) ++
          rowLists false bs rs := rfl
    rw [hRL, List.flatten_append, List.length_append, ih, List.map_cons, List.sum_cons]
    congr 1
    rw [← List.flatMap_def, List.length_flatMap]
    simp [rowList_length, Nat.mul_comm]

/-! ## The scan of the cells -/

theorem permuteCells_spec (bs : BS) (rows : ℕ → ℕ) (b : Block) (id : ℕ) (cells : List Cell) (p before : ℕ)
    (hf : CellsFollow bs b.size p cells) (h1 : p ≤ id) (h2 : id < p + width bs cells * b.size) :
    ∃ k t col, k < b.size ∧ (rowList false bs b.size k cells)[t]? = some (col, id) ∧
      (flatOf bs).permuteCells rows b id cells before = some (rows (k + b.position) + before + t) := by
  induction cells generalizing p before with
  | nil => simp [width] at h2; omega
  | cons c cells ih =>
    obtain ⟨e1, e2⟩ := hf
    have hcol : (flatOf bs).col c.blockId = bs.col c.blockId := rfl
    have hw : width bs (c :: cells) = (bs.col c.blockId).size + width bs cells := by simp [width]
    have hlist : ∀ k, rowList false bs b.size k (c :: cells) =
        ((List.range (bs.col c.blockId).size).map fun j => ((bs.col c.blockId).position + j,
          c.position + slotIn false b.size (bs.col c.blockId).size k j)) ++ rowList false bs b.size k cells :=
      fun _ => rfl
    rw [Flat.permuteCells]
    simp only [hcol]
    rw [hw, Nat.add_mul] at h2
    generalize hW : (bs.col c.blockId).size = w at *
    have hcomm : b.size * w = w * b.size := Nat.mul_comm _ _
    by_cases h : id < c.position + b.size * w
    · rw [if_pos h]
      have hwpos : 0 < w := by
        rcases Nat.eq_zero_or_pos w with rfl | h'
        · omega
        · exact h'
      have hmod := Nat.mod_lt (id - c.position) hwpos
      have hk : (id - c.position) / w < b.size := by
        rw [Nat.div_lt_iff_lt_mul hwpos]
        omega
      refine ⟨(id - c.position) / w, (id - c.position) % w,
        (bs.col c.blockId).position + (id - c.position) % w, hk, ?_, rfl⟩
      rw [hlist, List.getElem?_append_left (by simpa using hmod), List.getElem?_map, List.getElem?_range hmod]
      have hdm := Nat.div_add_mod (id - c.position) w
      rw [Nat.mul_comm] at hdm
      simp only [slotIn, Option.map_some, Option.some.injEq, Prod.mk.injEq, true_and]
      show c.position + ((id - c.position) / w * w + (id - c.position) % w) = id
      omega
    · rw [if_neg h]
      obtain ⟨k, t, col, m1, m2, m3⟩ := ih (p + w * b.size) (before + w) e2 (by omega) (by omega)
      refine ⟨k, w + t, col, m1, ?_, ?_⟩
      · rw [hlist, List.getElem?_append_right (by simp)]
        simpa using m2
      · rw [m3]
        congr 1
        omega

/-! ## A thread -/

theorem valuesBefore_mono (bs : BS) (rows : List BRow) {i j : ℕ} (h : i ≤ j) :
    valuesBefore bs rows i ≤ valuesBefore bs rows j := by
  obtain ⟨d, rfl⟩ := Nat.exists_eq_add_of_le h
  induction d with
  | zero => rfl
  | succ d ih =>
    refine (ih (by omega)).trans ?_
    cases hr : rows[i + d]? with
    | some r =>
      rw [← Nat.add_assoc, valuesBefore_succ bs hr]
      omega
    | none =>
      have := List.getElem?_eq_none_iff.1 hr
      unfold valuesBefore
      rw [List.take_of_length_le this, List.take_of_length_le (by omega)]

theorem before_eq {bs : BS} (hf : Full bs) (hi : InOrder bs) (id : ℕ) {i : ℕ} (h : i < bs.rows.length) :
    (flatOf bs).before id i = some (decide (valuesBefore bs bs.rows i ≤ id)) := by
  have hr : bs.rows[i]? = some bs.rows[i] := List.getElem?_eq_getElem h
  obtain ⟨c, cs, hc⟩ := List.exists_cons_of_ne_nil (hf _ (List.getElem_mem h))
  have hpos := rowsFollow_get bs bs.rows 0 hi hr
  rw [hc, Nat.zero_add] at hpos
  unfold Flat.before
  rw [firstCell_get bs (by omega), Option.bind_some, firstCell_cell hr hc, Option.map_some, hpos.1]

/-- **A thread finds the place of its value**: the position of the entry in the matrix by rows. -/
theorem permute_spec {bs : BS} (hf : Full bs) (hi : InOrder bs) (hl : Laid 0 (bs.rows.map BRow.block))
    {rows : ℕ → ℕ} (hrows : ∀ t ≤ (rowLists false bs bs.rows).length,
      rows t = (((rowLists false bs bs.rows).take t).map List.length).sum) {id : ℕ}
    (hid : id < (rowLists false bs bs.rows).flatten.length) :
    ∃ q col, (flatOf bs).permute rows id = some (some q) ∧
      (rowLists false bs bs.rows).flatten[q]? = some (col, id) := by
  rw [flatten_length] at hid
  have hn : 0 < bs.rows.length := by
    rcases Nat.eq_zero_or_pos bs.rows.length with h | h
    · rw [h] at hid
      simp [valuesBefore] at hid
    · exact h
  have h0 : (flatOf bs).before id 0 = some true := by
    rw [before_eq hf hi id hn]
    simp [valuesBefore]
  obtain ⟨m, k1, k2, k3, k4, k5⟩ := bisect_spec ((flatOf bs).before id) 0 bs.rows.length hn h0
    (fun i _ h => by rw [before_eq hf hi id h]; simp)
  obtain ⟨m, rfl⟩ : ∃ m', m = m' + 1 := ⟨m - 1, by omega⟩
  rw [Nat.add_sub_cancel] at k4
  have hr : bs.rows[m]? = some bs.rows[m] := List.getElem?_eq_getElem (by omega)
  have hge : valuesBefore bs bs.rows m ≤ id := by
    rw [before_eq hf hi id (by omega)] at k4
    simpa using k4
  have hlt : id < valuesBefore bs bs.rows (m + 1) := by
    by_cases hm : m + 1 < bs.rows.length
    · rcases k5 with k5 | k5
      · omega
      · rw [before_eq hf hi id hm] at k5
        simpa using k5
    · have : m + 1 = bs.rows.length := by omega
      rw [this]
      exact hid
  rw [valuesBefore_succ bs hr] at hlt
  have hfol := rowsFollow_get bs bs.rows 0 hi hr
  rw [Nat.zero_add] at hfol
  obtain ⟨k, t, col, a1, a2, a3⟩ := permuteCells_spec bs rows bs.rows[m].block id bs.rows[m].cells _ 0 hfol hge hlt
  have hat := list_at hl hr a1
  have hlen := (List.getElem?_eq_some_iff.1 hat).1
  refine ⟨rows (k + bs.rows[m].block.position) + t, col, ?_, ?_⟩
  · unfold Flat.permute partitionPoint
    rw [h0]
    show (bisect _ 0 bs.rows.length).bind _ = _
    rw [k1, Option.bind_some]
    show (if 1 ≤ m + 1 ∧ m + 1 ≤ bs.rows.length then _ else _) = _
    rw [if_pos ⟨by omega, k3⟩, Nat.add_sub_cancel, row_eq hr, cellsOf_eq hr, a3]
    simp
  · rw [Nat.add_comm k, hrows _ (by omega)]
    have hget : (rowLists false bs bs.rows).getD (bs.rows[m].block.position + k) [] =
        rowList false bs bs.rows[m].block.size k bs.rows[m].cells := by
      rw [List.getD_eq_getElem?_getD, hat]
      rfl
    rw [flatten_get _ _ _ hlen (by rw [hget]; exact (List.getElem?_eq_some_iff.1 a2).1), hget, a2]

/-- Every place is that of one value. -/
theorem permute_onto {bs : BS} (hf : Full bs) (hi : InOrder bs) (hl : Laid 0 (bs.rows.map BRow.block))
    {rows : ℕ → ℕ} (hrows : ∀ t ≤ (rowLists false bs bs.rows).length,
      rows t = (((rowLists false bs bs.rows).take t).map List.length).sum) {q : ℕ}
    (hq : q < (rowLists false bs bs.rows).flatten.length) :
    ∃ id col, id < (rowLists false bs bs.rows).flatten.length ∧ (flatOf bs).permute rows id = some (some q) ∧
      (rowLists false bs bs.rows).flatten[q]? = some (col, id) := by
  generalize hN : (rowLists false bs bs.rows).flatten.length = N at hq
  have hex : ∀ id : Fin N, ∃ q : Fin N, (flatOf bs).permute rows id.1 = some (some q.1) ∧
      ∃ col, (rowLists false bs bs.rows).flatten[q.1]? = some (col, id.1) := by
    intro id
    obtain ⟨q, col, h1, h2⟩ := permute_spec hf hi hl hrows (by rw [hN]; exact id.2)
    exact ⟨⟨q, by rw [← hN]; exact (List.getElem?_eq_some_iff.1 h2).1⟩, h1, col, h2⟩
  choose g hg1 hg2 using hex
  have hinj : Function.Injective g := by
    intro a b hab
    obtain ⟨ca, ha⟩ := hg2 a
    obtain ⟨cb, hb⟩ := hg2 b
    rw [hab, hb] at ha
    injection ha with ha
    injection ha with _ ha
    exact Fin.ext ha.symm
  obtain ⟨id, hid⟩ := (Finite.injective_iff_surjective.1 hinj) ⟨q, hq⟩
  obtain ⟨col, hcol⟩ := hg2 id
  have := hg1 id
  rw [hid] at hcol this
  exact ⟨id, col, id.2, this, hcol⟩

/-! ## Matrices whose values are in the order of the rows -/

theorem one_row (bs : BS) (cells : List Cell) (p : ℕ) (h : CellsFollow bs 1 p cells) :
    (rowList false bs 1 0 cells).map Prod.snd = List.range' p (width bs cells) := by
  induction cells generalizing p with
  | nil => rfl
  | cons c cells ih =>
    obtain ⟨h1, h2⟩ := h
    have hw : width bs (c :: cells) = (bs.col c.blockId).size + width bs cells := by simp [width]
    have hlist : rowList false bs 1 0 (c :: cells) =
        ((List.range (bs.col c.blockId).size).map fun j => ((bs.col c.blockId).position + j,
          c.position + slotIn false 1 (bs.col c.blockId).size 0 j)) ++ rowList false bs 1 0 cells := rfl
    rw [Nat.mul_one] at h2
    rw [hlist, List.map_append, ih _ h2, hw, ← List.range'_append_1, List.map_map, h1]
    congr 1
    rw [List.range'_eq_map_range]
    refine List.map_congr_left fun j _ => ?_
    simp [slotIn]

theorem one_cell (p w size : ℕ) :
    ((List.range size).flatMap fun i => (List.range w).map fun j => p + (i * w + j)) =
      List.range' p (w * size) := by
  induction size with
  | zero => rfl
  | succ size ih =>
    rw [List.range_succ, List.flatMap_append, ih, Nat.mul_succ, ← List.range'_append_1]
    congr 1
    rw [List.range'_eq_map_range]
    simp only [List.flatMap_cons, List.flatMap_nil, List.append_nil]
    refine List.map_congr_left fun j _ => ?_
    rw [Nat.mul_comm w]
    omega

theorem fits_row (bs : BS) (r : BRow) (hr : fits r = true) (p : ℕ) (h : CellsFollow bs r.block.size p r.cells) :
    ((List.range r.block.size).flatMap fun i => rowList false bs r.block.size i r.cells).map Prod.snd =
      List.range' p (width bs r.cells * r.block.size) := by
  unfold fits at hr
  have hor : r.block.size = 0 ∨ r.block.size = 1 ∨ r.cells = [] ∨ ∃ c, r.cells = [c] := by
    by_cases h1 : r.block.size ≤ 1
    · omega
    · have hlen : r.cells.length ≤ 1 := by
        simp at hr
        by_contra hc
        omega
      cases hcs : r.cells with
      | nil => exact .inr (.inr (.inl rfl))
      | cons c cs =>
        rw [hcs] at hlen
        cases cs with
        | nil => exact .inr (.inr (.inr ⟨c, rfl⟩))
        | cons c' cs => simp at hlen
  rcases hor with h0 | h1 | hn | ⟨c, hc⟩
  · rw [h0]; rfl
  · rw [h1] at h ⊢
    rw [Nat.mul_one, ← one_row bs r.cells p h]
    simp
  · rw [hn]
    simp [rowList, width]
  · rw [hc] at h ⊢
    have hw : width bs [c] = (bs.col c.blockId).size := by simp [width]
    rw [hw, ← one_cell, List.map_flatMap]
    refine List.flatMap_congr fun i _ => ?_
    rw [← h.1]
    simp [rowList, slotIn]

theorem fits_rows (bs : BS) (rows : List BRow) (hr : rows.all fits = true) (p : ℕ) (h : RowsFollow bs p rows) :
    (rowLists false bs rows).flatten.map Prod.snd = List.range' p (valuesBefore bs rows rows.length) := by
  unfold valuesBefore
  rw [List.take_length]
  induction rows generalizing p with
  | nil => rfl
  | cons r rs ih =>
    rw [List.all_cons, Bool.and_eq_true] at hr
    obtain ⟨h1, h2⟩ := h
    have hRL : rowLists false bs (r :: rs) =
        ((List.range r.block.size).map fun i => rowList false bs r.block.size i r.cells) ++
          rowLists false bs rs := rfl
    rw [hRL, List.flatten_append, List.map_append, ← List.flatMap_def, fits_row bs r hr.1 p h1, ih hr.2 _ h2,
      List.map_cons, List.sum_cons, ← List.range'_append_1]
    rfl

end Ceres.CrsView
