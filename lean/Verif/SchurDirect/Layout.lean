import Verif.SchurDirect.Flat
import Verif.Direct.Sparse

/-!
# Addresses
-/

noncomputable section

namespace Ceres.SchurDirect

open Matrix Ceres.BlockSparse Ceres.InnerProduct Ceres.Direct Ceres.Schur

variable {bs : BS} {ne : ℕ}

theorem laid_pos {p : ℕ} {l : List Block} (h : Laid p l) {k : ℕ} {b : Block} (hb : l[k]? = some b) :
    b.position = p + ((l.take k).map Block.size).sum := by
  induction l generalizing p k with
  | nil => simp at hb
  | cons a l ih =>
    cases k with
    | zero =>
      simp only [List.getElem?_cons_zero, Option.some.injEq] at hb
      subst hb
      simpa using h.1
    | succ k =>
      rw [List.getElem?_cons_succ] at hb
      rw [ih h.2 hb, List.take_succ_cons, List.map_cons, List.sum_cons]
      omega

theorem tailFrom_laid (p : ℕ) (l : List Block) : Laid p (tailFrom p l) := by
  induction l generalizing p with
  | nil => trivial
  | cons b l ih => exact ⟨rfl, ih _⟩

theorem tailFrom_sizes (p : ℕ) (l : List Block) : (tailFrom p l).map Block.size = l.map Block.size := by
  induction l generalizing p with
  | nil => rfl
  | cons b l ih => simp [tailFrom, ih]

theorem tailFrom_length (p : ℕ) (l : List Block) : (tailFrom p l).length = l.length := by
  have := congrArg List.length (tailFrom_sizes p l)
  simpa using this

/-- The number of columns of the f blocks. -/
def fCols (bs : BS) (ne : ℕ) : ℕ := ((bs.cols.drop ne).map Block.size).sum

/-- The number of columns of the e blocks. -/
def eCols (bs : BS) (ne : ℕ) : ℕ := ((bs.cols.take ne).map Block.size).sum

theorem cols_split (bs : BS) (ne : ℕ) : (bs.cols.map Block.size).sum = eCols bs ne + fCols bs ne := by
  unfold eCols fCols
  rw [← List.sum_append, ← List.map_append, List.take_append_drop]

theorem tail_laid (bs : BS) (ne : ℕ) : Laid 0 (tail bs.cols ne) := tailFrom_laid _ _

theorem tail_sum (bs : BS) (ne : ℕ) : ((tail bs.cols ne).map Block.size).sum = fCols bs ne := by
  unfold tail
  rw [tailFrom_sizes]
  rfl

theorem tail_length (bs : BS) (ne : ℕ) : (tail bs.cols ne).length = bs.cols.length - ne := by
  unfold tail
  rw [tailFrom_length, List.length_drop]

theorem numScalarEntries_eq {p : ℕ} {l : List Block} (h : Laid p l) (hl : l ≠ []) :
    numScalarEntries l = p + (l.map Block.size).sum := by
  induction l generalizing p with
  | nil => exact absurd rfl hl
  | cons a l ih =>
    unfold numScalarEntries at ih ⊢
    cases l with
    | nil =>
      have := h.1
      simp only [List.getLast?_singleton, List.map_cons, List.map_nil, List.sum_cons, List.sum_nil]
      omega
    | cons b l =>
      rw [List.getLast?_cons_cons, ih h.2 (by simp)]
      simp only [List.map_cons, List.sum_cons]
      omega

theorem numScalarEntries_tail (bs : BS) (ne : ℕ) : numScalarEntries (tail bs.cols ne) = fCols bs ne := by
  rw [← tail_sum]
  by_cases h : tail bs.cols ne = []
  · rw [h]; rfl
  · rw [numScalarEntries_eq (tail_laid bs ne) h, Nat.zero_add]

/-- The position of a block in the reduced system. -/
def fPos (bs : BS) (ne b : ℕ) : ℕ := (blockAt (tail bs.cols ne) (b - ne)).position

theorem tail_get {b : ℕ} (h1 : ne ≤ b) (h2 : b < bs.cols.length) :
    (tail bs.cols ne)[b - ne]? = some ⟨szOf bs b, fPos bs ne b⟩ := by
  have hlt : b - ne < (tail bs.cols ne).length := by rw [tail_length]; omega
  have e : (tail bs.cols ne)[b - ne]? = some (blockAt (tail bs.cols ne) (b - ne)) := by
    unfold blockAt
    rw [List.getD_eq_getElem?_getD, List.getElem?_eq_getElem hlt]
    rfl
  rw [e]
  congr 1
  have hs : (blockAt (tail bs.cols ne) (b - ne)).size = szOf bs b := by
    have h3 : ((tail bs.cols ne).map Block.size)[b - ne]? = some (blockAt (tail bs.cols ne) (b - ne)).size := by
      rw [List.getElem?_map, e]; rfl
    unfold tail at h3
    rw [tailFrom_sizes, List.getElem?_map, List.getElem?_drop, Nat.add_sub_cancel' h1, col_getElem h2] at h3
    simpa [szOf, tail] using h3.symm
  rw [← hs]
  rfl

theorem blockAt_tail {b : ℕ} (h1 : ne ≤ b) : (blockAt (tail bs.cols ne) (b - ne)).size = szOf bs b := by
  by_cases h2 : b < bs.cols.length
  · unfold blockAt
    rw [List.getD_eq_getElem?_getD, tail_get h1 h2]
    rfl
  · unfold blockAt
    rw [List.getD_eq_getElem?_getD, List.getElem?_eq_none (by rw [tail_length]; omega), szOf_out h2]
    rfl

/-- The reduced system has the order of the columns. -/
theorem fPos_eq (hc : Laid 0 bs.cols) {b : ℕ} (h1 : ne ≤ b) (h2 : b < bs.cols.length) :
    (bs.col b).position = eCols bs ne + fPos bs ne b := by
  have e1 : (bs.cols.drop ne)[b - ne]? = some (bs.col b) := by
    rw [List.getElem?_drop, Nat.add_sub_cancel' h1, col_getElem h2]
  have p1 := laid_pos (laid_drop (n := ne) hc) e1
  have p2 := laid_pos (tail_laid bs ne) (tail_get h1 h2)
  rw [Nat.zero_add] at p1 p2
  have e : ((tail bs.cols ne).take (b - ne)).map Block.size = ((bs.cols.drop ne).take (b - ne)).map Block.size := by
    rw [List.map_take, List.map_take]
    unfold tail
    rw [tailFrom_sizes]
  rw [e] at p2
  rw [p1]
  unfold eCols
  simp only at p2
  omega

theorem fPos_bound {b : ℕ} (h1 : ne ≤ b) (h2 : b < bs.cols.length) :
    fPos bs ne b + szOf bs b ≤ fCols bs ne := by
  have := (laid_bounds (tail_laid bs ne) (List.mem_of_getElem? (tail_get h1 h2))).2
  rw [tail_sum] at this
  simpa using this

/-- Every scalar index of the reduced system is in a block. -/
theorem f_split {p : ℕ} (hp : p < fCols bs ne) :
    ∃ b, ne ≤ b ∧ b < bs.cols.length ∧ ∃ i < szOf bs b, p = fPos bs ne b + i ∧
      blockOf (tail bs.cols ne) p = b - ne := by
  have hlt := blockOf_total (tail_laid bs ne) (Nat.zero_le p) (by rw [tail_sum]; omega)
  have hlen := tail_length bs ne
  set k := blockOf (tail bs.cols ne) p with hk
  have h1 : ne ≤ ne + k := Nat.le_add_right _ _
  have h2 : ne + k < bs.cols.length := by omega
  have hg := tail_get (bs := bs) h1 h2
  have hin : fPos bs ne (ne + k) ≤ p ∧ p < fPos bs ne (ne + k) + szOf bs (ne + k) := by
    have h3 := List.findIdx_getElem (xs := tail bs.cols ne) (w := hlt)
    rw [Nat.add_sub_cancel_left] at hg
    have h4 : (tail bs.cols ne)[k]'hlt = ⟨szOf bs (ne + k), fPos bs ne (ne + k)⟩ := by
      rw [List.getElem?_eq_getElem hlt] at hg
      exact Option.some.inj hg
    have h6 := (congrArg (fun b : Block => decide (b.position ≤ p ∧ p < b.position + b.size)) h4).symm.trans h3
    simpa using h6
  exact ⟨ne + k, h1, h2, p - fPos bs ne (ne + k), by omega, by omega, by omega⟩

theorem f_block_le {x y i j : ℕ} (hx : ne ≤ x) (hx' : x < bs.cols.length) (hy : ne ≤ y) (hy' : y < bs.cols.length)
    (hi : i < szOf bs x) (hj : j < szOf bs y) (h : fPos bs ne x + i ≤ fPos bs ne y + j) : x ≤ y := by
  have h1 := blockOf_eq (tail_laid bs ne) (tail_get hx hx') (r := fPos bs ne x + i) (by simp) (by simpa using hi)
  have h2 := blockOf_eq (tail_laid bs ne) (tail_get hy hy') (r := fPos bs ne y + j) (by simp) (by simpa using hj)
  have := blockOf_mono (tail_laid bs ne) (Nat.zero_le _) h
  omega

theorem f_inj {x y i j : ℕ} (hx : ne ≤ x) (hx' : x < bs.cols.length) (hy : ne ≤ y) (hy' : y < bs.cols.length)
    (hi : i < szOf bs x) (hj : j < szOf bs y) (h : fPos bs ne x + i = fPos bs ne y + j) : x = y ∧ i = j := by
  have h1 := f_block_le hx hx' hy hy' hi hj h.le
  have h2 := f_block_le hy hy' hx hx' hj hi h.ge
  obtain rfl : x = y := le_antisymm h1 h2
  exact ⟨rfl, by omega⟩

/-- Sums over the reduced system. -/
theorem f_sum (bs : BS) (ne : ℕ) (F : ℕ → ℝ) :
    ∑ b ∈ Finset.Ico ne bs.cols.length, ∑ i : Fin (szOf bs b), F (fPos bs ne b + i) =
      ∑ p ∈ Finset.range (fCols bs ne), F p := by
  have := blocks_sum_from (tail_laid bs ne) F
  rw [Nat.zero_add, tail_sum, ← Finset.range_eq_Ico] at this
  rw [← this, ← range_map_col ⟨tail bs.cols ne, []⟩ fun b => ∑ i : Fin b.size, F (b.position + i), ← rangeSum_list]
  rw [show (⟨tail bs.cols ne, []⟩ : BS).cols.length = bs.cols.length - ne from tail_length bs ne,
    Finset.sum_Ico_eq_sum_range]
  refine Finset.sum_congr rfl fun k hk => ?_
  rw [Finset.mem_range] at hk
  have hg := tail_get (bs := bs) (Nat.le_add_right ne k) (by omega)
  rw [Nat.add_sub_cancel_left] at hg
  have e : (⟨tail bs.cols ne, []⟩ : BS).col k = ⟨szOf bs (ne + k), fPos bs ne (ne + k)⟩ := by
    unfold BS.col
    rw [List.getD_eq_getElem?_getD, hg]
    rfl
  rw [e]

/-- The solution is where the columns are. -/
theorem xAddress_eq (hc : Laid 0 bs.cols) {S : Storage} (hS : S.blocks = tail bs.cols ne) (hn : S.cols = fCols bs ne)
    {b : ℕ} (hb : b < bs.cols.length) (i : ℕ) :
    S.xAddress bs ne (bs.cols.map Block.size).sum b i = (bs.col b).position + i := by
  unfold Storage.xAddress
  split_ifs with h
  · rfl
  · rw [fPos_eq hc (Nat.le_of_not_lt h) hb, hS, hn, cols_split bs ne]
    unfold fPos
    omega

/-- The system by blocks is the system. -/
theorem eqs_blocks {H : Buf} {B : (x y : ℕ) → Matrix (Fin (szOf bs x)) (Fin (szOf bs y)) ℝ}
    (hB : ∀ x y, ne ≤ x → x < bs.cols.length → ne ≤ y → y < bs.cols.length → ∀ (i : Fin (szOf bs x)) (j : Fin (szOf bs y)),
      H (fPos bs ne x + i) (fPos bs ne y + j) = B x y i j) (z r : Vec) (h : Eqs (fCols bs ne) H z r)
    {x : ℕ} (hx : ne ≤ x) (hx' : x < bs.cols.length) :
    ∑ y ∈ Finset.Ico ne bs.cols.length, B x y *ᵥ (fun j : Fin (szOf bs y) => z (fPos bs ne y + j)) =
      fun i : Fin (szOf bs x) => r (fPos bs ne x + i) := by
  funext i
  rw [Finset.sum_apply, ← h (fPos bs ne x + i) (by have := fPos_bound hx hx'; have := i.2; omega),
    ← f_sum bs ne fun q => H (fPos bs ne x + i) q * z q]
  refine Finset.sum_congr rfl fun y hy => ?_
  rw [Finset.mem_Ico] at hy
  simp only [mulVec, dotProduct]
  exact Finset.sum_congr rfl fun j _ => by rw [hB x y hx hx' hy.1 hy.2]

theorem posDef_blocks {H : Buf} {B : (x y : ℕ) → Matrix (Fin (szOf bs x)) (Fin (szOf bs y)) ℝ}
    (hB : ∀ x y, ne ≤ x → x < bs.cols.length → ne ≤ y → y < bs.cols.length → ∀ (i : Fin (szOf bs x)) (j : Fin (szOf bs y)),
      H (fPos bs ne x + i) (fPos bs ne y + j) = B x y i j)
    (h : ∀ z : BVec (szOf bs), (∃ b, ne ≤ b ∧ b < bs.cols.length ∧ z b ≠ 0) →
      0 < ∑ x ∈ Finset.Ico ne bs.cols.length, z x ⬝ᵥ ∑ y ∈ Finset.Ico ne bs.cols.length, B x y *ᵥ z y) :
    PosDef (fCols bs ne) H := by
  rintro x ⟨p, hp, hx⟩
  obtain ⟨b, h1, h2, i, hi, rfl, -⟩ := f_split hp
  have := h (fun b i => x (fPos bs ne b + i)) ⟨b, h1, h2, fun h0 => hx (congrFun h0 ⟨i, hi⟩)⟩
  refine lt_of_lt_of_eq this ?_
  rw [← f_sum bs ne fun p => ∑ q ∈ Finset.range (fCols bs ne), x p * H p q * x q]
  refine Finset.sum_congr rfl fun b hb => ?_
  rw [Finset.mem_Ico] at hb
  simp only [dotProduct]
  refine Finset.sum_congr rfl fun i _ => ?_
  rw [Finset.sum_apply, Finset.mul_sum, ← f_sum bs ne fun q => x (fPos bs ne b + i) * H (fPos bs ne b + i) q * x q]
  refine Finset.sum_congr rfl fun y hy => ?_
  rw [Finset.mem_Ico] at hy
  simp only [mulVec, dotProduct, Finset.mul_sum]
  exact Finset.sum_congr rfl fun j _ => by rw [hB b y hb.1 hb.2 hy.1 hy.2, mul_assoc]

end Ceres.SchurDirect
