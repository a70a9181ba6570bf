import Verif.SchurDirect.Spec
import Verif.Schur.OneF
import Verif.BlockSparse.Products
import Verif.BlockSparse.Delete

/-!
# The problem on flat arrays is the problem block by block
-/

noncomputable section

namespace Ceres.SchurDirect

open Matrix Ceres.BlockSparse Ceres.InnerProduct Ceres.Direct Ceres.Schur

variable {bs : BS}

theorem list_sum_apply {α : Type} {n : ℕ} (l : List α) (f : α → Fin n → ℝ) (i : Fin n) :
    (l.map f).sum i = (l.map fun a => f a i).sum := by
  induction l with
  | nil => rfl
  | cons a l ih => simp [ih]

theorem col_out {b : ℕ} (hb : ¬ b < bs.cols.length) : bs.col b = ⟨0, 0⟩ := by
  unfold BS.col
  rw [List.getD_eq_getElem?_getD, List.getElem?_eq_none (by omega)]
  rfl

theorem szOf_out {b : ℕ} (hb : ¬ b < bs.cols.length) : szOf bs b = 0 := by
  unfold szOf
  rw [col_out hb]

theorem col_bounds (hc : Laid 0 bs.cols) (b : ℕ) :
    (bs.col b).position + (bs.col b).size ≤ (bs.cols.map Block.size).sum := by
  by_cases hb : b < bs.cols.length
  · have h1 := col_getElem hb
    have := (laid_bounds hc (List.mem_of_getElem? h1)).2
    omega
  · rw [col_out hb]
    exact Nat.zero_le _

/-- A row of `A x`. -/
theorem row_apply {M : BMat ℝ} (h : M.Ok) (b x : Vec) {R : BRow} (hR : R ∈ M.bs.rows)
    (k : Fin R.block.size) :
    (rowOf M.bs M.values b R).apply (blocksOf M.bs x) k =
      ∑ j ∈ Finset.range M.numCols, M.entry (R.block.position + k) j * x j := by
  have e : ∀ j, M.entry (R.block.position + k) j =
      (R.cells.map fun c => cellAt R.block (M.bs.col c.blockId) c.position M.values (R.block.position + k) j).sum := by
    intro j
    unfold BMat.entry BS.entry
    refine sum_only BRow.block h.bs.rows hR (r := R.block.position + k) (by omega) (by have := k.2; omega) _ ?_
    intro r hr
    refine Schur.list_sum_zero fun c _ => ?_
    unfold cellAt
    rw [if_neg (fun h => hr ⟨h.1, h.2.1⟩)]
  simp only [e]
  refine Eq.trans (list_sum_apply (n := R.block.size) _ _ k) ?_
  simp only [rowOf, List.map_map]
  have key : ∀ c ∈ R.cells, (((fun c : Schur.Cell (szOf M.bs) R.block.size => (c.val *ᵥ blocksOf M.bs x c.id) k) ∘
      fun c : BlockSparse.Cell => (⟨c.blockId, fun i j => M.values (c.position + i * szOf M.bs c.blockId + j)⟩ :
        Schur.Cell (szOf M.bs) R.block.size)) c) =
      ∑ j ∈ Finset.range M.numCols,
        cellAt R.block (M.bs.col c.blockId) c.position M.values (R.block.position + k) j * x j := by
    intro c _
    have h1 : ∀ j, cellAt R.block (M.bs.col c.blockId) c.position M.values (R.block.position + k) j * x j =
        if (M.bs.col c.blockId).position ≤ j ∧ j < (M.bs.col c.blockId).position + (M.bs.col c.blockId).size then
          M.values (c.position + k * (M.bs.col c.blockId).size + (j - (M.bs.col c.blockId).position)) * x j
        else 0 := by
      intro j
      unfold cellAt
      by_cases hj : (M.bs.col c.blockId).position ≤ j ∧ j < (M.bs.col c.blockId).position + (M.bs.col c.blockId).size
      · rw [if_pos ⟨by omega, by have := k.2; omega, hj⟩, if_pos hj, Nat.add_sub_cancel_left]
      · rw [if_neg (fun h => hj h.2.2), if_neg hj, zero_mul]
    simp only [h1]
    rw [sum_block _ (by rw [h.numCols]; exact col_bounds h.bs.cols _)]
    simp only [Function.comp, mulVec, dotProduct, blocksOf]
    refine Finset.sum_congr rfl fun j _ => ?_
    rw [Nat.add_sub_cancel_left]
    rfl
  rw [List.map_congr_left key]
  have hsw := Schur.sum_list_swap R.cells (Finset.range M.numCols) fun j c =>
    cellAt R.block (M.bs.col c.blockId) c.position M.values (R.block.position + k) j * x j
  rw [← hsw]
  refine Finset.sum_congr rfl fun j _ => ?_
  induction R.cells with
  | nil => simp
  | cons a l ih => simp only [List.map_cons, List.sum_cons, add_mul, ih]

theorem rangeSum_list (n : ℕ) (f : ℕ → ℝ) : ∑ i ∈ Finset.range n, f i = ((List.range n).map f).sum := by
  induction n with
  | zero => rfl
  | succ n ih => rw [Finset.sum_range_succ, List.range_succ, List.map_append, List.sum_append, ih]; simp

theorem finSum_list (n : ℕ) (f : ℕ → ℝ) : ∑ i : Fin n, f i = ((List.range n).map f).sum := by
  rw [Fin.sum_univ_eq_sum_range f n, rangeSum_list]

/-- Sums over the rows. -/
theorem rows_sum {M : BMat ℝ} (h : M.Ok) (F : ℕ → ℝ) :
    (M.bs.rows.map fun R => ∑ k : Fin R.block.size, F (R.block.position + k)).sum =
      ∑ k ∈ Finset.range M.numRows, F k := by
  have := sum_rows h.bs.rows F
  rw [Nat.zero_add, ← h.numRows, ← Finset.range_eq_Ico] at this
  rw [← this]
  congr 1
  refine List.map_congr_left fun R _ => ?_
  exact finSum_list R.block.size fun k => F (R.block.position + k)

theorem blocks_sum_from {p : ℕ} {l : List Block} (hl : Laid p l) (F : ℕ → ℝ) :
    (l.map fun b => ∑ i : Fin b.size, F (b.position + i)).sum =
      ∑ j ∈ Finset.Ico p (p + (l.map Block.size).sum), F j := by
  have := sum_rows (rows := l.map fun b => (⟨b, [], 0, 0⟩ : BRow)) (p := p)
    (by rw [List.map_map]; exact (List.map_id l).symm ▸ hl) F
  rw [List.map_map, List.map_map] at this
  refine Eq.trans ?_ this
  congr 1
  refine List.map_congr_left fun b _ => ?_
  exact finSum_list b.size fun k => F (b.position + k)

theorem range_map_col (bs : BS) {α : Type} (f : Block → α) :
    (List.range bs.cols.length).map (fun b => f (bs.col b)) = bs.cols.map f := by
  refine List.ext_getElem? fun i => ?_
  rw [List.getElem?_map, List.getElem?_map]
  by_cases hi : i < bs.cols.length
  · rw [List.getElem?_range hi, col_getElem hi]; rfl
  · rw [List.getElem?_eq_none (by simpa using hi), List.getElem?_eq_none (by omega)]; rfl

/-- Sums over the columns. -/
theorem cols_sum {M : BMat ℝ} (h : M.Ok) (F : ℕ → ℝ) :
    ∑ b ∈ Finset.range M.bs.cols.length, ∑ i : Fin (szOf M.bs b), F ((M.bs.col b).position + i) =
      ∑ j ∈ Finset.range M.numCols, F j := by
  have := blocks_sum_from h.bs.cols F
  rw [Nat.zero_add, ← h.numCols, ← Finset.range_eq_Ico] at this
  rw [← this, ← range_map_col M.bs fun b => ∑ i : Fin b.size, F (b.position + i), rangeSum_list]
  rfl

/-- The cost block by block is the cost. -/
theorem cost_flat {M : BMat ℝ} (h : M.Ok) (b : Vec) (D : Option Vec) (x : Vec) :
    cost M.bs.cols.length (rowsOf M.bs M.values b) (D.map (blocksOf M.bs)) (blocksOf M.bs x) =
      lsq M.numRows M.numCols M.entry b D x := by
  unfold cost lsq
  congr 1
  · rw [← rows_sum h fun k => (∑ j ∈ Finset.range M.numCols, M.entry k j * x j - b k) ^ 2]
    unfold rowsOf
    rw [List.map_map]
    congr 1
    refine List.map_congr_left fun R hR => ?_
    refine Finset.sum_congr rfl fun k _ => ?_
    rw [row_apply h b x hR k]
    rfl
  · cases D with
    | none => rfl
    | some d =>
      simp only [Option.map_some, Option.elim_some]
      rw [← cols_sum h fun j => (d j * x j) ^ 2]
      rfl

/-- The energy block by block. -/
theorem energy_flat {M : BMat ℝ} (h : M.Ok) (b : Vec) (D : Option Vec) (x : Vec) :
    energy M.bs.cols.length (rowsOf M.bs M.values b) (D.map (blocksOf M.bs)) (blocksOf M.bs x) =
      lsq M.numRows M.numCols M.entry (fun _ => 0) D x := by
  rw [← cost_flat h]
  unfold cost energy
  congr 1
  unfold rowsOf
  rw [List.map_map, List.map_map]
  congr 1
  refine List.map_congr_left fun R _ => ?_
  refine Finset.sum_congr rfl fun k _ => ?_
  show _ = (_ - (0 : ℝ)) ^ 2
  rw [sub_zero]
  rfl

/-- Every vector kept block by block is one in memory. -/
theorem exists_flat (hc : Laid 0 bs.cols) (w : BVec (szOf bs)) : ∃ x : Vec, blocksOf bs x = w := by
  refine ⟨fun p => if h : p - (bs.col (blockOf bs.cols p)).position < szOf bs (blockOf bs.cols p) then
    w (blockOf bs.cols p) ⟨_, h⟩ else 0, ?_⟩
  funext b i
  by_cases hb : b < bs.cols.length
  · have e : blockOf bs.cols ((bs.col b).position + i) = b :=
      blockOf_eq hc (col_getElem hb) (by omega) (by have := i.2; unfold szOf at this; omega)
    unfold blocksOf
    simp only
    have : ∀ b', b' = b → ∀ q, q = (bs.col b).position + ↑i →
        (if h : q - (bs.col b').position < szOf bs b' then w b' ⟨_, h⟩ else 0) = w b i := by
      rintro b' rfl q rfl
      rw [dif_pos (by have := i.2; omega)]
      congr 1
      apply Fin.ext
      simp
    exact this _ e _ rfl
  · exfalso
    have h1 : (i : ℕ) < szOf bs b := i.2
    have h2 := szOf_out hb
    omega

theorem sq_sum_zero {n : ℕ} {f : ℕ → ℝ} (h : ∑ k ∈ Finset.range n, f k ^ 2 = 0) : ∀ k < n, f k = 0 := by
  intro k hk
  have := (Finset.sum_eq_zero_iff_of_nonneg fun k _ => sq_nonneg (f k)).1 h k (Finset.mem_range.2 hk)
  exact pow_eq_zero_iff two_ne_zero |>.1 this

theorem lsq_zero {m n : ℕ} {E : Buf} {D : Option Vec} {x : Vec} (h : lsq m n E (fun _ => 0) D x = 0) :
    (∀ k < m, ∑ j ∈ Finset.range n, E k j * x j = 0) ∧ Annihilates D n x := by
  unfold lsq at h
  have h1 : 0 ≤ ∑ k ∈ Finset.range m, (∑ j ∈ Finset.range n, E k j * x j - 0) ^ 2 :=
    Finset.sum_nonneg fun _ _ => sq_nonneg _
  cases D with
  | none =>
    simp only [add_zero] at h
    exact ⟨fun k hk => by simpa using sq_sum_zero h k hk, trivial⟩
  | some d =>
    simp only at h
    have h2 : 0 ≤ ∑ j ∈ Finset.range n, (d j * x j) ^ 2 := Finset.sum_nonneg fun _ _ => sq_nonneg _
    refine ⟨fun k hk => ?_, fun j hj => sq_sum_zero (f := fun j => d j * x j) (by linarith) j hj⟩
    have h3 : ∑ k ∈ Finset.range m, (∑ j ∈ Finset.range n, E k j * x j - 0) ^ 2 = 0 := by linarith
    simpa using sq_sum_zero h3 k hk

/-- Rank, block by block. -/
theorem fullRank_flat {M : BMat ℝ} (h : M.Ok) (b : Vec) {D : Option Vec}
    (hr : Regular M.numRows M.numCols M.entry D) :
    FullRank M.bs.cols.length (rowsOf M.bs M.values b) (D.map (blocksOf M.bs)) := by
  intro w hw b' hb'
  obtain ⟨x, rfl⟩ := exists_flat h.bs.cols w
  rw [energy_flat h] at hw
  obtain ⟨h1, h2⟩ := lsq_zero hw
  funext i
  refine hr x h1 h2 _ ?_
  have := col_bounds h.bs.cols b'
  have hi := i.2
  unfold szOf at hi
  rw [h.numCols]
  omega

theorem fullRankE_flat {M : BMat ℝ} (h : M.Ok) (b : Vec) {D : Option Vec} {ne : ℕ} (hr : RegularE ne M D) :
    FullRankE ne M.bs.cols.length (rowsOf M.bs M.values b) (D.map (blocksOf M.bs)) := by
  intro w hw0 hw r hr' c hc hlt
  obtain ⟨x, rfl⟩ := exists_flat h.bs.cols w
  rw [energy_flat h] at hw
  obtain ⟨h1, h2⟩ := lsq_zero hw
  unfold rowsOf at hr'
  obtain ⟨R, hR, rfl⟩ := List.mem_map.1 hr'
  obtain ⟨c0, hc0, rfl⟩ := List.mem_map.1 hc
  funext i
  exact hr x (fun b' hb' j hj => congrFun (hw0 b' hb') ⟨j, hj⟩) h1 h2 R hR c0 hc0 hlt i i.2

/-- The order, block by block. -/
theorem ordered_flat {M : BMat ℝ} (h : M.Ok) (b : Vec) {ne : ℕ} (ho : SchurOrdered ne M.bs) :
    Ordered ne M.bs.cols.length (rowsOf M.bs M.values b) := by
  have hex : ∀ (R : BRow) (p : ℕ → Prop), (∃ c ∈ (rowOf M.bs M.values b R).cells, p c.id) ↔
      ∃ c ∈ R.cells, p c.blockId := by
    intro R p
    constructor
    · rintro ⟨c, hc, hp⟩
      obtain ⟨c0, hc0, rfl⟩ := List.mem_map.1 hc
      exact ⟨c0, hc0, hp⟩
    · rintro ⟨c, hc, hp⟩
      exact ⟨_, List.mem_map_of_mem hc, hp⟩
  refine ⟨?_, ?_, ?_, ?_, ?_, ?_⟩
  · intro r hr
    obtain ⟨R, hR, rfl⟩ := List.mem_map.1 hr
    have := ho.sorted R hR
    rw [List.pairwise_map] at this
    exact List.pairwise_map.2 this
  · intro r hr
    obtain ⟨R, hR, rfl⟩ := List.mem_map.1 hr
    have := ho.nonempty R hR
    simpa [rowOf] using this
  · intro r hr c hc
    obtain ⟨R, hR, rfl⟩ := List.mem_map.1 hr
    obtain ⟨c0, hc0, rfl⟩ := List.mem_map.1 hc
    exact h.bs.ids R hR c0 hc0
  · intro r hr c hc d hd
    obtain ⟨R, hR, rfl⟩ := List.mem_map.1 hr
    obtain ⟨c0, hc0, rfl⟩ := List.mem_map.1 hc
    obtain ⟨d0, hd0, rfl⟩ := List.mem_map.1 hd
    exact ho.independent R hR c0 hc0 d0 hd0
  · refine List.pairwise_map.2 (ho.eFirst.imp fun {r s} hrs => ?_)
    rw [hex r (· < ne), hex s (· < ne)]
    exact hrs
  · intro r s t hst e he
    obtain ⟨l, hl, hm⟩ := List.sublist_map_iff.1 hst
    obtain ⟨r0, l1, rfl, rfl, hm1⟩ := List.map_eq_cons_iff.1 hm.symm
    obtain ⟨s0, l2, rfl, rfl, hm2⟩ := List.map_eq_cons_iff.1 hm1
    obtain ⟨t0, l3, rfl, rfl, hm3⟩ := List.map_eq_cons_iff.1 hm2
    rw [List.map_eq_nil_iff.1 hm3] at hl
    rw [hex r0 (· = e), hex s0 (· = e), hex t0 (· = e)]
    exact ho.grouped r0 s0 t0 hl e he

end Ceres.SchurDirect
