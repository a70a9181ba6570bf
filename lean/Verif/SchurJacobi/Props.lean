import Verif.SchurJacobi.Diagonal
import Verif.SchurJacobi.Spec
import Verif.SchurMatrix.Eliminated
import Verif.Visibility.Update

/-!
# SCHUR_JACOBI
-/

noncomputable section

namespace Ceres.SchurJacobi

open Matrix Ceres.Tasks Ceres.BlockSparse Ceres.InnerProduct Ceres.Direct Ceres.Schur Ceres.SchurThreads Ceres.SchurDirect
  Ceres.SchurMatrix
open Ceres.CG (SPD)
open Ceres.Visibility (asCall)
open Ceres.PartitionedView (Does Gives diagPos offset sqOffset LltOk Same SameBlock)

variable {bs : BS} {ne : ℕ}

/-! ## Matrices of functions -/

/-- The first `n` rows and columns. -/
def corner (n : ℕ) (S : Buf) : Matrix (Fin n) (Fin n) ℝ := Matrix.of fun i j : Fin n => S i j

theorem corner_mulVec (n : ℕ) (S : Buf) (x : Vec) (i : Fin n) :
    (corner n S *ᵥ front n x) i = ∑ j ∈ Finset.range n, S i j * x j := by
  rw [Finset.sum_range]
  rfl

theorem corner_quadratic (n : ℕ) (S : Buf) (x : Vec) :
    front n x ⬝ᵥ corner n S *ᵥ front n x = quadratic n S x := by
  unfold quadratic dotProduct
  rw [Finset.sum_range]
  refine Finset.sum_congr rfl fun i _ => ?_
  rw [corner_mulVec, Finset.mul_sum]
  refine Finset.sum_congr rfl fun j _ => ?_
  show x i * _ = _
  ring

theorem front_extend {n : ℕ} (x : CG.Vec n) : front n (extend x) = x := by
  funext i
  unfold front extend
  rw [dif_pos i.2]

theorem corner_spd {n : ℕ} {S : Buf} (hs : ∀ p < n, ∀ q < n, S p q = S q p) (hp : PosDef n S) : SPD (corner n S) := by
  refine ⟨?_, fun x hx => ?_⟩
  · ext i j
    exact hs j j.2 i i.2
  · rw [← front_extend x, corner_quadratic]
    obtain ⟨i, hi⟩ := Function.ne_iff.1 hx
    refine hp _ ⟨i, i.2, ?_⟩
    have := congrFun (front_extend x) i
    unfold front at this
    rw [this]
    exact hi

theorem spd_posDef {n : ℕ} {S : Buf} (h : SPD (corner n S)) : PosDef n S := by
  rintro x ⟨j, hj, hx⟩
  have := h.2 (front n x) fun h0 => hx (congrFun h0 ⟨j, hj⟩)
  rw [corner_quadratic] at this
  exact this

/-! ## The blocks -/

theorem offset_tail {x : ℕ} (hx : ne ≤ x) (hx' : x < bs.cols.length) :
    offset (tail bs.cols ne) (x - ne) = fPos bs ne x := by
  have := laid_pos (tail_laid bs ne) (tail_get hx hx')
  rw [Nat.zero_add] at this
  exact this.symm

theorem offset_all (bs : BS) (ne : ℕ) : offset (tail bs.cols ne) (tail bs.cols ne).length = fCols bs ne := by
  unfold offset
  rw [List.take_length, tail_sum]

/-- The blocks of the reduced system are column blocks. -/
theorem sameBlock_tail (hc : Laid 0 bs.cols) {p q : ℕ} (hp : p < fCols bs ne) (hq : q < fCols bs ne) :
    SameBlock bs ne bs.cols.length p q ↔ blockOf (tail bs.cols ne) p = blockOf (tail bs.cols ne) q := by
  obtain ⟨x, hx, hx', i, hi, rfl, ex⟩ := f_split hp
  obtain ⟨y, hy, hy', j, hj, rfl, ey⟩ := f_split hq
  have hE : PartitionedView.colsE bs ne = eCols bs ne := rfl
  rw [ex, ey]
  constructor
  · rintro ⟨b, h1, h2, blk, h3, h4, h5, h6, h7⟩
    have hb : blk = bs.col b := by
      have := col_getElem h2
      rw [h3] at this
      injection this
    have hsz : blk.size = szOf bs b := by rw [hb]; rfl
    have hpos : blk.position = eCols bs ne + fPos bs ne b := by rw [hb, fPos_eq hc h1 h2]
    have k1 := f_inj hx hx' h1 h2 hi (j := fPos bs ne x + i - fPos bs ne b) (by omega) (by omega)
    have k2 := f_inj hy hy' h1 h2 hj (j := fPos bs ne y + j - fPos bs ne b) (by omega) (by omega)
    omega
  · intro h
    obtain rfl : x = y := by omega
    have hpos := fPos_eq hc hx hx'
    refine ⟨x, hx, hx', bs.col x, col_getElem hx', ?_⟩
    have : (bs.col x).size = szOf bs x := rfl
    omega

theorem corner_diagonalBlocks (hc : Laid 0 bs.cols) (S : Buf) : corner (fCols bs ne) (diagonalBlocks bs ne S) =
    CG.blockDiag (fun i : Fin (fCols bs ne) => blockOf (tail bs.cols ne) i) (corner (fCols bs ne) S) := by
  ext i j
  unfold corner CG.blockDiag diagonalBlocks
  simp only [Matrix.of_apply]
  by_cases h : SameBlock bs ne bs.cols.length i j
  · rw [if_pos h, if_pos ((sameBlock_tail hc i.2 j.2).1 h)]
  · rw [if_neg h, if_neg fun h' => h ((sameBlock_tail hc i.2 j.2).2 h')]

/-- The values are those of the diagonal blocks of `S`. -/
def HoldsDiagonal (bs : BS) (ne : ℕ) (S : Buf) (v : Vec) : Prop :=
  ∀ x, ne ≤ x → x < bs.cols.length → ∀ i < szOf bs x, ∀ j < szOf bs x,
    v (sqOffset (tail bs.cols ne) (x - ne) + i * szOf bs x + j) = S (fPos bs ne x + i) (fPos bs ne x + j)

/-- What the preconditioner is after `Invert`. -/
theorem invert_diagonal {llt : (n : ℕ) → Matrix (Fin n) (Fin n) ℝ → Matrix (Fin n) (Fin n) ℝ} (hl : LltOk llt) {S : Buf}
    (hs : ∀ p < fCols bs ne, ∀ q < fCols bs ne, S p q = S q p) (hp : PosDef (fCols bs ne) S) {v : Vec}
    (hv : HoldsDiagonal bs ne S v) {threads : ℕ} (ht : 0 < threads) :
    ∃ w, (∀ o, invert llt threads (tail bs.cols ne) v o ↔ o = some w) ∧ ∀ i j : Fin (fCols bs ne),
      (BMat.ofStructure (diagonal (tail bs.cols ne)) w).entry i j =
        (CG.blockDiag (fun i : Fin (fCols bs ne) => blockOf (tail bs.cols ne) i) (corner (fCols bs ne) S))⁻¹ i j := by
  obtain ⟨w, h1, h2⟩ := invert_run (L := tail bs.cols ne) llt v ht
  refine ⟨w, h1, inverse_entry hl (tail_laid bs ne) (offset_all bs ne) (corner_spd hs hp) ?_ h2⟩
  intro k blk hk i j p q hp' hq'
  have hlt : k < (tail bs.cols ne).length := PartitionedView.get_lt hk
  rw [tail_length] at hlt
  have hx : ne ≤ ne + k := by omega
  have hx' : ne + k < bs.cols.length := by omega
  have hg := tail_get hx hx'
  have ho := offset_tail hx hx'
  rw [Nat.add_sub_cancel_left] at hg ho
  rw [hk] at hg
  injection hg with hg
  subst hg
  have := hv (ne + k) hx hx' i i.2 j j.2
  rw [Nat.add_sub_cancel_left] at this
  rw [this]
  show _ = S p q
  rw [hp', hq', ho]

/-- What applying it does. -/
theorem apply_diagonal (hc : Laid 0 bs.cols) {S : Buf} (hs : ∀ p < fCols bs ne, ∀ q < fCols bs ne, S p q = S q p)
    (hp : PosDef (fCols bs ne) S) {w : Vec} (hw : ∀ i j : Fin (fCols bs ne),
      (BMat.ofStructure (diagonal (tail bs.cols ne)) w).entry i j =
        (CG.blockDiag (fun i : Fin (fCols bs ne) => blockOf (tail bs.cols ne) i) (corner (fCols bs ne) S))⁻¹ i j)
    {threads : ℕ} (ht : 0 < threads) (x y : Vec) : ∃ z, (∀ o, rightMultiply threads (tail bs.cols ne) w x y o ↔ o = some z) ∧
      Eqs (fCols bs ne) (diagonalBlocks bs ne S) (fun p => z p - y p) x ∧ ∀ p, fCols bs ne ≤ p → z p = y p := by
  obtain ⟨z, h1, h2, h3⟩ := rightMultiply_gives w ht (offset_all bs ne) hw x y
  refine ⟨z, h1, fun i hi => ?_, h3⟩
  have hspd := CG.blockDiag_spd (corner_spd hs hp) fun i : Fin (fCols bs ne) => blockOf (tail bs.cols ne) i
  have e : front (fCols bs ne) (fun p => z p - y p) =
      (CG.blockDiag (fun i : Fin (fCols bs ne) => blockOf (tail bs.cols ne) i) (corner (fCols bs ne) S))⁻¹ *ᵥ
        front (fCols bs ne) x := by
    funext j
    show z j - y j = _
    rw [h2 j]
    show y j + _ - y j = _
    ring
  rw [← corner_mulVec (fCols bs ne) _ _ ⟨i, hi⟩, corner_diagonalBlocks hc, e, mulVec_mulVec,
    mul_nonsing_inv _ hspd.isUnit_det, one_mulVec]
  rfl

/-! ## The update -/

theorem diagonal_cell {x : ℕ} (hx : ne ≤ x) (hx' : x < bs.cols.length) :
    (diagonalStorage bs ne).cell (x - ne) (x - ne) =
      some ⟨sqOffset (tail bs.cols ne) (x - ne), 0, 0, szOf bs x, szOf bs x⟩ := by
  unfold diagonalStorage
  simp only [if_true]
  rw [blockAt_tail hx, diagPos_diagonal (by rw [tail_length]; omega)]

theorem diagonalStorage_cols (bs : BS) (ne : ℕ) : (diagonalStorage bs ne).cols = fCols bs ne := tail_sum bs ne

theorem fCols_pos {call : Call} (hf : Fits ne bs call) (hn : ne < bs.cols.length) : 0 < fCols bs ne := by
  have := fPos_bound (ne := ne) le_rfl hn
  have h2 : 0 < szOf bs ne := hf.cols _ (List.mem_of_getElem? (col_getElem hn))
  omega

/-- What the storage holds after the elimination. -/
theorem eliminated_diagonal {inv : Inverter} {A : BMat ℝ} {D : Option Vec} {threads : ℕ}
    (hf : Fits ne bs (asCall A D)) (hinv : InvertsFullRank inv) (ht : 0 < threads) {m : SchurThreads.Mem}
    {e : Option SchurThreads.Mem}
    (h : EliminateRun inv ne bs.cols.length ((diagonalStorage bs ne).has ne)
      (rowsOf bs A.values fun _ => 0) (D.map (blocksOf bs)) false threads m e) :
    ∃ m', e = some m' ∧ ∀ v, (diagonalStorage bs ne).Holds ne (szOf bs) v m' →
      ∀ S, IsSchur A.numRows (eCols bs ne) (fCols bs ne) A.entry D S → HoldsDiagonal bs ne S v := by
  obtain ⟨m', h1, h2, -, -⟩ := eliminate_no_rhs_threads ht h
  refine ⟨m', h1, fun v hv S hS x hx hx' i hi j hj => ?_⟩
  have ho := ordered_call hf
  obtain ⟨H, hH⟩ := exists_buf (ne := ne) (schurLhs inv ne (rowsOf bs A.values fun _ => 0) (D.map (blocksOf bs)))
  have hHS := schurLhs_isSchur hf rfl hinv hH
  have hp := fPos_bound hx hx'
  have hcell := diagonal_cell hx hx'
  have hhas : (diagonalStorage bs ne).has ne x x = true := by
    unfold Storage.has
    rw [hcell]
    simp [hx]
  have := hv x x hx hx _ hcell i hi j hj
  unfold CellRef.address at this
  simp only [Nat.zero_add] at this
  rw [this, isSchur_unique hS hHS (by omega) (by omega), hH x x hx hx' hx hx' ⟨i, hi⟩ ⟨j, hj⟩,
    ← (eliminate_spec inv ne bs.cols.length _ (rowsOf bs A.values fun _ => 0) (D.map (blocksOf bs)) _
      (List.Perm.refl _) ho.sorted).2.1 x x hx le_rfl hx' hhas]
  exact congrArg (fun L : Lhs (szOf bs) => L.val x x ⟨i, hi⟩ ⟨j, hj⟩) h2

/-- Values for any contents. -/
theorem diagonal_holds (m : SchurThreads.Mem) : ∃ v, (diagonalStorage bs ne).Holds ne (szOf bs) v m := by
  refine ⟨fun p =>
    let k := PartitionedView.ownCell (tail bs.cols ne) p
    let q := p - sqOffset (tail bs.cols ne) k
    let n := szOf bs (ne + k)
    m (.lhs (ne + k) (ne + k) (q / n) (q % n)), fun x y hx hy c hc i hi j hj => ?_⟩
  unfold diagonalStorage at hc
  simp only at hc
  split_ifs at hc with hxy
  obtain rfl : x = y := by omega
  have hx' : x < bs.cols.length := by
    by_contra hge
    rw [szOf_out hge] at hi
    omega
  have hcell := diagonal_cell hx hx'
  unfold diagonalStorage at hcell
  simp only [if_true] at hcell
  rw [hc] at hcell
  injection hcell with hcell
  subst hcell
  unfold CellRef.address
  simp only [Nat.zero_add]
  have hown := PartitionedView.ownCell_eq (tail_get hx hx') hi hj
  simp only at hown
  rw [hown, Nat.add_sub_cancel' hx]
  have e : sqOffset (tail bs.cols ne) (x - ne) + i * szOf bs x + j - sqOffset (tail bs.cols ne) (x - ne) =
      i * szOf bs x + j := by omega
  rw [e, Nat.mul_comm i, Nat.mul_add_mod, Nat.mod_eq_of_lt hj, Nat.mul_add_div (by omega), Nat.div_eq_of_lt hj,
    Nat.add_zero]

/-- **SCHUR_JACOBI**: for a correct Cholesky factorisation of small matrices and a correct inverse of the e blocks, on
any number of threads and for every schedule, if the least squares problem has a unique solution, an update returns, and
then applying the preconditioner to `x` adds to `y` the solution `u` of `M u = x`, where `M` holds the diagonal blocks of
the Schur complement of `[A; D]`, and is positive definite. -/
theorem schur_jacobi {llt : (n : ℕ) → Matrix (Fin n) (Fin n) ℝ → Matrix (Fin n) (Fin n) ℝ} (hl : LltOk llt)
    {inv : Inverter} (hinv : InvertsFullRank inv) {threads : ℕ} (ht : 0 < threads) (hn : ne < bs.cols.length)
    {A : BMat ℝ} {D : Option Vec} (hf : Fits ne bs (asCall A D)) (hr : Regular A.numRows A.numCols A.entry D) {S : Buf}
    (hS : IsSchur A.numRows (eCols bs ne) (fCols bs ne) A.entry D S) :
    PosDef (fCols bs ne) (diagonalBlocks bs ne S) ∧ (∃ o, Update llt inv ne A D threads o) ∧
    ∀ o, Update llt inv ne A D threads o → ∃ w, o = some w ∧ ∀ x y,
      ∃ z, (∀ o, rightMultiply threads (tail bs.cols ne) w x y o ↔ o = some z) ∧
        Eqs (fCols bs ne) (diagonalBlocks bs ne S) (fun p => z p - y p) x ∧ ∀ p, fCols bs ne ≤ p → z p = y p := by
  have hbs : A.bs = bs := hf.structure_
  have hc : Laid 0 bs.cols := by
    have : Laid 0 A.bs.cols := hf.ok.bs.cols
    rwa [hbs] at this
  have hcols : A.numCols = eCols bs ne + fCols bs ne := by
    have h1 : A.numCols = (A.bs.cols.map Block.size).sum := hf.ok.numCols
    rw [h1, hbs, cols_split bs ne]
  rw [hcols] at hr
  have hpd := isSchur_posDef hS hr
  have hpos := fCols_pos hf hn
  refine ⟨spd_posDef ?_, ?_, ?_⟩
  · rw [corner_diagonalBlocks hc]
    exact CG.blockDiag_spd (corner_spd hS.symm hpd) _
  · obtain ⟨m1, h1⟩ := eliminate_exists (inv := inv) (ne := ne) (nb := bs.cols.length)
      (has := (diagonalStorage bs ne).has ne) (rows := rowsOf bs A.values fun _ => 0) (D := D.map (blocksOf bs))
      (wantRhs := false) (m := fun _ => 0) ht
    obtain ⟨m', hm, hall⟩ := eliminated_diagonal hf hinv ht h1
    cases hm
    obtain ⟨v, hv⟩ := diagonal_holds (bs := bs) (ne := ne) m1
    obtain ⟨w, hw, -⟩ := invert_diagonal hl hS.symm hpd (hall v hv S hS) ht
    refine ⟨some w, ?_⟩
    unfold Update
    rw [hbs, diagonalStorage_cols, if_neg hpos.ne']
    exact ⟨_, _, h1, v, hv, (hw _).2 rfl⟩
  · intro o ho
    unfold Update at ho
    rw [hbs, diagonalStorage_cols, if_neg hpos.ne'] at ho
    obtain ⟨m, e, he, ho⟩ := ho
    obtain ⟨m', rfl, hall⟩ := eliminated_diagonal hf hinv ht he
    obtain ⟨v, hv, ho⟩ := ho
    obtain ⟨w, hw, hent⟩ := invert_diagonal hl hS.symm hpd (hall v hv S hS) ht
    exact ⟨w, (hw o).1 ho, apply_diagonal hc hS.symm hpd hent ht⟩

/-- Without f blocks a `CHECK` fails. -/
theorem no_f_blocks {llt : (n : ℕ) → Matrix (Fin n) (Fin n) ℝ → Matrix (Fin n) (Fin n) ℝ} {inv : Inverter} {threads : ℕ}
    {A : BMat ℝ} {D : Option Vec} (h : A.bs.cols.length ≤ ne) (o : Option Vec) :
    Update llt inv ne A D threads o ↔ o = none := by
  unfold Update
  rw [if_pos]
  rw [diagonalStorage_cols]
  unfold fCols
  rw [List.drop_eq_nil_of_le h]
  rfl

/-- No data race and no access out of bounds in `Invert`, for any values. -/
theorem invert_safe (llt : (n : ℕ) → Matrix (Fin n) (Fin n) ℝ → Matrix (Fin n) (Fin n) ℝ) (L : List Block) (v : Vec)
    {threads : ℕ} {s : Tasks.St BlockSparse.Loc Empty ℝ}
    (hs : ForReach 1 (PartitionedView.invertTask llt (diagonal L) false) 0 L.length threads
      (PartitionedView.mem 0 v v) s) : ¬Race s ∧ ∀ l, Touches s l →
        InBounds 0 (BMat.ofStructure (diagonal L) v).nnz 0 l := by
  have hl : (PartitionedView.layout ⟨L, []⟩ 0 L.length).rows.length = L.length := by
    rw [PartitionedView.layout_length, blocks_self]
  refine PartitionedView.invert_safe (bs := ⟨L, []⟩) (a := 0) (b := L.length) llt v none (threads := threads) (s := s) ?_
  rw [hl]
  exact hs

end Ceres.SchurJacobi
