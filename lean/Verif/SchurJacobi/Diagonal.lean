import Verif.SchurJacobi.Model
import Verif.PartitionedView.Inverse
import Verif.SchurDirect.Layout

/-!
# Block diagonal matrices: inversion and product
-/

noncomputable section

namespace Ceres.SchurJacobi

open Matrix Ceres.Tasks Ceres.BlockSparse Ceres.Direct Ceres.SchurThreads Ceres.SchurDirect
open Ceres.CG (SPD)
open Ceres.PartitionedView (Does Gives layout diagPos invertTask mulBlocks onY offset sqOffset offset_slot offset_bound
  offset_succ spd_submatrix same_unique LltOk blockMat Same layout_entry layout_entry_zero)

variable {L : List Block}

theorem blocks_self (L : List Block) : PartitionedView.blocksOf ⟨L, []⟩ 0 L.length = L := by
  unfold PartitionedView.blocksOf
  simp

theorem diagonal_entry (v : Vec) {k : ℕ} {blk : Block} (h : L[k]? = some blk) {i j : ℕ} (hi : i < blk.size)
    (hj : j < blk.size) : (BMat.ofStructure (diagonal L) v).entry (offset L k + i) (offset L k + j) =
      v (sqOffset L k + i * blk.size + j) := by
  have := layout_entry ⟨L, []⟩ (a := 0) (b := L.length) v (k := k) (blk := blk) (by rwa [blocks_self]) hi hj
  rwa [blocks_self] at this

theorem diagonal_entry_zero (v : Vec) {i j : ℕ} (h : ¬Same L i j) :
    (BMat.ofStructure (diagonal L) v).entry i j = 0 :=
  layout_entry_zero ⟨L, []⟩ (a := 0) (b := L.length) v (by rwa [blocks_self])

theorem diagonal_size (L : List Block) (v : Vec) : (BMat.ofStructure (diagonal L) v).numCols = offset L L.length ∧
    (BMat.ofStructure (diagonal L) v).numRows = offset L L.length := by
  have := PartitionedView.layout_numCols ⟨L, []⟩ 0 L.length v
  rwa [blocks_self] at this

theorem diagonal_ok (L : List Block) (v : Vec) : (BMat.ofStructure (diagonal L) v).Ok :=
  PartitionedView.layout_ok _ _ _ _

theorem diagPos_diagonal {k : ℕ} (h : k < L.length) : diagPos (diagonal L) k = sqOffset L k := by
  have := PartitionedView.diagPos_eq ⟨L, []⟩ (a := 0) (b := L.length) (k := k) (by rwa [blocks_self])
  rwa [blocks_self] at this

/-- `Invert`. -/
theorem invert_run (llt : (n : ℕ) → Matrix (Fin n) (Fin n) ℝ → Matrix (Fin n) (Fin n) ℝ) (v : Vec) {threads : ℕ}
    (ht : 0 < threads) : ∃ w, (∀ o, invert llt threads L v o ↔ o = some w) ∧
      ∀ k blk, L[k]? = some blk → ∀ i j : Fin blk.size, w (sqOffset L k + i * blk.size + j) =
        llt blk.size (Matrix.of fun i j : Fin blk.size => v (sqOffset L k + i * blk.size + j)) i j := by
  obtain ⟨w, h1, h2, -⟩ := PartitionedView.invert_run (bs := ⟨L, []⟩) (a := 0) (b := L.length) llt v none ht
  rw [blocks_self] at h2
  refine ⟨w, fun o => ?_, fun k blk hk i j => ?_⟩
  · rw [← h1 o]
    unfold invert PartitionedView.addDiagonalAndInvert
    have hl : (layout ⟨L, []⟩ 0 L.length).rows.length = L.length := by
      rw [PartitionedView.layout_length, blocks_self]
    show _ ↔ onY (ForRun (invertTask llt (layout ⟨L, []⟩ 0 L.length) false) 0
      (layout ⟨L, []⟩ 0 L.length).rows.length threads _) o
    rw [hl]
    rfl
  · rw [h2 k blk hk i j]
    unfold blockMat
    simp

/-- The product. -/
theorem rightMultiply_gives (w : Vec) {threads : ℕ} (ht : 0 < threads) {n : ℕ} (hn : offset L L.length = n)
    {G : Matrix (Fin n) (Fin n) ℝ} (hG : ∀ i j : Fin n, (BMat.ofStructure (diagonal L) w).entry i j = G i j)
    (x y : Vec) : Gives (rightMultiply threads L w x y) n (front n y + G *ᵥ front n x) y :=
  PartitionedView.gives_mulBlocks (diagonal_ok L w) ht ((diagonal_size L w).2.trans hn) ((diagonal_size L w).1.trans hn) hG
    (fun _ => rfl) (fun _ => rfl)

/-- A list of blocks cuts the columns. -/
theorem blockOf_offset {k : ℕ} {blk : Block} (hL : Laid 0 L) (h : L[k]? = some blk) {i : ℕ} (hi : i < blk.size) :
    blockOf L (offset L k + i) = k := by
  have hp := laid_pos hL h
  rw [Nat.zero_add] at hp
  refine blockOf_eq hL h ?_ ?_ <;> rw [hp] <;> unfold offset <;> omega

/-- **The inverted blocks are the inverse of the block diagonal.** -/
theorem inverse_entry {llt : (n : ℕ) → Matrix (Fin n) (Fin n) ℝ → Matrix (Fin n) (Fin n) ℝ} (hl : LltOk llt)
    (hL : Laid 0 L) {n : ℕ} (hn : offset L L.length = n) {v w : Vec} {N : Matrix (Fin n) (Fin n) ℝ} (hN : SPD N)
    (hv : ∀ k blk (_ : L[k]? = some blk) (i j : Fin blk.size) (p q : Fin n), (p : ℕ) = offset L k + i →
      (q : ℕ) = offset L k + j → v (sqOffset L k + i * blk.size + j) = N p q)
    (hw : ∀ k blk, L[k]? = some blk → ∀ i j : Fin blk.size, w (sqOffset L k + i * blk.size + j) =
        llt blk.size (Matrix.of fun i j : Fin blk.size => v (sqOffset L k + i * blk.size + j)) i j) (i j : Fin n) :
    (BMat.ofStructure (diagonal L) w).entry i j = (CG.blockDiag (fun i : Fin n => blockOf L i) N)⁻¹ i j := by
  set G : Matrix (Fin n) (Fin n) ℝ := Matrix.of fun i j : Fin n => (BMat.ofStructure (diagonal L) w).entry i j with hG
  suffices h : CG.blockDiag (fun i : Fin n => blockOf L i) N * G = 1 by
    rw [Matrix.inv_eq_right_inv h]
    rfl
  let e : ∀ (k : ℕ) (blk : Block), L[k]? = some blk → Fin blk.size → Fin n := fun k blk h i' =>
    ⟨offset L k + i', by have := offset_bound h; have := i'.2; omega⟩
  have he : ∀ (k : ℕ) (blk : Block) (h : L[k]? = some blk), Function.Injective (e k blk h) := by
    intro k blk h i' j' hij
    have := congrArg Fin.val hij
    simp only [e] at this
    exact Fin.ext (by omega)
  have hblk : ∀ (k : ℕ) (blk : Block) (h : L[k]? = some blk),
      (Matrix.of fun i j : Fin blk.size => v (sqOffset L k + i * blk.size + j)) = N.submatrix (e k blk h) (e k blk h) := by
    intro k blk h
    ext i' j'
    exact hv k blk h i' j' _ _ rfl rfl
  ext i j
  obtain ⟨k, blk, hk, i', hi', hi⟩ := offset_slot L (i := i) (by rw [hn]; exact i.2)
  obtain ⟨k2, blk2, hk2, j', hj', hj⟩ := offset_slot L (i := j) (by rw [hn]; exact j.2)
  have hie : i = e k blk hk ⟨i', hi'⟩ := Fin.ext hi
  have hje : j = e k2 blk2 hk2 ⟨j', hj'⟩ := Fin.ext hj
  have hbi : ∀ (k : ℕ) (blk : Block) (h : L[k]? = some blk) (i' : Fin blk.size),
      blockOf L (e k blk h i' : Fin n) = k := fun k blk h i' => blockOf_offset hL h i'.2
  rw [Matrix.mul_apply, ← Fintype.sum_of_injective (e k blk hk) (he k blk hk)
    (fun l => N (e k blk hk ⟨i', hi'⟩) (e k blk hk l) * G (e k blk hk l) j)]
  · by_cases hkk : k = k2
    · subst hkk
      have : blk = blk2 := by rw [hk] at hk2; injection hk2
      subst this
      have hS : SPD (Matrix.of fun i j : Fin blk.size => v (sqOffset L k + i * blk.size + j)) := by
        rw [hblk k blk hk]; exact spd_submatrix hN (he k blk hk)
      have h1 : ∀ l, G (e k blk hk l) j =
          (Matrix.of fun i j : Fin blk.size => v (sqOffset L k + i * blk.size + j))⁻¹ l ⟨j', hj'⟩ := by
        intro l
        rw [hje, ← hl _ _ hS, ← hw k blk hk]
        exact diagonal_entry w hk l.2 hj'
      have h2 : ∀ l, N (e k blk hk ⟨i', hi'⟩) (e k blk hk l) =
          (Matrix.of fun i j : Fin blk.size => v (sqOffset L k + i * blk.size + j)) ⟨i', hi'⟩ l := by
        intro l
        rw [hblk k blk hk]
        rfl
      simp only [h1, h2]
      rw [← Matrix.mul_apply, Matrix.mul_nonsing_inv _ hS.isUnit_det, hie, hje]
      simp only [Matrix.one_apply, (he k blk hk).eq_iff]
    · have h1 : ∀ l, G (e k blk hk l) j = 0 := by
        intro l
        refine diagonal_entry_zero w ?_
        rintro ⟨k', b', g1, g2, g3, g4, g5⟩
        have e1 := same_unique g1 hk g2 g3 (by simp only [e]; omega) (by have := l.2; simp only [e]; omega)
        have e2 := same_unique g1 hk2 g4 g5 (by omega) (by omega)
        exact hkk (e1.symm.trans e2)
      simp only [h1, mul_zero, Finset.sum_const_zero]
      rw [Matrix.one_apply_ne]
      intro hij
      refine hkk (same_unique hk hk2 (i := (i : ℕ)) (by omega) (by omega) ?_ ?_) <;> rw [hij] <;> omega
  · intro l hlr
    obtain ⟨k3, blk3, hk3, l', hl', hll⟩ := offset_slot L (i := l) (by rw [hn]; exact l.2)
    have hle : l = e k3 blk3 hk3 ⟨l', hl'⟩ := Fin.ext hll
    have hne : k ≠ k3 := by
      rintro rfl
      have : blk = blk3 := by rw [hk] at hk3; injection hk3
      subst this
      exact hlr ⟨⟨l', hl'⟩, hle.symm⟩
    have : CG.blockDiag (fun i : Fin n => blockOf L i) N i l = 0 := by
      refine if_neg ?_
      rw [hie, hle]
      beta_reduce
      rw [hbi k blk hk, hbi k3 blk3 hk3]
      omega
    rw [this, zero_mul]
  · intro l
    have : CG.blockDiag (fun i : Fin n => blockOf L i) N i (e k blk hk l) = N i (e k blk hk l) := by
      refine if_pos ?_
      rw [hie]
      beta_reduce
      rw [hbi k blk hk, hbi k blk hk]
    rw [this, hie]

end Ceres.SchurJacobi
