import Verif.SmallBlas.Kernels
import Mathlib.Data.Matrix.Basic

/-!
# C59: the small dense kernels are matrix algebra

For every size, every offset and every stride, and for all three operations, the four kernels do not
fault, terminate, combine the addressed cells with the entries of the product, and change no other
cell of the memory.
-/

namespace Ceres.SmallBlas

open Finset

variable {K : Type} [Ring K]

/-- A matrix as a function of natural numbers. -/
def ext2 {r c : ℕ} (X : Matrix (Fin r) (Fin c) K) (i j : ℕ) : K :=
  if h : i < r ∧ j < c then X ⟨i, h.1⟩ ⟨j, h.2⟩ else 0

/-- A vector as a function of natural numbers. -/
def ext1 {n : ℕ} (x : Fin n → K) (i : ℕ) : K := if h : i < n then x ⟨i, h⟩ else 0

theorem ext2_fin {r c : ℕ} (X : Matrix (Fin r) (Fin c) K) (i : Fin r) (j : Fin c) :
    ext2 X i j = X i j := by simp [ext2]

theorem ext1_fin {n : ℕ} (x : Fin n → K) (i : Fin n) : ext1 x i = x i := by simp [ext1]

theorem holds_ext {r c : ℕ} {m : Mem K} {p : ℕ} {X : Matrix (Fin r) (Fin c) K}
    (h : HoldsMatrix m p X) : ∀ i < r, ∀ j < c, m (p + i * c + j) = some (ext2 X i j) := by
  intro i hi j hj
  have := h ⟨i, hi⟩ ⟨j, hj⟩
  simpa [ext2, hi, hj] using this

theorem holdsV_ext {n : ℕ} {m : Mem K} {p : ℕ} {x : Fin n → K} (h : HoldsVector m p x) :
    ∀ i < n, m (p + i) = some (ext1 x i) := by
  intro i hi
  have := h ⟨i, hi⟩
  simpa [ext1, hi] using this

theorem cAddr_eq {r c : ℕ} (C startRow startCol stride : ℕ) (x : Fin r × Fin c) :
    cAddr C startRow startCol stride (x.1.val, x.2.val) =
      blockAddr C startRow startCol stride x := by
  simp only [cAddr, index, blockAddr, Nat.add_comm startRow]
  omega

theorem upd_updated {r c : ℕ} {op : ℤ} {C startRow startCol stride : ℕ} {v : ℕ × ℕ → K}
    {w : Fin r × Fin c → K} {m m' : Mem K} (hv : ∀ x : Fin r × Fin c, v (x.1.val, x.2.val) = w x)
    (h : Upd op (cAddr C startRow startCol stride) v (fun x => ∃ j < c, x.1 < r ∧ x.2 = j) m m') :
    Updated op (blockAddr C startRow startCol stride) w m m' := by
  refine ⟨fun x => ?_, fun p hp => h.2 p ?_⟩
  · have := h.1 (x.1.val, x.2.val) ⟨x.2.val, x.2.isLt, x.1.isLt, rfl⟩
    rwa [cAddr_eq, hv] at this
  · rintro ⟨i, j⟩ ⟨_, hj, hi, rfl⟩
    have := hp (⟨i, hi⟩, ⟨j, hj⟩)
    rwa [← cAddr_eq] at this

theorem upd_updatedV {r : ℕ} {op : ℤ} {c : ℕ} {v : ℕ → K} {w : Fin r → K} {m m' : Mem K}
    (hv : ∀ i : Fin r, v i.val = w i)
    (h : Upd op (fun i => c + i) v (fun i => ∃ j < r, i = j) m m') :
    Updated op (fun i : Fin r => c + i.val) w m m' := by
  refine ⟨fun i => ?_, fun p hp => h.2 p ?_⟩
  · have := h.1 i.val ⟨i.val, i.isLt, rfl⟩
    rwa [hv] at this
  · rintro i ⟨_, hi, rfl⟩
    exact hp ⟨i, hi⟩

theorem setting_of {r n q c : ℕ} {m : Mem K} {A B C startRow startCol stride R : ℕ}
    {X : Matrix (Fin r) (Fin n) K} {Y : Matrix (Fin q) (Fin c) K} (hX : HoldsMatrix m A X)
    (hY : HoldsMatrix m B Y) (fit : startCol + c ≤ stride)
    (alloc : ∀ x : Fin R × Fin c, (m (blockAddr C startRow startCol stride x)).isSome)
    (sepA : ∀ i : Fin r, ∀ k : Fin n, ∀ x : Fin R × Fin c,
      A + i.val * n + k.val ≠ blockAddr C startRow startCol stride x)
    (sepB : ∀ k : Fin q, ∀ j : Fin c, ∀ x : Fin R × Fin c,
      B + k.val * c + j.val ≠ blockAddr C startRow startCol stride x) :
    Setting m A r n B q c C startRow startCol stride R (ext2 X) (ext2 Y) where
  hA := holds_ext hX
  hB := holds_ext hY
  fit := fit
  alloc i hi j hj := by
    have := alloc (⟨i, hi⟩, ⟨j, hj⟩)
    rw [← cAddr_eq] at this
    exact Option.isSome_iff_exists.1 this
  sepA i hi j hj i' hi' j' hj' := by
    have := sepA ⟨i, hi⟩ ⟨j, hj⟩ (⟨i', hi'⟩, ⟨j', hj'⟩)
    rwa [← cAddr_eq] at this
  sepB i hi j hj i' hi' j' hj' := by
    have := sepB ⟨i, hi⟩ ⟨j, hj⟩ (⟨i', hi'⟩, ⟨j', hj'⟩)
    rwa [← cAddr_eq] at this

theorem dim_of {k : Option ℕ} {n : ℕ} (h : k = none ∨ k = some n) : dim k n = n := by
  rcases h with rfl | rfl <;> rfl

/-- **C59**, `C op A * B`.  `A` holds an `r × n` matrix `X`, `B` an `n × c` matrix `Y`; `C` has rows of
length `stride` and the block at `(startRow, startCol)` fits into them and does not overlap `A` or
`B`.  The template arguments are each `Dynamic` or the actual size, and not all four are fixed. -/
theorem matrixMatrixMultiply_correct {r n c : ℕ} {m : Mem K} {op : ℤ}
    {A B C startRow startCol stride : ℕ} {X : Matrix (Fin r) (Fin n) K}
    {Y : Matrix (Fin n) (Fin c) K} {kRowA kColA kRowB kColB : Option ℕ}
    (k1 : kRowA = none ∨ kRowA = some r) (k2 : kColA = none ∨ kColA = some n)
    (k4 : kColB = none ∨ kColB = some c)
    (dyn : kRowA = none ∨ kColA = none ∨ kRowB = none ∨ kColB = none)
    (hX : HoldsMatrix m A X) (hY : HoldsMatrix m B Y) (fit : startCol + c ≤ stride)
    (alloc : ∀ x : Fin r × Fin c, (m (blockAddr C startRow startCol stride x)).isSome)
    (sepA : ∀ i : Fin r, ∀ k : Fin n, ∀ x : Fin r × Fin c,
      A + i.val * n + k.val ≠ blockAddr C startRow startCol stride x)
    (sepB : ∀ k : Fin n, ∀ j : Fin c, ∀ x : Fin r × Fin c,
      B + k.val * c + j.val ≠ blockAddr C startRow startCol stride x) :
    ∃ act m', matrixMatrixMultiply (K := K) kRowA kColA kRowB kColB op A r n B c C startRow startCol
        stride = some act ∧
      act m = some ((), m') ∧
      Updated op (blockAddr C startRow startCol stride)
        (fun x : Fin r × Fin c => (X * Y) x.1 x.2) m m' := by
  have hd : (kRowA.isSome && kColA.isSome && kRowB.isSome && kColB.isSome) = false := by
    rcases dyn with rfl | rfl | rfl | rfl <;> simp
  obtain ⟨m', e, h⟩ := (mm_writes (op := op) (setting_of hX hY fit alloc sepA sepB)).run
  refine ⟨mmNaive op A r n B c C startRow startCol stride, m', ?_, e, upd_updated (fun x => ?_) h⟩
  · simp [matrixMatrixMultiply, hd, dim_of k1, dim_of k2, dim_of k4]
  · rw [prodEntry, Matrix.mul_apply, Finset.sum_range]
    simp only [ext2_fin]

/-- **C59**, `C op Aᵀ * B`. -/
theorem matrixTransposeMatrixMultiply_correct {r n c : ℕ} {m : Mem K} {op : ℤ}
    {A B C startRow startCol stride : ℕ} {X : Matrix (Fin n) (Fin r) K}
    {Y : Matrix (Fin n) (Fin c) K} {kRowA kColA kRowB kColB : Option ℕ}
    (k1 : kRowA = none ∨ kRowA = some n) (k2 : kColA = none ∨ kColA = some r)
    (k4 : kColB = none ∨ kColB = some c)
    (dyn : kRowA = none ∨ kColA = none ∨ kRowB = none ∨ kColB = none)
    (hX : HoldsMatrix m A X) (hY : HoldsMatrix m B Y) (fit : startCol + c ≤ stride)
    (alloc : ∀ x : Fin r × Fin c, (m (blockAddr C startRow startCol stride x)).isSome)
    (sepA : ∀ k : Fin n, ∀ i : Fin r, ∀ x : Fin r × Fin c,
      A + k.val * r + i.val ≠ blockAddr C startRow startCol stride x)
    (sepB : ∀ k : Fin n, ∀ j : Fin c, ∀ x : Fin r × Fin c,
      B + k.val * c + j.val ≠ blockAddr C startRow startCol stride x) :
    ∃ act m', matrixTransposeMatrixMultiply (K := K) kRowA kColA kRowB kColB op A n r B c C startRow
        startCol stride = some act ∧
      act m = some ((), m') ∧
      Updated op (blockAddr C startRow startCol stride)
        (fun x : Fin r × Fin c => (X.transpose * Y) x.1 x.2) m m' := by
  have hd : (kRowA.isSome && kColA.isSome && kRowB.isSome && kColB.isSome) = false := by
    rcases dyn with rfl | rfl | rfl | rfl <;> simp
  obtain ⟨m', e, h⟩ := (mtm_writes (op := op) (setting_of hX hY fit alloc sepA sepB)).run
  refine ⟨mtmNaive op A n r B c C startRow startCol stride, m', ?_, e, upd_updated (fun x => ?_) h⟩
  · simp [matrixTransposeMatrixMultiply, hd, dim_of k1, dim_of k2, dim_of k4]
  · rw [prodEntry, Matrix.mul_apply, Finset.sum_range]
    simp only [ext2_fin, Matrix.transpose_apply]

/-- **C59**, `c op A * b`. -/
theorem matrixVectorMultiply_correct {r n : ℕ} {m : Mem K} {op : ℤ} {A b c : ℕ}
    {X : Matrix (Fin r) (Fin n) K} {x : Fin n → K} {kRowA kColA : Option ℕ}
    (k1 : kRowA = none ∨ kRowA = some r) (k2 : kColA = none ∨ kColA = some n)
    (hX : HoldsMatrix m A X) (hx : HoldsVector m b x)
    (alloc : ∀ i : Fin r, (m (c + i.val)).isSome)
    (sepA : ∀ i : Fin r, ∀ k : Fin n, ∀ i' : Fin r, A + i.val * n + k.val ≠ c + i'.val)
    (sepB : ∀ k : Fin n, ∀ i : Fin r, b + k.val ≠ c + i.val) :
    ∃ m', matrixVectorMultiply kRowA kColA op A r n b c m = some ((), m') ∧
      Updated op (fun i : Fin r => c + i.val) (X.mulVec x) m m' := by
  obtain ⟨m', e, h⟩ := (mv_writes (op := op) (m := m) (A := A) (rowA := r) (colA := n) (b := b)
    (c := c) (f := ext2 X) (x := ext1 x)
    { hA := holds_ext hX, hB := holdsV_ext hx,
      alloc := fun i hi => Option.isSome_iff_exists.1 (alloc ⟨i, hi⟩),
      sepA := fun i hi j hj i' hi' => sepA ⟨i, hi⟩ ⟨j, hj⟩ ⟨i', hi'⟩,
      sepB := fun k hk i hi => sepB ⟨k, hk⟩ ⟨i, hi⟩ }).run
  refine ⟨m', ?_, upd_updatedV (fun i => ?_) h⟩
  · rw [matrixVectorMultiply, dim_of k1, dim_of k2]; exact e
  · rw [Finset.sum_range, Matrix.mulVec, dotProduct]
    simp only [ext2_fin, ext1_fin]

/-- **C59**, `c op Aᵀ * b`. -/
theorem matrixTransposeVectorMultiply_correct {r n : ℕ} {m : Mem K} {op : ℤ} {A b c : ℕ}
    {X : Matrix (Fin n) (Fin r) K} {x : Fin n → K} {kRowA kColA : Option ℕ}
    (k1 : kRowA = none ∨ kRowA = some n) (k2 : kColA = none ∨ kColA = some r)
    (hX : HoldsMatrix m A X) (hx : HoldsVector m b x)
    (alloc : ∀ i : Fin r, (m (c + i.val)).isSome)
    (sepA : ∀ k : Fin n, ∀ i : Fin r, ∀ i' : Fin r, A + k.val * r + i.val ≠ c + i'.val)
    (sepB : ∀ k : Fin n, ∀ i : Fin r, b + k.val ≠ c + i.val) :
    ∃ m', matrixTransposeVectorMultiply kRowA kColA op A n r b c m = some ((), m') ∧
      Updated op (fun i : Fin r => c + i.val) (X.transpose.mulVec x) m m' := by
  obtain ⟨m', e, h⟩ := (mtv_writes (op := op) (m := m) (A := A) (rowA := n) (colA := r) (b := b)
    (c := c) (f := ext2 X) (x := ext1 x)
    { hA := holds_ext hX, hB := holdsV_ext hx,
      alloc := fun i hi => Option.isSome_iff_exists.1 (alloc ⟨i, hi⟩),
      sepA := fun i hi j hj i' hi' => sepA ⟨i, hi⟩ ⟨j, hj⟩ ⟨i', hi'⟩,
      sepB := fun k hk i hi => sepB ⟨k, hk⟩ ⟨i, hi⟩ }).run
  refine ⟨m', ?_, upd_updatedV (fun i => ?_) h⟩
  · rw [matrixTransposeVectorMultiply, dim_of k1, dim_of k2]; exact e
  · rw [Finset.sum_range, Matrix.mulVec, dotProduct]
    simp only [ext2_fin, ext1_fin, Matrix.transpose_apply]

end Ceres.SmallBlas
