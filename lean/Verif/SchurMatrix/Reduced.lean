import Verif.SchurMatrix.Eliminated

/-!
# The eliminator computes the reduced least squares problem
-/

noncomputable section

namespace Ceres.SchurMatrix

open Matrix Ceres.BlockSparse Ceres.InnerProduct Ceres.Direct Ceres.Schur Ceres.SchurThreads Ceres.SchurDirect

section Blocks

variable {sz : ℕ → ℕ} {ne nb : ℕ} {rows : List (Row sz)} {D : Option (BVec sz)} {inv : Inverter}

/-- The e blocks that go with given f blocks are the best. -/
theorem best_e (h : Ordered ne nb rows) (hi : ∀ ch ∈ (detectChunks ne rows).1, Inverts inv (eteOf D ch)) {X : BVec sz}
    (hX : ∀ ch ∈ (detectChunks ne rows).1, X ch.1 = inv _ (eteOf D ch) *ᵥ backRhs ch X)
    (hX0 : ∀ b, b < ne → b ∉ (detectChunks ne rows).1.map Prod.fst → X b = 0) {W : BVec sz}
    (hW : ∀ b, ne ≤ b → b < nb → W b = X b) : cost nb rows D X ≤ cost nb rows D W := by
  rw [cost_expand h.bound D X W, Finset.sum_eq_zero]
  · have := energy_nonneg nb rows D (W - X)
    linarith
  · intro b hb
    rw [Finset.mem_range] at hb
    rcases Nat.lt_or_ge b ne with hbe | hbe
    · rw [grad_e_zero h hi hX hX0 hbe, dotProduct_zero]
    · have : (W - X) b = 0 := by
        rw [Pi.sub_apply, hW b hbe hb, sub_self]
      rw [this, zero_dotProduct]

theorem blocks_reduced (h : Ordered ne nb rows) (hnb : ne ≤ nb)
    (hi : ∀ ch ∈ (detectChunks ne rows).1, Inverts inv (eteOf D ch)) :
    ∃ c : ℝ, ∀ z : BVec sz, ∃ X : BVec sz, (∀ b, ne ≤ b → X b = z b) ∧
      cost nb rows D X = ∑ x ∈ Finset.Ico ne nb, z x ⬝ᵥ ∑ y ∈ Finset.Ico ne nb, schurLhs inv ne rows D x y *ᵥ z y -
        2 * ∑ x ∈ Finset.Ico ne nb, z x ⬝ᵥ schurRhs inv ne rows D x + c ∧
      ∀ W : BVec sz, (∀ b, ne ≤ b → b < nb → W b = z b) → cost nb rows D X ≤ cost nb rows D W := by
  set X : BVec sz → BVec sz := completed inv ne D (detectChunks ne rows).1 with hX
  have spec := fun z => completed_spec (inv := inv) (D := D) h (List.Perm.refl _) z
  have hXf : ∀ (z : BVec sz) b, ne ≤ b → X z b = z b := fun z => (spec z).1
  have ge : ∀ z b, b < ne → grad rows D (X z) b = 0 := fun z b hb => grad_e_zero h hi (spec z).2.1 (spec z).2.2 hb
  have gf : ∀ z x, ne ≤ x → x < nb → grad rows D (X z) x =
      ∑ y ∈ Finset.Ico ne nb, schurLhs inv ne rows D x y *ᵥ z y - schurRhs inv ne rows D x := by
    intro z x hx hx'
    rw [grad_f h (spec z).2.1 hx hx']
    congr 1
    refine Finset.sum_congr rfl fun y hy => ?_
    rw [(spec z).1 y (Finset.mem_Ico.1 hy).1]
  have split : ∀ (u : BVec sz) (z : BVec sz), ∑ b ∈ Finset.range nb, u b ⬝ᵥ grad rows D (X z) b =
      ∑ x ∈ Finset.Ico ne nb, u x ⬝ᵥ (∑ y ∈ Finset.Ico ne nb, schurLhs inv ne rows D x y *ᵥ z y -
        schurRhs inv ne rows D x) := by
    intro u z
    rw [Finset.range_eq_Ico, ← Finset.sum_Ico_consecutive _ (Nat.zero_le ne) hnb, Finset.sum_eq_zero, zero_add]
    · refine Finset.sum_congr rfl fun x hx => ?_
      rw [Finset.mem_Ico] at hx
      rw [gf z x hx.1 hx.2]
    · intro b hb
      rw [ge z b (Finset.mem_Ico.1 hb).2, dotProduct_zero]
  refine ⟨cost nb rows D (X 0), fun z => ⟨X z, (spec z).1, ?_, fun W hW =>
    best_e h hi (spec z).2.1 (spec z).2.2 fun b hb hb' => ?_⟩⟩
  · have e1 := cost_expand h.bound D (X 0) (X z)
    have e2 := cost_expand h.bound D (X z) (X 0)
    rw [energy_sub_comm] at e2
    rw [split] at e1 e2
    have k1 : ∑ x ∈ Finset.Ico ne nb, (X z - X 0) x ⬝ᵥ (∑ y ∈ Finset.Ico ne nb, schurLhs inv ne rows D x y *ᵥ
        (0 : BVec sz) y - schurRhs inv ne rows D x) = -∑ x ∈ Finset.Ico ne nb, z x ⬝ᵥ schurRhs inv ne rows D x := by
      rw [← Finset.sum_neg_distrib]
      refine Finset.sum_congr rfl fun x hx => ?_
      rw [Finset.mem_Ico] at hx
      rw [Pi.sub_apply, hXf z x hx.1, hXf 0 x hx.1, Finset.sum_eq_zero]
      · simp
      · intro y _
        simp
    have k2 : ∑ x ∈ Finset.Ico ne nb, (X 0 - X z) x ⬝ᵥ (∑ y ∈ Finset.Ico ne nb, schurLhs inv ne rows D x y *ᵥ
        z y - schurRhs inv ne rows D x) =
        -∑ x ∈ Finset.Ico ne nb, z x ⬝ᵥ ∑ y ∈ Finset.Ico ne nb, schurLhs inv ne rows D x y *ᵥ z y +
          ∑ x ∈ Finset.Ico ne nb, z x ⬝ᵥ schurRhs inv ne rows D x := by
      rw [← Finset.sum_neg_distrib, ← Finset.sum_add_distrib]
      refine Finset.sum_congr rfl fun x hx => ?_
      rw [Finset.mem_Ico] at hx
      rw [Pi.sub_apply, hXf z x hx.1, hXf 0 x hx.1]
      simp only [Pi.zero_apply, zero_sub, neg_dotProduct, dotProduct_sub]
      ring
    rw [k1] at e1
    rw [k2] at e2
    linarith
  · rw [hW b hb hb', (spec z).1 b hb]

end Blocks

/-! ## On flat arrays -/

variable {bs : BS} {ne : ℕ} {inv : Inverter} {call : Call}

theorem laid_call (hf : Fits ne bs call) : Laid 0 bs.cols := by
  have := hf.ok.bs.cols
  rwa [hf.structure_] at this

theorem numCols_call (hf : Fits ne bs call) : call.A.numCols = eCols bs ne + fCols bs ne := by
  rw [hf.ok.numCols, hf.structure_, cols_split bs ne]

theorem cost_call (hf : Fits ne bs call) (w : Vec) :
    cost bs.cols.length (rowsOf bs call.A.values call.b) (call.D.map (blocksOf bs)) (blocksOf bs w) =
      lsq call.A.numRows (eCols bs ne + fCols bs ne) call.A.entry call.b call.D w := by
  have := cost_flat hf.ok call.b call.D w
  rw [hf.structure_, numCols_call hf] at this
  rw [this]

/-- The last elements of a vector, by blocks. -/
theorem ends_blocks (hf : Fits ne bs call) (w z : Vec) : (∀ p < fCols bs ne, w (eCols bs ne + p) = z p) ↔
    ∀ b, ne ≤ b → b < bs.cols.length → blocksOf bs w b = fun i : Fin (szOf bs b) => z (fPos bs ne b + i) := by
  have hc := laid_call hf
  constructor
  · intro h b hb hb'
    funext i
    have := h (fPos bs ne b + i) (by have := fPos_bound hb hb'; have := i.2; omega)
    rw [← Nat.add_assoc, ← fPos_eq hc hb hb'] at this
    exact this
  · intro h p hp
    obtain ⟨b, hb, hb', i, hi', rfl, -⟩ := f_split hp
    have := congrFun (h b hb hb') ⟨i, hi'⟩
    rw [← Nat.add_assoc, ← fPos_eq hc hb hb']
    exact this

theorem schur_isReduced (hf : Fits ne bs call) (hinv : InvertsFullRank inv)
    {H : Buf} (hH : ∀ x y, ne ≤ x → x < bs.cols.length → ne ≤ y → y < bs.cols.length →
      ∀ (i : Fin (szOf bs x)) (j : Fin (szOf bs y)), H (fPos bs ne x + i) (fPos bs ne y + j) =
        schurLhs inv ne (rowsOf bs call.A.values call.b) (call.D.map (blocksOf bs)) x y i j)
    {r : Vec} (hr : ∀ x, ne ≤ x → x < bs.cols.length → ∀ i : Fin (szOf bs x), r (fPos bs ne x + i) =
      schurRhs inv ne (rowsOf bs call.A.values call.b) (call.D.map (blocksOf bs)) x i) :
    ∃ c, IsReduced call.A.numRows (eCols bs ne) (fCols bs ne) call.A.entry call.b call.D H r c := by
  have ho := ordered_call hf
  have hi := inverts_call hf hinv
  have hc := laid_call hf
  obtain ⟨c, hred⟩ := blocks_reduced (inv := inv) ho hf.blocks hi
  refine ⟨c, ?_, fun z => ?_⟩
  · intro p hp q hq
    obtain ⟨x, hx, hx', i, hi', rfl, -⟩ := f_split hp
    obtain ⟨y, hy, hy', j, hj', rfl, -⟩ := f_split hq
    rw [hH x y hx hx' hy hy' ⟨i, hi'⟩ ⟨j, hj'⟩, hH y x hy hy' hx hx' ⟨j, hj'⟩ ⟨i, hi'⟩, ← schurLhs_symm hi x y]
    rfl
  · obtain ⟨X, k1, k2, k3⟩ := hred fun b i => z (fPos bs ne b + i)
    have hq : quadratic (fCols bs ne) H z - 2 * ∑ p ∈ Finset.range (fCols bs ne), r p * z p + c =
        cost bs.cols.length (rowsOf bs call.A.values call.b) (call.D.map (blocksOf bs)) X := by
      rw [k2]
      congr 2
      · unfold quadratic
        rw [← f_sum bs ne fun p => ∑ q ∈ Finset.range (fCols bs ne), z p * H p q * z q]
        refine Finset.sum_congr rfl fun x hx => ?_
        rw [Finset.mem_Ico] at hx
        simp only [dotProduct]
        refine Finset.sum_congr rfl fun i _ => ?_
        rw [← f_sum bs ne fun q => z (fPos bs ne x + i) * H (fPos bs ne x + i) q * z q, Finset.sum_apply, Finset.mul_sum]
        refine Finset.sum_congr rfl fun y hy => ?_
        rw [Finset.mem_Ico] at hy
        rw [mulVec, dotProduct, Finset.mul_sum]
        refine Finset.sum_congr rfl fun j _ => ?_
        rw [hH x y hx.1 hx.2 hy.1 hy.2 i j]
        ring
      · congr 1
        rw [← f_sum bs ne fun p => r p * z p]
        refine Finset.sum_congr rfl fun x hx => ?_
        rw [Finset.mem_Ico] at hx
        simp only [dotProduct]
        refine Finset.sum_congr rfl fun i _ => ?_
        rw [hr x hx.1 hx.2 i]
        ring
    refine ⟨?_, ?_⟩
    · obtain ⟨w, rfl⟩ := exists_flat hc X
      exact ⟨w, (ends_blocks hf w z).2 fun b hb _ => k1 b hb, by rw [hq, cost_call hf]⟩
    · rintro c ⟨w, hw, rfl⟩
      rw [hq, ← cost_call hf]
      exact k3 _ ((ends_blocks hf w z).1 hw)

/-- The matrix of the reduced problem is the Schur complement. -/
theorem isReduced_posDef {m e f : ℕ} {A : Buf} {b : Vec} {D : Option Vec} {S : Buf} {r : Vec} {c : ℝ}
    (h : IsReduced m e f A b D S r c) (hS : ∃ T, IsSchur m e f A D T ∧ ∀ p < f, ∀ q < f, T p q = S p q)
    (hr : Regular m (e + f) A D) : PosDef f S := by
  obtain ⟨T, hT, he⟩ := hS
  intro x hx
  have := isSchur_posDef hT hr x hx
  refine lt_of_lt_of_eq this ?_
  refine Finset.sum_congr rfl fun i hi => Finset.sum_congr rfl fun j hj => ?_
  rw [he i (Finset.mem_range.1 hi) j (Finset.mem_range.1 hj)]

end Ceres.SchurMatrix
