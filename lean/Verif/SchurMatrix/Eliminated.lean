import Verif.SchurMatrix.Spec
import Verif.SchurDirect.Core

/-!
# The eliminator computes the Schur complement
-/

noncomputable section

namespace Ceres.SchurMatrix

open Matrix Ceres.BlockSparse Ceres.InnerProduct Ceres.Direct Ceres.Schur Ceres.SchurThreads Ceres.SchurDirect

/-! ## Consequences -/

/-- There is at most one. -/
theorem isSchur_unique {m e f : ℕ} {A : Buf} {D : Option Vec} {S T : Buf} (hS : IsSchur m e f A D S)
    (hT : IsSchur m e f A D T) {p q : ℕ} (hp : p < f) (hq : q < f) : S p q = T p q := by
  have h : ∀ z, quadratic f S z = quadratic f T z := fun z => (hS.least z).unique (hT.least z)
  have one : ∀ (M : Buf) (p : ℕ), p < f → quadratic f M (fun i => if i = p then 1 else 0) = M p p := by
    intro M p hp
    unfold quadratic
    rw [Finset.sum_eq_single p, Finset.sum_eq_single p]
    · simp
    · intro i _ hi; simp [hi]
    · intro h; exact absurd (Finset.mem_range.2 hp) h
    · intro i _ hi
      refine Finset.sum_eq_zero fun j _ => ?_
      simp [hi]
    · intro h; exact absurd (Finset.mem_range.2 hp) h
  have two : ∀ (M : Buf), quadratic f M (fun i => (if i = p then 1 else 0) + if i = q then 1 else 0) =
      M p p + M p q + M q p + M q q := by
    intro M
    unfold quadratic
    simp only [add_mul, mul_add, Finset.sum_add_distrib, ite_mul, one_mul, zero_mul, mul_ite, mul_one, mul_zero,
      Finset.sum_ite_eq', Finset.mem_range, hp, hq, if_true]
    ring
  have h1 := h (fun i => if i = p then 1 else 0)
  have h2 := h (fun i => if i = q then 1 else 0)
  have h3 := h (fun i => (if i = p then 1 else 0) + if i = q then 1 else 0)
  rw [one _ _ hp, one _ _ hp] at h1
  rw [one _ _ hq, one _ _ hq] at h2
  rw [two, two] at h3
  have := hS.symm p hp q hq
  have := hT.symm p hp q hq
  linarith

/-- If the minimiser of the least squares problem is unique it is positive definite. -/
theorem isSchur_posDef {m e f : ℕ} {A : Buf} {D : Option Vec} {S : Buf} (hS : IsSchur m e f A D S)
    (hr : Regular m (e + f) A D) : PosDef f S := by
  rintro z ⟨p, hp, hz⟩
  obtain ⟨w, hw, hc⟩ := (hS.least z).1
  change 0 < quadratic f S z
  rw [hc]
  refine lt_of_le_of_ne ?_ fun h0 => ?_
  · unfold lsq
    refine add_nonneg (Finset.sum_nonneg fun _ _ => sq_nonneg _) ?_
    cases D with
    | none => exact le_rfl
    | some d => exact Finset.sum_nonneg fun _ _ => sq_nonneg _
  · obtain ⟨h1, h2⟩ := lsq_zero h0.symm
    have := hr w h1 h2 (e + p) (by omega)
    rw [hw p hp] at this
    exact hz this

/-! ## In blocks -/

section Blocks

variable {sz : ℕ → ℕ} {ne nb : ℕ} {rows : List (Row sz)} {D : Option (BVec sz)} {inv : Inverter}

theorem schurRhs_zero (h0 : ∀ r ∈ rows, r.rhs = 0) (x : ℕ) : schurRhs inv ne rows D x = 0 := by
  unfold schurRhs
  rw [list_sum_zero, list_sum_zero, add_zero]
  · intro r hr
    rw [h0 r (detectChunks_rest_mem ne rows hr), mulVec_zero]
  · intro ch hch
    unfold chunkRhs
    have : ∀ r ∈ ch.2, r.rhs = 0 := fun r hr => h0 r (detectChunks_mem ne rows hch hr)
    have hg : gOf ch = 0 := list_sum_zero fun r hr => by rw [this r hr, mulVec_zero]
    refine list_sum_zero fun r hr => ?_
    rw [this r hr, hg, mulVec_zero, mulVec_zero, sub_zero, mulVec_zero]

theorem blocks_least (h : Ordered ne nb rows) (hnb : ne ≤ nb) (h0 : ∀ r ∈ rows, r.rhs = 0)
    (hi : ∀ ch ∈ (detectChunks ne rows).1, Inverts inv (eteOf D ch)) (z : BVec sz) :
    ∃ X : BVec sz, (∀ b, ne ≤ b → X b = z b) ∧
      cost nb rows D X = ∑ x ∈ Finset.Ico ne nb, z x ⬝ᵥ ∑ y ∈ Finset.Ico ne nb, schurLhs inv ne rows D x y *ᵥ z y ∧
      ∀ W : BVec sz, (∀ b, ne ≤ b → b < nb → W b = z b) → cost nb rows D X ≤ cost nb rows D W := by
  obtain ⟨c1, c2, c3⟩ := completed_spec (inv := inv) (D := D) h (List.Perm.refl _) z
  set X := completed inv ne D (detectChunks ne rows).1 z with hX
  have ge : ∀ b, b < ne → grad rows D X b = 0 := fun b hb => grad_e_zero h hi c2 c3 hb
  have gf : ∀ x, ne ≤ x → x < nb → grad rows D X x = ∑ y ∈ Finset.Ico ne nb, schurLhs inv ne rows D x y *ᵥ z y := by
    intro x hx hx'
    rw [grad_f h c2 hx hx', schurRhs_zero h0, sub_zero]
    refine Finset.sum_congr rfl fun y hy => ?_
    rw [c1 y (Finset.mem_Ico.1 hy).1]
  have hce : ∀ w, cost nb rows D w = energy nb rows D w := by
    intro w
    unfold cost energy
    congr 2
    refine List.map_congr_left fun r hr => ?_
    refine Finset.sum_congr rfl fun i _ => ?_
    rw [h0 r hr]
    simp
  refine ⟨X, c1, ?_, fun W hW => ?_⟩
  · have e := cost_expand h.bound D X 0
    have hz : cost nb rows D (0 : BVec sz) = 0 := by
      rw [hce]
      unfold energy
      rw [list_sum_zero, zero_add]
      · cases D with
        | none => rfl
        | some d => simp
      · intro r _
        have : r.apply (0 : BVec sz) = 0 := by
          unfold Row.apply
          exact list_sum_zero fun c _ => by simp
        rw [this]
        simp
    have hn : energy nb rows D (0 - X) = cost nb rows D X := by
      rw [energy_sub_comm, sub_zero, hce]
    rw [hz, hn] at e
    have hs : ∑ b ∈ Finset.range nb, (0 - X) b ⬝ᵥ grad rows D X b =
        -∑ x ∈ Finset.Ico ne nb, z x ⬝ᵥ ∑ y ∈ Finset.Ico ne nb, schurLhs inv ne rows D x y *ᵥ z y := by
      rw [Finset.range_eq_Ico, ← Finset.sum_Ico_consecutive _ (Nat.zero_le ne) hnb, Finset.sum_eq_zero, zero_add,
        ← Finset.sum_neg_distrib]
      · refine Finset.sum_congr rfl fun x hx => ?_
        rw [Finset.mem_Ico] at hx
        rw [gf x hx.1 hx.2, ← neg_dotProduct]
        congr 1
        rw [← c1 x hx.1]
        simp
      · intro b hb
        rw [ge b (Finset.mem_Ico.1 hb).2, dotProduct_zero]
    rw [hs] at e
    linarith
  · rw [cost_expand h.bound D X W, Finset.sum_eq_zero]
    · have := energy_nonneg nb rows D (W - X)
      linarith
    · intro b hb
      rw [Finset.mem_range] at hb
      rcases Nat.lt_or_ge b ne with hbe | hbe
      · rw [ge b hbe, dotProduct_zero]
      · have : (W - X) b = 0 := by
          rw [Pi.sub_apply, hW b hbe hb, c1 b hbe, sub_self]
        rw [this, zero_dotProduct]

end Blocks

/-! ## On flat arrays -/

variable {bs : BS} {ne : ℕ} {inv : Inverter}

theorem schurLhs_isSchur {call : Call} (hf : Fits ne bs call) (hb : call.b = fun _ => 0) (hinv : InvertsFullRank inv)
    {H : Buf} (hH : ∀ x y, ne ≤ x → x < bs.cols.length → ne ≤ y → y < bs.cols.length →
      ∀ (i : Fin (szOf bs x)) (j : Fin (szOf bs y)), H (fPos bs ne x + i) (fPos bs ne y + j) =
        schurLhs inv ne (rowsOf bs call.A.values call.b) (call.D.map (blocksOf bs)) x y i j) :
    IsSchur call.A.numRows (eCols bs ne) (fCols bs ne) call.A.entry call.D H := by
  have ho := ordered_call hf
  have hi := inverts_call hf hinv
  have hc : Laid 0 bs.cols := by
    have := hf.ok.bs.cols
    rwa [hf.structure_] at this
  have hn : call.A.numCols = eCols bs ne + fCols bs ne := by
    rw [hf.ok.numCols, hf.structure_, cols_split bs ne]
  have hcost : ∀ w, cost bs.cols.length (rowsOf bs call.A.values call.b) (call.D.map (blocksOf bs)) (blocksOf bs w) =
      lsq call.A.numRows (eCols bs ne + fCols bs ne) call.A.entry (fun _ => 0) call.D w := by
    intro w
    have := cost_flat hf.ok call.b call.D w
    rw [hf.structure_, hn, hb] at this
    rw [hb, this]
  have h0 : ∀ r ∈ rowsOf bs call.A.values call.b, r.rhs = 0 := by
    intro r hr
    obtain ⟨R, -, rfl⟩ := List.mem_map.1 hr
    rw [hb]
    rfl
  constructor
  · intro p hp q hq
    obtain ⟨x, hx, hx', i, hi', rfl, -⟩ := f_split hp
    obtain ⟨y, hy, hy', j, hj', rfl, -⟩ := f_split hq
    rw [hH x y hx hx' hy hy' ⟨i, hi'⟩ ⟨j, hj'⟩, hH y x hy hy' hx hx' ⟨j, hj'⟩ ⟨i, hi'⟩, ← schurLhs_symm hi x y]
    rfl
  · intro z
    obtain ⟨X, k1, k2, k3⟩ := blocks_least ho hf.blocks h0 hi fun b i => z (fPos bs ne b + i)
    have hq : quadratic (fCols bs ne) H z = cost bs.cols.length (rowsOf bs call.A.values call.b)
        (call.D.map (blocksOf bs)) X := by
      rw [k2]
      unfold quadratic
      rw [← f_sum bs ne fun p => ∑ q ∈ Finset.range (fCols bs ne), z p * H p q * z q]
      refine Finset.sum_congr rfl fun x hx => ?_
      rw [Finset.mem_Ico] at hx
      simp only [dotProduct]
      refine Finset.sum_congr rfl fun i _ => ?_
      rw [← f_sum bs ne fun q => z (fPos bs ne x + i) * H (fPos bs ne x + i) q * z q, Finset.sum_apply, Finset.mul_sum]
      refine Finset.sum_congr rfl fun y hy => ?_
      rw [Finset.mem_Ico] at hy
      rw [mulVec, dotProduct, Finset.mul_sum]
      refine Finset.sum_congr rfl fun j _ => ?_
      rw [hH x y hx.1 hx.2 hy.1 hy.2 i j]
      ring
    have hf' : ∀ w : Vec, (∀ p < fCols bs ne, w (eCols bs ne + p) = z p) ↔
        ∀ b, ne ≤ b → b < bs.cols.length → blocksOf bs w b = fun i : Fin (szOf bs b) => z (fPos bs ne b + i) := by
      intro w
      constructor
      · intro h b hb hb'
        funext i
        have := h (fPos bs ne b + i) (by have := fPos_bound hb hb'; have := i.2; omega)
        rw [← Nat.add_assoc, ← fPos_eq hc hb hb'] at this
        exact this
      · intro h p hp
        obtain ⟨b, hb, hb', i, hi', rfl, -⟩ := f_split hp
        have := congrFun (h b hb hb') ⟨i, hi'⟩
        rw [← Nat.add_assoc, ← fPos_eq hc hb hb']
        exact this
    refine ⟨?_, ?_⟩
    · obtain ⟨w, rfl⟩ := exists_flat hc X
      exact ⟨w, (hf' w).2 fun b hb _ => k1 b hb, by rw [hq, hcost]⟩
    · rintro c ⟨w, hw, rfl⟩
      rw [hq, ← hcost]
      exact k3 _ ((hf' w).1 hw)

/-- It exists, for the calls that may be given to a Schur solver. -/
theorem isSchur_exists {call : Call} (hf : Fits ne bs call) :
    ∃ S, IsSchur call.A.numRows (eCols bs ne) (fCols bs ne) call.A.entry call.D S := by
  have hf' : Fits ne bs { call with b := fun _ => 0 } :=
    ⟨hf.ok, hf.structure_, hf.ordered, hf.blocks, hf.cols, hf.rows, hf.first, hf.regular⟩
  obtain ⟨H, hH⟩ := exists_buf (ne := ne) (schurLhs exactInv ne (rowsOf bs call.A.values fun _ => 0)
    (call.D.map (blocksOf bs)))
  exact ⟨H, schurLhs_isSchur hf' rfl exactInv_fullRank hH⟩

end Ceres.SchurMatrix
