import Verif.IterSchur.Model
import Verif.PartitionedView.ImplicitMain

/-!
# The power series on flat storage, and its first terms as an initial guess
-/

noncomputable section

namespace Ceres.IterSchur

open Matrix Ceres.Tasks Ceres.BlockSparse Ceres.Direct Ceres.CG
open Ceres.PartitionedView
open Ceres.SchurJacobi (front extend)

theorem add_step (n : ℕ) (m : Mem ℝ) : Step 0 n true false addTask m fun i => m (.y i) + m (.x i) where
  runs := fun free i tid hi p hm => by
    rw [Nat.zero_add] at hm ⊢
    refine .readMine (Or.inr (by simp [stepKind])) (.readFixed (by simp [stepKind, hi]) ?_)
    rw [hm]
    exact .write (Or.inr (by simp [stepKind])) (.ret _)

theorem gives_add {threads : ℕ} (ht : 0 < threads) {n : ℕ} {x y v : ℕ → ℝ} {u w : Fin n → ℝ}
    (hx : ∀ i : Fin n, x i = u i) (hy : ∀ i : Fin n, y i = w i) : Gives (assign threads n addTask x y v) n (w + u) y := by
  refine ⟨_, step_run (add_step n (mem x y v)) ht, fun i => ?_, fun i hi => ?_⟩
  · rw [if_pos ⟨Nat.zero_le _, by omega⟩]
    show y (i - 0) + x (i - 0) = _
    rw [Nat.sub_zero, hy, hx]
    rfl
  · rw [if_neg (by omega)]; rfl

theorem gives_copy {threads : ℕ} (ht : 0 < threads) {n : ℕ} {x y v : ℕ → ℝ} {u : Fin n → ℝ}
    (hx : ∀ i : Fin n, x i = u i) : Gives (assign threads n (copyTask 0) x y v) n u y := by
  refine ⟨_, copy_run ht 0 n x y v, fun i => ?_, fun i hi => ?_⟩
  · rw [if_pos ⟨Nat.zero_le _, by omega⟩, Nat.sub_zero, hx]
  · rw [if_neg (by omega)]

/-- A call whose temporary vectors hold anything. -/
theorem gives_exists {n : ℕ} {v : Fin n → ℝ} {rest : ℕ → ℝ} {α : Type} [Nonempty α] {R : α → Does (ℕ → ℝ)}
    (h : ∀ a, Gives (R a) n v rest) : Gives (fun o => ∃ a, R a o) n v rest := by
  obtain ⟨a0⟩ := ‹Nonempty α›
  obtain ⟨y, h1, h2, h3⟩ := h a0
  refine ⟨y, fun o => ⟨?_, fun ho => ⟨a0, (h1 o).2 ho⟩⟩, h2, h3⟩
  rintro ⟨a, ha⟩
  obtain ⟨z, g1, g2, g3⟩ := h a
  rw [(g1 o).1 ha]
  congr 1
  funext i
  by_cases hi : i < n
  · exact (g2 ⟨i, hi⟩).trans (h2 ⟨i, hi⟩).symm
  · exact (g3 i (by omega)).trans (h3 i (by omega)).symm

instance : Nonempty (Tmp ℝ) := ⟨⟨0, 0, 0, 0⟩⟩

theorem front_eq {n : ℕ} {y : ℕ → ℝ} {u : Fin n → ℝ} (h : ∀ i : Fin n, y i = u i) : front n y = u := funext h

variable {M : BMat ℝ} {ne threads : ℕ} {V : View} {D : Option (ℕ → ℝ)} {b : ℕ → ℝ} {S : Implicit ℝ}

section
variable (hM : M.Ok) (ho : Ordered M.bs ne) (hV : create M ne threads = some V) (ht : 0 < threads)
  (hS : Holds S V M ne D b true)
include hM ho hV ht hS

theorem gives_seriesLoop (n : ℤ) (thr : ℝ) : ∀ (fuel i : ℕ) (term prev y : ℕ → ℝ),
    Gives (seriesLoop S M n thr fuel i term prev y) (colsF M.bs ne)
      ((sysOf M ne D b).seriesLoop n thr fuel i (front _ prev) (front _ y)) y := by
  have hv := create_isView ho hV
  have hF : S.A.numColsF = colsF M.bs ne := by rw [hS.view]; exact hv.numColsF
  have hT : S.A.threads = threads := by rw [hS.view]; exact hv.numThreads
  intro fuel
  induction fuel with
  | zero =>
    intro i term prev y
    exact ⟨y, fun _ => Iff.rfl, fun _ => rfl, fun _ _ => rfl⟩
  | succ fuel ih =>
    intro i term prev y
    unfold seriesLoop Schur.Sys.seriesLoop
    rw [hF, hT]
    refine (gives_setZero ht _ _).bind fun t0 ht0 _ => ?_
    have h1 := gives_exists fun tmp => gives_powerSeries hM ho hV ht hS tmp prev t0
    obtain ⟨t1, k1, k2, -⟩ := h1
    have e0 : (fun i : Fin (colsF M.bs ne) => t0 i) = 0 := funext ht0
    have k3 : front (colsF M.bs ne) t1 = (sysOf M ne D b).powerOp (front _ prev) 0 := by
      rw [← e0]
      exact funext k2
    obtain ⟨y1, g1, g2, g3⟩ := gives_add ht (x := t1) (y := y) (v := t1) (u := (sysOf M ne D b).powerOp (front _ prev) 0)
      (w := front _ y) (fun i => congrFun k3 i) (fun _ => rfl)
    have g4 : front (colsF M.bs ne) y1 = front _ y + (sysOf M ne D b).powerOp (front _ prev) 0 := funext g2
    have hstep : ∀ o, Does.bind (fun o => ∃ tmp, powerSeriesOperator S M tmp prev t0 o) (fun t1 =>
        Does.bind (assign threads (colsF M.bs ne) addTask t1 y t1) fun y1 =>
        if n ≤ i ∨ norm2 (front (colsF M.bs ne) t1) < thr then fun o => o = some y1
        else seriesLoop S M n thr fuel (i + 1) prev t1 y1) o ↔
        (if n ≤ i ∨ norm2 (front (colsF M.bs ne) t1) < thr then fun o => o = some y1
        else seriesLoop S M n thr fuel (i + 1) prev t1 y1) o :=
      fun o => (bind_iff k1 o).trans (bind_iff g1 o)
    by_cases hc : n ≤ i ∨ norm2 ((sysOf M ne D b).powerOp (front _ prev) 0) < thr
    · refine ⟨y1, fun o => (hstep o).trans ?_, fun j => ?_, g3⟩
      · rw [k3, if_pos hc]
      · simp only
        rw [if_pos hc]
        exact congrFun g4 j
    · obtain ⟨z, z1, z2, z3⟩ := ih (i + 1) prev t1 y1
      refine ⟨z, fun o => (hstep o).trans ?_, fun j => ?_, fun j hj => (z3 j hj).trans (g3 j hj)⟩
      · rw [k3, if_neg hc]
        exact z1 o
      · simp only
        rw [if_neg hc, z2, k3, g4]

/-- **The power series on flat storage** is the one of C75, for every schedule. -/
theorem gives_series (n : ℤ) (tol : ℝ) (term prev x y : ℕ → ℝ) :
    Gives (powerSeries S M n tol term prev x y) (colsF M.bs ne)
      ((sysOf M ne D b).powerSeries n tol (front _ x) (front _ y)) y := by
  have hv := create_isView ho hV
  have hF : S.A.numColsF = colsF M.bs ne := by rw [hS.view]; exact hv.numColsF
  have hT : S.A.threads = threads := by rw [hS.view]; exact hv.numThreads
  obtain ⟨f, hf, hf1, hf2, hf3, hf4⟩ := hS.ftf rfl
  unfold powerSeries Schur.Sys.powerSeries
  rw [hF, hT, hf]
  obtain ⟨y0, a1, a2, a3⟩ := gives_setZero (K := ℝ) ht (colsF M.bs ne) y
  obtain ⟨y1, b1, b2, b3⟩ := gives_mulBlocks hf1 ht hf2 hf3 hf4 (x := x) (y := y0) (u := front _ x) (w := 0)
    (fun _ => rfl) a2
  have b4 : front (colsF M.bs ne) y1 = 0 + (sysOf M ne D b).ftfInv *ᵥ front _ x := funext b2
  obtain ⟨p1, c1, c2, -⟩ := gives_copy ht (x := y1) (y := prev) (v := y1)
    (u := 0 + (sysOf M ne D b).ftfInv *ᵥ front _ x) (fun i => congrFun b4 i)
  have c4 : front (colsF M.bs ne) p1 = 0 + (sysOf M ne D b).ftfInv *ᵥ front _ x := funext c2
  obtain ⟨z, z1, z2, z3⟩ := gives_seriesLoop hM ho hV ht hS n (tol * norm2 (front (colsF M.bs ne) y1))
    (max 1 n.toNat) 1 term p1 y1
  refine ⟨z, fun o => ?_, fun i => ?_, fun i hi => by rw [z3 i hi, b3 i hi, a3 i hi]⟩
  · rw [bind_iff a1]
    simp only
    rw [bind_iff b1, bind_iff c1]
    exact z1 o
  · rw [z2, b4, c4]

end

/-! ## The first terms of the series as an initial guess -/

section
variable {m p q : ℕ} {s : Schur.Sys m p q}

open Ceres.Schur

/-- Whatever the tolerance, the loop adds up some terms. -/
theorem seriesLoop_terms (s : Sys m p q) (n : ℤ) (thr : ℝ) (x : CG.Vec q) : ∀ (fuel i : ℕ) (y : CG.Vec q), 1 ≤ i →
    y = ∑ k ∈ Finset.range i, s.seriesTerm k *ᵥ x → ∃ K,
      s.seriesLoop n thr fuel i (s.seriesTerm (i - 1) *ᵥ x) y = ∑ k ∈ Finset.range (K + 1), s.seriesTerm k *ᵥ x := by
  intro fuel
  induction fuel with
  | zero =>
    intro i y hi hy
    exact ⟨i - 1, by rw [Nat.sub_add_cancel hi]; exact hy⟩
  | succ fuel ih =>
    intro i y hi hy
    have ht : s.powerOp (s.seriesTerm (i - 1) *ᵥ x) 0 = s.seriesTerm i *ᵥ x := by
      rw [powerOp_eq, zero_add, mulVec_mulVec, ← seriesTerm_succ, Nat.sub_add_cancel hi]
    have hy' : y + s.seriesTerm i *ᵥ x = ∑ k ∈ Finset.range (i + 1), s.seriesTerm k *ᵥ x := by
      rw [Finset.sum_range_succ, hy]
    unfold Sys.seriesLoop
    simp only
    rw [ht]
    split_ifs
    · exact ⟨i, hy'⟩
    · have := ih (i + 1) _ (by omega) hy'
      rwa [Nat.add_sub_cancel] at this

theorem powerSeries_terms (s : Sys m p q) (n : ℤ) (tol : ℝ) (x y : CG.Vec q) : ∃ K,
    s.powerSeries n tol x y = ∑ k ∈ Finset.range (K + 1), s.seriesTerm k *ᵥ x := by
  unfold Sys.powerSeries
  simp only [zero_add]
  have h0 : s.ftfInv *ᵥ x = s.seriesTerm (1 - 1) *ᵥ x := by simp [Sys.seriesTerm]
  have := seriesLoop_terms s n (tol * norm2 (s.ftfInv *ᵥ x)) x (max 1 n.toNat) 1 (s.ftfInv *ᵥ x) le_rfl
    (by simp [Sys.seriesTerm])
  rwa [← h0] at this

/-- Every row meets at most one f block. -/
def OneF (s : Schur.Sys m p q) : Prop := ∀ r i j, s.F r i ≠ 0 → s.F r j ≠ 0 → s.bf i = s.bf j

theorem ftfInv_eq (h : OneF s) : s.ftfInv = (normal s.F s.Df)⁻¹ := by
  unfold Sys.ftfInv
  rw [blockInverse_eq]
  congr 1
  ext i j
  simp only [CG.blockDiag, of_apply]
  split_ifs with hb
  · rfl
  · have hij : i ≠ j := fun h' => hb (by rw [h'])
    unfold normal
    rw [Matrix.add_apply]
    have h1 : (s.Fᵀ * s.F) i j = 0 := by
      rw [Matrix.mul_apply]
      refine Finset.sum_eq_zero fun r _ => ?_
      rw [transpose_apply]
      by_contra hne
      exact hb (h r i j (fun h0 => hne (by rw [h0, zero_mul])) fun h0 => hne (by rw [h0, mul_zero]))
    rw [h1]
    cases s.Df with
    | none => simp
    | some d => simp [diagonal_apply_ne _ hij]

/-- **The first terms of the series are not worse than zero** as a guess for the reduced system. -/
theorem guess_descends (hE : s.OneE) (hF : OneF s) (hf : s.FullRank) (n : ℤ) (tol : ℝ) (r y : CG.Vec q) :
    qf s.schur r (s.powerSeries n tol r y) ≤ 0 := by
  obtain ⟨K, hK⟩ := powerSeries_terms s n tol r y
  have hN := normalF_spd hf
  have hNB : normal s.F s.Df * s.ftfInv = 1 := by
    rw [ftfInv_eq hF]
    exact mul_nonsing_inv _ hN.isUnit_det
  have hS : s.schur = normal s.F s.Df - s.powerC := by
    unfold Sys.schur Sys.powerC
    simp only [Matrix.mul_assoc]
  -- telescoping
  have htel : ∀ K, s.schur * ∑ k ∈ Finset.range (K + 1), s.seriesTerm k = 1 - s.powerC * s.seriesTerm K := by
    intro K
    induction K with
    | zero =>
      rw [Finset.sum_range_one, hS, Matrix.sub_mul]
      simp only [Sys.seriesTerm, pow_zero, Matrix.one_mul, hNB]
    | succ K ih =>
      rw [Finset.sum_range_succ, Matrix.mul_add, ih, hS, Matrix.sub_mul, seriesTerm_succ]
      have : normal s.F s.Df * (s.ftfInv * s.powerC * s.seriesTerm K) = s.powerC * s.seriesTerm K := by
        rw [← Matrix.mul_assoc, ← Matrix.mul_assoc, hNB, Matrix.one_mul]
      rw [this]
      abel
  have hgood := seriesTerm_good hE hf
  set T := ∑ k ∈ Finset.range (K + 1), s.seriesTerm k with hT
  have hTs : T.IsSymm := by
    unfold Matrix.IsSymm
    rw [hT, transpose_sum]
    exact Finset.sum_congr rfl fun i _ => (hgood i).1.eq
  have hx : s.powerSeries n tol r y = T *ᵥ r := by rw [hK, hT, Matrix.sum_mulVec]
  have hprod : ∀ k, s.seriesTerm k * (s.powerC * s.seriesTerm K) = s.seriesTerm (k + (K + 1)) := by
    intro k
    have : s.seriesTerm (k + (K + 1)) = (s.ftfInv * s.powerC) ^ k * s.seriesTerm (K + 1) := by
      unfold Sys.seriesTerm
      rw [pow_add, Matrix.mul_assoc]
    rw [this, seriesTerm_succ]
    unfold Sys.seriesTerm
    simp only [Matrix.mul_assoc]
  rw [hx]
  unfold qf
  rw [mulVec_mulVec, htel, sub_mulVec, one_mulVec, dotProduct_sub]
  have e1 : (T *ᵥ r) ⬝ᵥ r = r ⬝ᵥ T *ᵥ r := dotProduct_comm _ _
  have e2 : (T *ᵥ r) ⬝ᵥ ((s.powerC * s.seriesTerm K) *ᵥ r) =
      ∑ k ∈ Finset.range (K + 1), r ⬝ᵥ s.seriesTerm (k + (K + 1)) *ᵥ r := by
    have : (T *ᵥ r) ⬝ᵥ ((s.powerC * s.seriesTerm K) *ᵥ r) = r ⬝ᵥ (T * (s.powerC * s.seriesTerm K)) *ᵥ r := by
      rw [← mulVec_mulVec r T, dotProduct_mulVec r T, ← mulVec_transpose, hTs.eq]
    rw [this, hT, Finset.sum_mul, Matrix.sum_mulVec, dotProduct_sum]
    exact Finset.sum_congr rfl fun k _ => by rw [hprod]
  have n1 : 0 ≤ r ⬝ᵥ T *ᵥ r := by
    rw [hT, Matrix.sum_mulVec, dotProduct_sum]
    exact Finset.sum_nonneg fun k _ => (hgood k).2 r
  have n2 : 0 ≤ ∑ k ∈ Finset.range (K + 1), r ⬝ᵥ s.seriesTerm (k + (K + 1)) *ᵥ r :=
    Finset.sum_nonneg fun k _ => (hgood _).2 r
  rw [e1, e2]
  linarith

end

end Ceres.IterSchur
