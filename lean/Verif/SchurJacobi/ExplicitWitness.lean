import Verif.SchurJacobi.ExplicitMain
import Verif.SchurJacobi.Witness

/-!
# C89: cases, and a step that is worse than none
-/

noncomputable section

namespace Ceres.SchurJacobi

open Ceres.BlockSparse Ceres.InnerProduct Ceres.Direct Ceres.SchurDirect Ceres.SchurMatrix

/-- Enough iterations and no tolerance. -/
def exactOptions : CG.Options where
  minNumIterations := 0
  maxNumIterations := 500

/-- The structure of C82's example, any values, three threads: the exact solution. -/
example (v b d : Vec) (hd : ∀ j < 6, d j ≠ 0) :
    ∃ x, ExplicitSolve PartitionedView.goodLlt exactOptions Schur.exactInv 2 ⟨BMat.ofStructure points v, b, some d⟩ 3
        (some (true, x, .success)) ∧
      Minimises 5 6 (BMat.ofStructure points v).entry b (some d) x := by
  obtain ⟨⟨out, ho⟩, hall⟩ := explicit_schur (llt := PartitionedView.goodLlt) (o := exactOptions) (points_fits v b d hd)
    Schur.exactInv_fullRank (by decide : 0 < 3)
  obtain ⟨ok, x, t, rfl, h1, h2, -⟩ := hall out ho
  obtain ⟨rfl, hmin⟩ := h2 PartitionedView.goodLlt_ok (regular_diagonal hd) ⟨le_rfl, rfl, by decide, by decide⟩
  obtain rfl := h1.success.1 rfl
  exact ⟨x, ho, hmin⟩

/-! ## A step that is worse than none -/

/-- One eliminated block and two others, all of size one. -/
def fork : BS where
  cols := [⟨1, 0⟩, ⟨1, 1⟩, ⟨1, 2⟩]
  rows := [⟨⟨1, 0⟩, [⟨0, 0⟩, ⟨1, 3⟩], 0, 0⟩, ⟨⟨1, 1⟩, [⟨0, 1⟩], 0, 0⟩, ⟨⟨1, 2⟩, [⟨0, 2⟩, ⟨2, 4⟩], 0, 0⟩]

/-- The residuals `x₀ + x₁`, `x₀ - 1` and `2 x₀ + x₂`. -/
def forkCall : Call :=
  ⟨BMat.ofStructure fork fun p => if p = 2 then 2 else 1, fun k => if k = 1 then 1 else 0, none⟩

theorem fork_ok : forkCall.A.Ok :=
  ofStructure_ok (by simp [fork, Laid]) (by simp [fork, Laid]) (by decide) (by decide)

theorem fork_size : forkCall.A.numRows = 3 ∧ forkCall.A.numCols = 3 := ⟨rfl, rfl⟩

theorem fork_rows (x : Vec) : ∑ j ∈ Finset.range 3, forkCall.A.entry 0 j * x j = x 0 + x 1 ∧
    ∑ j ∈ Finset.range 3, forkCall.A.entry 1 j * x j = x 0 ∧
    ∑ j ∈ Finset.range 3, forkCall.A.entry 2 j * x j = 2 * x 0 + x 2 := by
  simp [Finset.sum_range_succ, forkCall, BMat.entry, BS.entry, BMat.ofStructure, fork, cellAt, BS.col]

theorem fork_lsq (x : Vec) : lsq 3 3 forkCall.A.entry forkCall.b none x =
    (x 0 + x 1) ^ 2 + (x 0 - 1) ^ 2 + (2 * x 0 + x 2) ^ 2 := by
  obtain ⟨h0, h1, h2⟩ := fork_rows x
  unfold lsq
  rw [Finset.sum_range_succ, Finset.sum_range_succ, Finset.sum_range_one, h0, h1, h2]
  simp [forkCall]

theorem fork_kernel {x : Vec} (h : ∀ k < 3, ∑ j ∈ Finset.range 3, forkCall.A.entry k j * x j = 0) :
    ∀ j < 3, x j = 0 := by
  obtain ⟨h0, h1, h2⟩ := fork_rows x
  rw [h 0 (by decide)] at h0
  rw [h 1 (by decide)] at h1
  rw [h 2 (by decide)] at h2
  intro j hj
  interval_cases j <;> linarith

theorem fork_regular : Regular 3 3 forkCall.A.entry none := fun _ h _ => fork_kernel h

set_option synthInstance.maxHeartbeats 200000 in
set_option synthInstance.maxSize 1024 in
theorem fork_fits : Fits 1 fork forkCall where
  ok := fork_ok
  structure_ := rfl
  ordered :=
    { sorted := by unfold CellsSorted; decide
      nonempty := by decide
      independent := by decide
      eFirst := by decide
      grouped := sublist3 (P := Between 1) (by decide) }
  blocks := by decide
  cols := by decide
  rows := by decide
  first := by decide
  regular := by
    intro x _ h _ r hr c hc _ i hi
    have hb := (laid_bounds fork_ok.bs.cols (col_mem (fork_ok.bs.ids r hr c hc))).2
    rw [← fork_ok.numCols] at hb
    exact fork_kernel h _ (by have := fork_size.2; omega)

/-- The default tolerances, at most one iteration. -/
def oneIteration : CG.Options where
  minNumIterations := 0
  maxNumIterations := 1
  rTolerance := -1
  qTolerance := 1 / 10

/-- **A step that is worse than none.**  With `max_linear_solver_iterations` 1 every call for this problem (its solution is
`(1, -1, -2)`) returns NO_CONVERGENCE, which the trust region loop takes for a usable step; its value is more than that of
no step.  It is found by correct code of the parts, for every schedule. -/
theorem worse_than_none {llt : (n : ℕ) → Matrix (Fin n) (Fin n) ℝ → Matrix (Fin n) (Fin n) ℝ}
    (hl : PartitionedView.LltOk llt) {inv : Schur.Inverter} (hinv : Schur.InvertsFullRank inv) {threads : ℕ}
    (ht : 0 < threads) :
    (∃ out, ExplicitSolve llt oneIteration inv 1 forkCall threads out) ∧
    ∀ out, ExplicitSolve llt oneIteration inv 1 forkCall threads out → ∃ x, out = some (false, x, .noConvergence) ∧
      lsq 3 3 forkCall.A.entry forkCall.b none (fun _ => 0) < lsq 3 3 forkCall.A.entry forkCall.b none x := by
  obtain ⟨h1, h2⟩ := explicit_schur (llt := llt) (o := oneIteration) fork_fits hinv ht
  refine ⟨h1, fun out ho => ?_⟩
  obtain ⟨ok, x, t, rfl, hR, -, h3⟩ := h2 out ho
  obtain ⟨rfl, p, hp1, hp2, hp3⟩ := h3 hl fork_regular ⟨le_rfl, by norm_num [oneIteration], by norm_num [oneIteration]⟩ (by
    intro w hw hmin
    have h := hmin fun j => if j = 0 then 1 else if j = 1 then -1 else -2
    have w1 : w 1 = 0 := hw 1 (by decide) (by decide)
    have w2 : w 2 = 0 := hw 2 (by decide) (by decide)
    have h : lsq 3 3 forkCall.A.entry forkCall.b none w ≤
      lsq 3 3 forkCall.A.entry forkCall.b none fun j => if j = 0 then 1 else if j = 1 then -1 else -2 := h
    rw [fork_lsq, fork_lsq, w1, w2] at h
    norm_num at h
    nlinarith [sq_nonneg (w 0), sq_nonneg (w 0 - 1)])
  have hok : ok = false := by
    by_contra h
    have := hR.success.1 (by simpa using h)
    cases this
  subst hok
  refine ⟨x, rfl, ?_⟩
  have x0 : x 0 = 0 := hR.zero rfl 0 (by decide)
  rw [fork_lsq, fork_lsq, x0]
  have he : SchurDirect.eCols fork 1 = 1 := rfl
  have hn := fork_size.2
  have : p = 1 ∨ p = 2 := by omega
  rcases this with rfl | rfl
  · have := mul_self_pos.2 hp3
    nlinarith [sq_nonneg (x 2)]
  · have := mul_self_pos.2 hp3
    nlinarith [sq_nonneg (x 1)]

end Ceres.SchurJacobi
