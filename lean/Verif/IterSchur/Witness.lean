import Verif.IterSchur.Main
import Verif.Cgnr.Witness

/-!
# C92: a case
-/

noncomputable section

namespace Ceres.IterSchur

open Ceres.BlockSparse Ceres.InnerProduct Ceres.Direct Ceres.SchurDirect Ceres.Visibility

/-- Calls with any values, any right hand side and any diagonal without zeros are as asked. -/
theorem row_call (v b d : Vec) (hd : ∀ j < 6, d j ≠ 0) :
    Asked 2 row ⟨BMat.ofStructure row v, b, some d⟩ where
  fits := ⟨row_ok v, rfl, row_ordered, by decide, by decide, by decide, by decide, regularE_diagonal (row_ok v) hd⟩
  regular := SchurJacobi.regular_diagonal (by
    have hc : (BMat.ofStructure row v).numCols = 6 := by simp [BMat.ofStructure, row]
    rw [hc]
    exact hd)

/-- In this structure no row block depends on two f blocks. -/
theorem row_oneF : OneFBlock 2 row := by unfold OneFBlock; decide

/-- Two points, three cameras, any values, three threads: after a call with other values, a call with any preconditioner
but CLUSTER_TRIDIAGONAL returns the minimiser. -/
example (k : Kind) (hk : ¬k.Tridiagonal) (series : ℤ) (v v' b b' d d' before : Vec) (hd : ∀ j < 6, d j ≠ 0)
    (hd' : ∀ j < 6, d' j ≠ 0) :
    ∃ st, After (exactSparse true) PartitionedView.goodLlt Schur.exactInv ⟨Cgnr.patient, k, series, none⟩ 2 3
        [⟨BMat.ofStructure row v', b', some d'⟩] st ∧
      ∃ r, Solve PartitionedView.goodLlt Schur.exactInv ⟨Cgnr.patient, k, series, none⟩ 2 3 st
          ⟨BMat.ofStructure row v, b, some d⟩ before (some r) ∧
        r.termination = .success ∧ Minimises 4 6 (BMat.ofStructure row v).entry b (some d) r.x := by
  have hcalls : ∀ call ∈ [(⟨BMat.ofStructure row v', b', some d'⟩ : Call)], Asked 2 row call := by
    intro call hc
    rw [List.mem_singleton.1 hc]
    exact row_call _ _ _ hd'
  obtain ⟨st, hst⟩ := after_exists (c := exactSparse true) PartitionedView.goodLlt_ok Schur.exactInv_fullRank
    (exactSparse_correct true) (by decide : 0 < 3) ⟨Cgnr.patient, k, series, none⟩ _ hcalls
  obtain ⟨⟨out, ho⟩, hall⟩ := iterative_schur_solves PartitionedView.goodLlt_ok Schur.exactInv_fullRank
    (exactSparse_correct true) (by decide : 0 < 3) _ hcalls hst (row_call v b d hd) Cgnr.patient before
  obtain ⟨r, rfl, hg⟩ := hall out ho
  have hc : (BMat.ofStructure row v).numCols = 6 := by simp [BMat.ofStructure, row]
  have hr : (BMat.ofStructure row v).numRows = 4 := by simp [BMat.ofStructure, row]
  rcases hg.solves ⟨le_rfl, rfl, le_rfl, (by decide : ((fCols row 2 : ℕ) : ℤ) ≤ Cgnr.patient.maxNumIterations)⟩ rfl (fun h => absurd h hk) with ⟨h1, h2⟩ | ⟨-, h⟩
  · simp only [hc, hr] at h2
    exact ⟨st, hst, r, ho, h1, h2⟩
  · exact absurd h hk

/-- The same with CLUSTER_TRIDIAGONAL, an initial guess and one iteration: the step is as good as none, unless the
factorization of the preconditioner failed. -/
example (series : ℤ) (tol : ℝ) (v b d before : Vec) (hd : ∀ j < 6, d j ≠ 0) :
    ∃ r, Solve (c := exactSparse true) PartitionedView.goodLlt Schur.exactInv
          ⟨{ maxNumIterations := 1 }, .cluster ⟨true, false⟩, series, some tol⟩ 2 3 ⟨fun _ => 0, none⟩
          ⟨BMat.ofStructure row v, b, some d⟩ before (some r) ∧
      (r.termination = .failure ∧ r.x = before ∨
        lsq 4 6 (BMat.ofStructure row v).entry b (some d) r.x ≤
          lsq 4 6 (BMat.ofStructure row v).entry b (some d) fun _ => 0) := by
  obtain ⟨⟨out, ho⟩, hall⟩ := iterative_schur_solves PartitionedView.goodLlt_ok Schur.exactInv_fullRank
    (exactSparse_correct true) (by decide : 0 < 3) ⟨{ maxNumIterations := 1 }, .cluster ⟨true, false⟩, series, some tol⟩
    (calls := []) (by simp) (.nil fun _ => 0) (row_call v b d hd) { maxNumIterations := 1 } before
  obtain ⟨r, rfl, hg⟩ := hall out ho
  have hc : (BMat.ofStructure row v).numCols = 6 := by simp [BMat.ofStructure, row]
  have hr : (BMat.ofStructure row v).numRows = 4 := by simp [BMat.ofStructure, row]
  refine ⟨r, ho, ?_⟩
  by_cases hf : r.termination = .failure
  · exact .inl ⟨hf, hg.unwritten hf⟩
  · have := hg.descends hf (.inr row_oneF) (fun _ => 0) fun _ _ _ => rfl
    simp only [hc, hr] at this
    exact .inr this

end Ceres.IterSchur
