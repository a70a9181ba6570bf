import Verif.Reorder.Iterative
import Verif.Reorder.Witness
import Verif.IterSchur.Witness

/-!
# C91: a case for ITERATIVE_SCHUR
-/
noncomputable section

namespace Ceres.Reorder

open Ceres.Graph Ceres.BlockSparse Ceres.InnerProduct Ceres.Direct

/-- Two points and two cameras: from the preparation of the program to the step, for any values.  ITERATIVE_SCHUR with
SCHUR_JACOBI on three threads, after a call with other values, minimises the model of the problem. -/
example (Λ Λ' : Linearised ℕ ℕ) (hd : Λ.Damped) (hd' : Λ'.Damped) (before : Vec) :
    ∃ r, reorderProgram scene goodLib (fun v => 100 ≤ v && v < 104) (.schur true) .SUITE_SPARSE .AMD (fun _ => false)
        (some sceneGroups) sceneProgram = .ok r ∧
      ∃ (o : IterSchur.Options) (call call' : Call) (st : IterSchur.State (exactSparse true)),
        IsCall scene r.program r.numEliminate Λ call ∧ IsCall scene r.program r.numEliminate Λ' call' ∧
        IterSchur.After _ PartitionedView.goodLlt Schur.exactInv o r.numEliminate 3 [call'] st ∧
        ∃ s, IterSchur.Solve PartitionedView.goodLlt Schur.exactInv o r.numEliminate 3 st call before (some s) ∧
          s.termination = .success ∧
          ∀ δ, Λ.cost scene sceneProgram (stepOf scene r.program s.x) ≤ Λ.cost scene sceneProgram δ := by
  obtain ⟨r, hr, hready⟩ := scene_prepared
  have hq := scene_reduced.rearranged hready.same
  let o : IterSchur.Options :=
    ⟨{ maxNumIterations := (((r.program.blocks.drop r.numEliminate).map scene.tangentSize).sum : ℕ) }, .schurJacobi, 5, none⟩
  obtain ⟨call, hcall⟩ := exists_call hq r.numEliminate Λ
  obtain ⟨call', hcall'⟩ := exists_call hq r.numEliminate Λ'
  obtain ⟨J, hJ⟩ := (hready.schur true rfl).2 ℝ fun _ => 0
  obtain ⟨st, hst⟩ := IterSchur.after_exists (c := exactSparse true) (threads := 3) PartitionedView.goodLlt_ok
    Schur.exactInv_fullRank (exactSparse_correct true) (by decide) o [call'] (by
      intro c hc
      rw [List.mem_singleton.1 hc]
      obtain ⟨D, hD, hD'⟩ := hd'.call hq hcall'
      exact ⟨call_fits hq hJ hd' hcall', by rw [hD]; exact regular_damped hD'⟩)
  obtain ⟨⟨out, hout⟩, hall⟩ := iterative_schur_step scene_reduced hready (exactSparse_correct true)
    PartitionedView.goodLlt_ok Schur.exactInv_fullRank (by decide : 0 < 3) o (calls := [call']) (by
      intro c hc
      rw [List.mem_singleton.1 hc]
      exact ⟨Λ', hd', hcall'⟩) hst hd hcall before
  obtain ⟨s, rfl, hs⟩ := hall out hout
  have hnot : ¬o.kind.Tridiagonal := by
    rintro ⟨cfg, h, -⟩
    exact IterSchur.Kind.noConfusion h
  rcases hs.solves ⟨le_rfl, rfl, le_rfl, le_rfl⟩ rfl (fun h => absurd h hnot) with ⟨h1, h2⟩ | ⟨-, h⟩
  · exact ⟨r, hr, o, call, call', st, hcall, hcall', hst, s, hout, h1, h2⟩
  · exact absurd h hnot

end Ceres.Reorder
