import Verif.CudaCgnr.Evaluator

/-!
# C93: a case
-/

noncomputable section

namespace Ceres.CudaCgnr

open Ceres.BlockSparse Ceres.Direct Ceres.InnerProduct
open Ceres.Evaluator (exampleProg createJacobian createJacobian_isSome allStores exec activeArgs)

theorem example_ok : exampleProg.Ok := by
  intro rb hrb
  simp only [exampleProg, List.mem_cons, List.not_mem_nil, or_false] at hrb
  rcases hrb with rfl | rfl <;> simp [activeArgs, exampleProg]

theorem example_some : ∃ M : Evaluator.CRS ℝ, createJacobian exampleProg = some M := by
  rw [← Option.isSome_iff_exists, createJacobian_isSome]
  intro rb hrb
  simp only [exampleProg, List.mem_cons, List.not_mem_nil, or_false] at hrb
  rcases hrb with rfl | rfl <;> simp [activeArgs]

/-- Enough iterations, no tolerance. -/
def patient : CG.Options := { maxNumIterations := 3 }

/-- Two parameter blocks of sizes two and one, two residual blocks of sizes one and two, any derivatives, three threads:
after a call with other derivatives, a call with either preconditioner returns the minimiser. -/
example (p : Prec) (jac jac' : ℕ → ℕ → ℕ → ℝ) (b b' d d' : Vec) (hd : ∀ j < 3, d j ≠ 0) :
    ∃ (M : Evaluator.CRS ℝ) (K : Option Kept) (r : Result),
      After PartitionedView.goodLlt p 3 [⟨jacobianOf exampleProg
        { M with values := exec (allStores exampleProg M.rows jac') M.values }, b', some d'⟩] K ∧
      Solve PartitionedView.goodLlt patient p 3 K ⟨jacobianOf exampleProg
        { M with values := exec (allStores exampleProg M.rows jac) M.values }, b, some d⟩ (some r) ∧
      r.termination = .success ∧ ∃ E : Buf,
        (∀ C, E 0 C = Evaluator.denseJacobian exampleProg 0 0 ⟨1, [some 1, none, some 0]⟩ jac C) ∧
        Minimises 3 3 E b (some d) r.x := by
  obtain ⟨M, hM⟩ := example_some
  have hs : ∀ n ∈ exampleProg.sizes, 0 < n := by decide
  have hr : ∀ rb ∈ exampleProg.residuals, 0 < rb.numResiduals := by
    intro rb hrb
    simp only [exampleProg, List.mem_cons, List.not_mem_nil, or_false] at hrb
    rcases hrb with rfl | rfl <;> decide
  have hcalls : ∀ call ∈ [(⟨jacobianOf exampleProg
      { M with values := exec (allStores exampleProg M.rows jac') M.values }, b', some d'⟩ : Call)],
      Fits M.rows M.cols (blocksFrom 0 exampleProg.sizes) (structureOf exampleProg) call := by
    intro call hc
    rw [List.mem_singleton.1 hc]
    exact evaluator_fits example_ok hs hr hM (List.Perm.refl _) _ _
  obtain ⟨K, hK⟩ := after_exists PartitionedView.goodLlt p (by decide : 0 < 3) patient _ hcalls
  obtain ⟨r, r1, r2, E, r3, r4⟩ := cuda_cgnr_program PartitionedView.goodLlt_ok example_ok hs hr hM (by decide : 0 < 3)
    (o := patient) ⟨le_rfl, rfl, le_rfl, by decide⟩ p
    (history := [(allStores exampleProg M.rows jac', b', d')])
    (fun e he => ⟨jac', by rw [List.mem_singleton.1 he]⟩) hK (List.Perm.refl (allStores exampleProg M.rows jac)) b d hd
  exact ⟨M, K, r, hK, r1, r2, E, fun C => r3 0 (by decide) 0 (by decide) C, r4⟩

end Ceres.CudaCgnr
