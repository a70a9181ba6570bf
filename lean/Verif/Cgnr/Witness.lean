import Verif.Cgnr.Main
import Verif.SchurJacobi.Witness

/-!
# C90: a case
-/

noncomputable section

namespace Ceres.Cgnr

open Ceres.BlockSparse Ceres.InnerProduct Ceres.Direct

/-- Calls with any values, any right hand side and any diagonal fit. -/
theorem row_call (p : Prec) (hp : ∀ start, p = .subset start → start ≤ 4) (v b d : Vec) :
    Fits p Visibility.row true ⟨BMat.ofStructure Visibility.row v, b, some d⟩ where
  ok := Visibility.row_ok v
  structure_ := rfl
  sorted := by
    intro r hr
    simp only [Visibility.row, List.mem_cons, List.not_mem_nil, or_false] at hr
    rcases hr with rfl | rfl | rfl | rfl <;> simp
  subset := fun start hs => ⟨hp start hs, by simp [BMat.ofStructure, Visibility.row, BS.col], rfl⟩

theorem row_solvable (p : Prec) (v d : Vec) (hd : ∀ j < 6, d j ≠ 0) :
    Solvable p (BMat.ofStructure Visibility.row v) (some d) := by
  have hc : (BMat.ofStructure Visibility.row v).numCols = 6 := by simp [BMat.ofStructure, Visibility.row]
  cases p <;> exact SchurJacobi.regular_diagonal (by rw [hc]; exact hd)

/-- Enough iterations, no tolerance. -/
def patient : CG.Options := { maxNumIterations := 6 }

/-- Four row blocks, five column blocks, any values, three threads: after a call with other values, a call with any
of the preconditioners (SUBSET from the third row block) returns the minimiser. -/
example (p : Prec) (hp : ∀ start, p = .subset start → start = 2) (v v' b b' d d' : Vec) (hd : ∀ j < 6, d j ≠ 0) :
    ∃ S, After (exactSparse true) PartitionedView.goodLlt p 3 [⟨BMat.ofStructure Visibility.row v', b', some d'⟩] S ∧
      ∃ r, Solve PartitionedView.goodLlt patient p 3 S ⟨BMat.ofStructure Visibility.row v, b, some d⟩ (some r) ∧
        r.termination = .success ∧
        Minimises 4 6 (BMat.ofStructure Visibility.row v).entry b (some d) r.x := by
  have hp' : ∀ start, p = .subset start → start ≤ 4 := fun s hs => by rw [hp s hs]; decide
  have hcalls : ∀ call ∈ [(⟨BMat.ofStructure Visibility.row v', b', some d'⟩ : Call)], Fits p Visibility.row true call := by
    intro call hc
    rw [List.mem_singleton.1 hc]
    exact row_call p hp' _ _ _
  obtain ⟨S, hS⟩ := after_exists (exactSparse true) PartitionedView.goodLlt (by decide : 0 < 3) patient _ hcalls
  obtain ⟨⟨out, ho⟩, hall⟩ := cgnr_solves (by decide : 0 < 3) patient hcalls hS (row_call p hp' v b d)
  obtain ⟨r, rfl, hg⟩ := hall out ho
  have hc : (BMat.ofStructure Visibility.row v).numCols = 6 := by simp [BMat.ofStructure, Visibility.row]
  have hr : (BMat.ofStructure Visibility.row v).numRows = 4 := by simp [BMat.ofStructure, Visibility.row]
  obtain ⟨h1, h2⟩ := hg.solves PartitionedView.goodLlt_ok (exactSparse_correct true) (row_solvable p v d hd)
    ⟨le_rfl, rfl, le_rfl, by rw [hc]; decide⟩
  simp only [hc, hr] at h2
  exact ⟨S, hS, r, ho, h1, h2⟩

end Ceres.Cgnr
