import Verif.Summary.Schur
import Verif.Summary.Stats
import Verif.EvalCallback.Witness

/-!
# C95: concrete cases
-/
namespace Ceres.Summary

open Ceres.Reorder (World Library Prepared Solver SparseLib OrderType)
open Ceres.Graph (Groups)
open Ceres.Program (RB Prog)

/-- A residual block with these parameter blocks. -/
def block (l : List ℕ) : RB ℕ ℕ := { params := l, cost := fun _ => some 1 }

/-- Blocks 0 and 1 are cameras, 2 and 3 points, 9 is constant. -/
def world : World ℕ (RB ℕ ℕ) ℕ where
  args := RB.params
  numResiduals := fun r => if r.params = [0, 1] then 1 else 2
  isConst := fun b => b == 9
  tangentSize := fun b => if b < 2 then 6 else if b < 5 then 3 else 4
  user := fun b => 100 + b

/-- Camera 0 sees both points, camera 1 sees both too; block 5 is used by no one, and one residual block depends on
the constant block only. -/
def problem : Prog ℕ ℕ where
  pblocks := [0, 5, 1, 2, 9, 3]
  rblocks := [block [0, 3], block [1, 2, 9], block [9], block [0, 1], block [0, 2], block [1, 3]]

/-- A library that returns permutations. -/
def library : Library ℕ (RB ℕ ℕ) where
  suiteSparse := true
  nestedDissection := true
  eigenSparse := true
  cholmodOrder := fun _ t => some (List.range t.numRows).reverse
  camd := fun t c => some ((List.range t.numRows).insertionSort fun i j => c.getD i 0 ≤ c.getD j 0)
  eigenOrder := fun _ M => List.range M.size
  stableSort := Reorder.sortByDegree
  partition := fun f l => l.filter f ++ l.filter fun r => !f r

theorem library_ok : library.Ok where
  cholmod := fun _ t => ⟨_, rfl, List.reverse_perm _⟩
  camd := fun t c _ _ => by
    have : Std.Total fun i j => c.getD i 0 ≤ c.getD j 0 := ⟨fun a b => Nat.le_total _ _⟩
    have : IsTrans ℕ fun i j => c.getD i 0 ≤ c.getD j 0 := ⟨fun a b c => Nat.le_trans⟩
    exact ⟨_, rfl, List.perm_insertionSort _ _, List.pairwise_insertionSort _ _⟩
  eigen := fun _ _ => List.Perm.refl _
  stableSort := Reorder.sortByDegree_stable
  partition := fun f l => ⟨List.filter_append_perm f l, l.filter f, l.filter fun r => !f r, rfl,
    fun r hr => (List.mem_filter.1 hr).2, fun r hr => by simpa using (List.mem_filter.1 hr).2⟩

theorem problem_wellFormed : WellFormed world problem where
  args := rfl
  injective := fun a b h => by have : 100 + a = 100 + b := h; omega
  nodup := by decide
  closed := by simp [problem, block]
  argsNodup := by simp [problem, block]
  residuals := by intro r _; unfold world; simp only; split_ifs <;> omega
  sizes := by intro b _; unfold world; simp only; split_ifs <;> omega

/-- The preparation for a Schur solver. -/
def prepared : Preparation ℕ ℕ ℕ :=
  prepare world library (fun _ => 0) (fun _ => true) (.schur false) .EIGEN_SPARSE .AMD (fun _ => false) none problem

/-- Sizes of the parameter blocks: quaternions and translations are seven numbers. -/
def sizes (b : ℕ) : ℕ := if b < 2 then 7 else if b < 5 then 3 else 4

/-- What the summary says. -/
def summary : Report := report world sizes (.schur false) problem none prepared

/-- Non-vacuity: the preparation succeeds, and all theorems apply. -/
theorem prepared_ready : ∃ r, prepared = .ready r := by
  cases h : prepared with
  | ready r => exact ⟨r, rfl⟩
  | failed =>
    have : (match prepared with | .ready _ => true | _ => false) = true := by decide +kernel
    rw [h] at this; cases this
  | trivial p =>
    have : (match prepared with | .ready _ => true | _ => false) = true := by decide +kernel
    rw [h] at this; cases this

example : summary.reduced = some (reduced world sizes problem) :=
  report_reduced sizes problem_wellFormed library_ok (by simp [Solver.factorises]) (by intro G hG; cases hG) none (by
    obtain ⟨r, hr⟩ := prepared_ready
    show prepared ≠ .failed
    rw [hr]; exact nofun)

/-! ## Sorting in the kernel -/

theorem shape_rows (P : Evaluator.Prog) (ne : ℕ) : (SchurDirect.shape (Reorder.structureOf P ne)).rows =
    P.residuals.map fun rb =>
      ⟨rb.numResiduals, ((Evaluator.activeArgs rb).map Prod.fst).insertionSort (· ≤ ·)⟩ := by
  show (Reorder.structureOf P ne).rows.map _ = _
  rw [Reorder.structureOf_rows, List.map_map]
  have key : ∀ q ∈ P.residuals.zipIdx, ((fun r : BlockSparse.BRow => (⟨(r.block.size : ℤ), r.cells.map
      BlockSparse.Cell.blockId⟩ : Detect.Row)) ∘ fun q : Evaluator.RB × ℕ => Reorder.rowOf P ne q.2 q.1) q =
      (fun rb : Evaluator.RB => (⟨(rb.numResiduals : ℤ),
        ((Evaluator.activeArgs rb).map Prod.fst).insertionSort (· ≤ ·)⟩ : Detect.Row)) q.1 := by
    intro q _
    have h : (Reorder.rowOf P ne q.2 q.1).cells.map BlockSparse.Cell.blockId =
        ((Evaluator.activeArgs q.1).map Prod.fst).insertionSort (· ≤ ·) := by
      show ((Evaluator.rowCells q.1 (Evaluator.layoutOf P ne q.2)).map _).map _ = _
      rw [List.map_map]
      refine List.Perm.eq_of_pairwise (le := (· ≤ ·)) (fun a b _ _ h1 h2 => le_antisymm h1 h2) ?_
        (List.pairwise_insertionSort _ _)
        ((Reorder.rowCells_ids q.1 _).trans (List.perm_insertionSort _ _).symm)
      show ((Evaluator.rowCells q.1 _).map Prod.fst).Pairwise (· ≤ ·)
      rw [List.pairwise_map]
      have := List.pairwise_mergeSort (le := fun a b : ℕ × ℕ => decide (a.1 ≤ b.1))
        (fun a b c hab hbc => by simp only [decide_eq_true_eq] at *; omega)
        (fun a b => by simp only [Bool.or_eq_true, decide_eq_true_eq]; omega)
        ((Evaluator.activeArgs q.1).zipIdx.map fun p => (p.1.1, Evaluator.layoutOf P ne q.2 p.2))
      exact this.imp fun h => by simpa using h
    simp only [Function.comp_apply]
    rw [h]
    rfl
  rw [List.map_congr_left key]
  conv_rhs => rw [← List.zipIdx_map_fst 0 P.residuals, List.map_map]
  rfl

theorem schurStrings_eq (P : Evaluator.Prog) (ne : ℕ) : schurStrings (Reorder.structureOf P ne) ne =
    (Detect.detectStructure ⟨fun b => ((Reorder.laidFrom 0 P.sizes).getD b ⟨0, 0⟩).size, P.residuals.map fun rb =>
      ⟨rb.numResiduals, ((Evaluator.activeArgs rb).map Prod.fst).insertionSort (· ≤ ·)⟩⟩ ne).map
        fun s => (structureString s, structureString (best s)) := by
  unfold schurStrings
  congr 1
  unfold Detect.detectStructure
  rw [shape_rows]
  rfl

/-- The strings of a Schur solver, so that the kernel can compute them. -/
theorem report_strings (W : World ℕ (RB ℕ ℕ) ℕ) (p : Prog ℕ ℕ) (r : Preparation ℕ ℕ ℕ) :
    (report W sizes (.schur false) p none r).schur = match r with
      | .ready r => some ((Detect.detectStructure ⟨fun b => ((Reorder.laidFrom 0 (r.program.toEval W).sizes).getD b
          ⟨0, 0⟩).size, (r.program.toEval W).residuals.map fun rb =>
            ⟨rb.numResiduals, ((Evaluator.activeArgs rb).map Prod.fst).insertionSort (· ≤ ·)⟩⟩ r.numEliminate).map
              fun s => (structureString s, structureString (best s)))
      | _ => none := by
  cases r with
  | ready r => exact congrArg some (schurStrings_eq _ _)
  | failed => rfl
  | trivial p => rfl

/-! ## What is said -/

/-- The numbers, and the structure: residual blocks with a point have two residuals, points have three parameters,
cameras six; the specialisation for these sizes is used. -/
theorem summary_says : summary.given = ⟨6, 28, 26, 6, 11⟩ ∧ summary.reduced = some ⟨4, 20, 18, 5, 9⟩ ∧
    summary.orderingUsed = [2, 2] ∧ summary.schur = some (some ("2,3,6", "2,3,6")) :=
  ⟨by decide +kernel, by decide +kernel, by decide +kernel, by
    unfold summary; rw [report_strings]; decide +kernel⟩

/-- A camera of another size: the specialisation with dynamic cameras. -/
theorem summary_dynamic : (report { world with tangentSize := fun b => if b = 0 then 6 else if b = 1 then 5 else 3 } sizes
    (.schur false) problem none (prepare { world with tangentSize := fun b => if b = 0 then 6 else if b = 1 then 5 else 3 }
      library (fun _ => 0) (fun _ => true) (.schur false) .EIGEN_SPARSE .AMD (fun _ => false) none problem)).schur =
    some (some ("2,3,d", "2,3,d")) := by
  rw [report_strings]; decide +kernel

/-- Sizes for which there is no specialisation. -/
theorem summary_none : (report { world with numResiduals := fun _ => 5 } sizes
    (.schur false) problem none (prepare { world with numResiduals := fun _ => 5 }
      library (fun _ => 0) (fun _ => true) (.schur false) .EIGEN_SPARSE .AMD (fun _ => false) none problem)).schur =
    some (some ("5,3,6", "d,d,d")) := by
  rw [report_strings]; decide +kernel

/-- If everything is constant then nothing is left. -/
theorem summary_constant : (report { world with isConst := fun _ => true } sizes (.schur false) problem none
    (prepare { world with isConst := fun _ => true } library (fun _ => 0) (fun _ => true) (.schur false) .EIGEN_SPARSE .AMD
      (fun _ => false) none problem)).reduced = some ⟨0, 0, 0, 0, 0⟩ := by decide +kernel

/-! ## Evaluations -/

open EvalCallback in
/-- The square minimised from 3 (C60): the numbers of evaluations. -/
theorem square_evaluations : (fun s => (numResidualEvaluations s, numJacobianEvaluations s))
    (timedRun squareUser true (minimize squareOpts squareParts 1 3 0 10) (⟨3, (0, 0), []⟩, fun _ => 0)).1.2 = (5, 3) := by
  decide +kernel

/-- User code whose manifold has no `PlusJacobian` anywhere. -/
def noState : EvalCallback.UserCode Unit ℕ (Option ℕ) where
  stateOk _ := false
  prepare _ _ _ u := u
  residuals _ y _ := some y
  failed := none

/-- An evaluation that fails before the cost functions are run counts as one. -/
theorem failed_counts :
    numJacobianEvaluations (timedRun noState false (.ask ⟨3, true, true⟩ fun r => .ret r) (⟨0, (), []⟩, fun _ => 0)).1.2 = 1 ∧
    runs true (EvalCallback.exec noState false (.ask ⟨3, true, true⟩ fun r => .ret r) ⟨0, (), []⟩).1.events = 0 := by
  decide +kernel

end Ceres.Summary
