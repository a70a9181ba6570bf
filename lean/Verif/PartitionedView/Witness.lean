import Verif.PartitionedView.Main
import Verif.BlockSparse.Witness

/-!
# C84: a matrix that is cut, and matrices for which the view does not work
-/
namespace Ceres.PartitionedView

open Ceres.Tasks Ceres.BlockSparse

/-- The first column block of `mixed` is eliminated: `E` has two columns and `F` one; the last row block is not in
`E`. -/
theorem mixed_ordered : Ordered mixed.bs 1 where
  le := by decide
  cells := by decide
  one := by decide
  first := by
    have h : HasE 1 (apart.rows[0]) ∧ HasE 1 (apart.rows[1]) := ⟨⟨_, rfl, by decide⟩, ⟨_, rfl, by decide⟩⟩
    refine .cons (fun _ _ _ => h.1) (.cons (fun _ _ _ => h.2) (.cons ?_ .nil))
    simp

/-- On three threads. -/
theorem mixed_view : ∃ V, create mixed 1 3 = some V ∧ V.numColBlocksE = 1 ∧ V.numColBlocksF = 1 ∧ V.numColsE = 2 ∧
    V.numColsF = 1 ∧ V.numRowBlocksE = 2 :=
  ⟨_, rfl, rfl, rfl, rfl, rfl, rfl⟩

/-- `E` and `F`. -/
theorem mixed_parts :
    (List.range 4).map (fun r => (List.range (colsE mixed.bs 1)).map (entryE mixed r)) =
      [[1, 2], [3, 4], [5, 6], [0, 0]] ∧
    (List.range 4).map (fun r => (List.range (colsF mixed.bs 1)).map (entryF mixed 1 r)) =
      [[7], [8], [9], [10]] := by
  decide

/-- `y += F x` and `y += Eᵀ x` on three threads. -/
example (x y : ℕ → ℤ) : ∃ V, create mixed 1 3 = some V ∧
    (∀ o, RightFRun V mixed (memOf mixed x y) o ↔
      o = some (memOf mixed x fun r => y r + ∑ c ∈ Finset.range 1, entryF mixed 1 r c * x c)) ∧
    (∀ o, LeftERun V mixed (memOf mixed x y) o ↔ o = some (memOf mixed x fun c =>
      if c < 2 then y c + ∑ r ∈ Finset.range mixed.numRows, entryE mixed r c * x r else y c)) := by
  obtain ⟨V, hV, -⟩ := mixed_view
  exact ⟨V, hV, view_right_f mixed_ok mixed_ordered hV (by omega) x y,
    view_left_e mixed_ok mixed_ordered hV (by omega) x y⟩

/-- The block diagonal of `EᵀE` on three threads, in an array that held something else. -/
example : ∃ V y', create mixed 1 3 = some V ∧
    (∀ o, EtERun V mixed (BMat.ofStructure (layout mixed.bs 0 1) fun _ => 77) (memOf mixed (fun _ => 0) fun _ => 77) o ↔
      o = some (memOf mixed (fun _ => 0) y')) ∧
    (BMat.ofStructure (layout mixed.bs 0 1) y').entry 0 1 = 1 * 2 + 3 * 4 + 5 * 6 := by
  obtain ⟨V, hV, -⟩ := mixed_view
  obtain ⟨-, -, y', h1, -, h3⟩ := view_ete mixed_ok mixed_simple mixed_ordered hV (by omega) (fun _ => 0) (fun _ => 77)
    fun _ => 77
  refine ⟨V, y', hV, h3, ?_⟩
  rw [h1, if_pos ⟨0, le_rfl, by omega, ⟨2, 0⟩, rfl, by decide⟩]
  decide

/-- Two states of a run: threads do run at the same time. -/
example (V : View) (hV : create mixed 1 3 = some V) (m : Mem ℤ) (s : St Loc Empty ℤ) (h : LeftFReach V mixed m s) :
    ¬ Race s :=
  ((view_safe mixed_ok mixed_ordered hV (by omega) m (fun _ => 0) s).2.2.2.1 h).1

/-! ## Where it does not work -/

/-- **With nothing to eliminate and several threads the constructor reads before an array**: the partition of an
empty range of columns asks for the cost of column block `-1`. -/
theorem view_nothing_to_eliminate {K : Type} (M : BMat K) {threads : ℕ} (ht : 1 < threads) :
    create M 0 threads = none := by
  unfold create
  rw [if_neg (by omega)]
  cases countRowBlocksE 0 M.bs.rows with
  | none => rfl
  | some re => simp [ht]

/-- On one thread it is made. -/
example : (create mixed 0 1).isSome = true := by decide

/-- **A row block without cells**: the constructor reads its first cell. -/
theorem view_empty_row {K : Type} (M : BMat K) (ne threads : ℕ) (h : ∃ r ∈ M.bs.rows, r.cells = []) :
    create M ne threads = none := by
  have : countRowBlocksE ne M.bs.rows = none := by
    obtain ⟨r, hr, hc⟩ := h
    generalize M.bs.rows = rows at hr
    induction rows with
    | nil => simp at hr
    | cons a rows ih =>
      unfold countRowBlocksE
      rcases List.mem_cons.1 hr with rfl | hr
      · rw [hc]
      · cases a.cells with
        | nil => rfl
        | cons c cs => simp only; rw [ih hr]; rfl
  unfold create
  rw [this]
  split <;> rfl

/-- Rows in the wrong order: the row block without e block comes first. -/
def wrongOrder : BMat ℤ := BMat.ofStructure
  ⟨[⟨1, 0⟩, ⟨1, 1⟩], [⟨⟨1, 0⟩, [⟨1, 0⟩], 0, 0⟩, ⟨⟨1, 1⟩, [⟨0, 1⟩], 0, 0⟩]⟩ fun i => i + 5

/-- **The order of the rows is needed**: for this matrix, well formed and with one e block per row, the view is made,
and `y += E x` takes the first row for one of `E` and the column of `F` for its column. -/
theorem wrong_order_wrong : wrongOrder.Ok ∧ ∃ V, create wrongOrder 1 1 = some V ∧ ∃ m,
    RightERun V wrongOrder (memOf wrongOrder (fun _ => 1) fun _ => 0) (some m) ∧ m (.y 0) = 5 ∧ m (.y 1) = 0 ∧
      entryE wrongOrder 0 0 = 0 ∧ entryE wrongOrder 1 0 = 6 := by
  refine ⟨ofStructure_ok ⟨rfl, rfl, trivial⟩ ⟨rfl, rfl, trivial⟩ (by decide) (by decide), _, rfl, ?_⟩
  let r := (Tasks.seqRun (fun _ i => kernels mulCell (rowE wrongOrder.bs i) .ret) (List.range' 0 (1 - 0))
    (memOf wrongOrder (fun _ => 1) fun _ => 0) fun _ => false).map Prod.fst
  have h : r.isSome = true := by decide
  refine ⟨r.get h, ?_, by decide +revert, by decide +revert, by decide, by decide⟩
  rw [Option.some_get]
  exact .sequential (by decide) (by decide) (by decide)

end Ceres.PartitionedView
