import Verif.CudaCgnr.Main
import Verif.Evaluator.Layout
import Verif.SchurJacobi.Witness

/-!
# C93: the Jacobians the evaluator makes
-/

noncomputable section

namespace Ceres.CudaCgnr

open Ceres.BlockSparse Ceres.Direct Ceres.InnerProduct
open Ceres.Evaluator (RB activeArgs orderedBlocks orderedBlocks_perm createJacobian createJacobian_spec exec
  allStores expectedRow crs_row crs_columns crs_entry denseJacobian baseOf)

/-- One block after the other. -/
def blocksFrom (p : ℕ) : List ℕ → List Block
  | [] => []
  | n :: l => ⟨n, p⟩ :: blocksFrom (p + n) l

/-- The matrix `CreateJacobian` returns with the blocks of `PopulateJacobianRowAndColumnBlockVectors`
(compressed_row_jacobian_writer.cc:49-71, 91-201). -/
def jacobianOf (P : Evaluator.Prog) (M : Evaluator.CRS ℝ) : Crs where
  mat := ⟨P.numRows, P.sizes.sum, M.rows, M.cols, M.values, .unsymmetric, []⟩
  rowBlocks := blocksFrom 0 (P.residuals.map RB.numResiduals)
  colBlocks := blocksFrom 0 P.sizes

/-- The parameter blocks that each residual block depends on. -/
def structureOf (P : Evaluator.Prog) : List (Block × List ℕ) :=
  (blocksFrom 0 (P.residuals.map RB.numResiduals)).zip (P.residuals.map fun rb => (orderedBlocks rb).map Prod.fst)

theorem blocksFrom_get (p : ℕ) (l : List ℕ) (i : ℕ) :
    (blocksFrom p l)[i]? = l[i]?.map fun n => ⟨n, p + (l.take i).sum⟩ := by
  induction l generalizing p i with
  | nil => simp [blocksFrom]
  | cons n l ih =>
    cases i with
    | zero => simp [blocksFrom]
    | succ i =>
      simp only [blocksFrom, List.getElem?_cons_succ, ih, List.take_succ_cons, List.sum_cons, Nat.add_assoc]

theorem blocksFrom_length (p : ℕ) (l : List ℕ) : (blocksFrom p l).length = l.length := by
  induction l generalizing p with
  | nil => rfl
  | cons n l ih => simp [blocksFrom, ih]

theorem blocksFrom_laid (p : ℕ) (l : List ℕ) : Laid p (blocksFrom p l) := by
  induction l generalizing p with
  | nil => trivial
  | cons n l ih => exact ⟨rfl, ih _⟩

theorem blocksFrom_size (p : ℕ) (l : List ℕ) : (blocksFrom p l).map Block.size = l := by
  induction l generalizing p with
  | nil => rfl
  | cons n l ih => simp [blocksFrom, ih]

theorem structureOf_fst (P : Evaluator.Prog) :
    (structureOf P).map Prod.fst = blocksFrom 0 (P.residuals.map RB.numResiduals) := by
  unfold structureOf
  rw [List.map_fst_zip]
  simp [blocksFrom_length]

theorem rowOffset_eq (P : Evaluator.Prog) (i : ℕ) : ((P.residuals.map RB.numResiduals).take i).sum = P.rowOffset i := by
  rw [← List.map_take]
  rfl

theorem structureOf_mem {P : Evaluator.Prog} {s : Block × List ℕ} (h : s ∈ structureOf P) :
    ∃ (i : ℕ) (hi : i < P.residuals.length), s = (⟨(P.residuals[i]).numResiduals, P.rowOffset i⟩,
      (orderedBlocks P.residuals[i]).map Prod.fst) := by
  obtain ⟨i, hi⟩ := List.mem_iff_getElem?.1 h
  unfold structureOf at hi
  rw [List.getElem?_zip_eq_some] at hi
  obtain ⟨h1, h2⟩ := hi
  rw [blocksFrom_get, List.getElem?_map, Nat.zero_add, rowOffset_eq] at h1
  rw [List.getElem?_map] at h2
  have hi : i < P.residuals.length := by
    by_contra hc
    rw [List.getElem?_eq_none (by omega)] at h2
    cases h2
  rw [List.getElem?_eq_getElem hi] at h1 h2
  refine ⟨i, hi, Prod.ext ?_ ?_⟩
  · simpa using h1.symm
  · simpa using h2.symm

/-- Every row is a row of a residual block. -/
theorem row_slot (P : Evaluator.Prog) {r : ℕ} (hr : r < P.numRows) :
    ∃ (i : ℕ) (hi : i < P.residuals.length), ∃ k < (P.residuals[i]).numResiduals, r = P.rowOffset i + k := by
  have hsum : ((blocksFrom 0 (P.residuals.map RB.numResiduals)).map Block.size).sum = P.numRows := by
    rw [blocksFrom_size]
    rfl
  obtain ⟨i, b, hb, k, hk, rfl⟩ := block_slot (blocksFrom_laid 0 _) (hsum ▸ hr)
  rw [blocksFrom_get, List.getElem?_map, Nat.zero_add, rowOffset_eq] at hb
  have hi : i < P.residuals.length := by
    by_contra hc
    rw [List.getElem?_eq_none (by omega)] at hb
    cases hb
  rw [List.getElem?_eq_getElem hi] at hb
  simp only [Option.map_some, Option.some.injEq] at hb
  subst hb
  exact ⟨i, hi, k, hk, rfl⟩

theorem own_row (rows : ℕ → ℕ) (n p : ℕ) (h0 : rows 0 = 0) (hp : p < rows n) : ∃ r < n, rows r ≤ p ∧ p < rows (r + 1) := by
  induction n with
  | zero => omega
  | succ n ih =>
    by_cases h : p < rows n
    · obtain ⟨r, h1, h2⟩ := ih h
      exact ⟨r, by omega, h2⟩
    · exact ⟨n, by omega, by omega, hp⟩

section
variable {P : Evaluator.Prog} {M : Evaluator.CRS ℝ} {jac : ℕ → ℕ → ℕ → ℝ} {ws : List (ℕ × ℝ)}

theorem mat_row (P : Evaluator.Prog) (M : Evaluator.CRS ℝ) (r : ℕ) : (jacobianOf P M).mat.row r = M.row r := by
  unfold Sparse.Mat.row Sparse.Mat.idxs Evaluator.CRS.row jacobianOf
  simp only
  rw [List.range'_eq_map_range, List.map_map]
  rfl

theorem blk_sizes (P : Evaluator.Prog) {id : ℕ} (h : id < P.sizes.length) :
    blk (blocksFrom 0 P.sizes) id = ⟨P.size id, P.offset id⟩ := by
  refine blk_eq ?_
  rw [blocksFrom_get, List.getElem?_eq_getElem h, Option.map_some, Nat.zero_add]
  congr 2
  unfold Evaluator.Prog.size
  rw [List.getD_eq_getElem?_getD, List.getElem?_eq_getElem h]
  rfl

/-- **What the evaluator makes is such a Jacobian**: its structure is that of the program, whatever the values and in
whatever order the threads store them. -/
theorem evaluator_isJacobian (hP : P.Ok) (hs : ∀ n ∈ P.sizes, 0 < n) (hr : ∀ rb ∈ P.residuals, 0 < rb.numResiduals)
    (h : createJacobian P = some M) (hws : ws.Perm (allStores P M.rows jac)) :
    IsJacobian (blocksFrom 0 P.sizes) (structureOf P) (jacobianOf P { M with values := exec ws M.values }) := by
  obtain ⟨h1, h2, -⟩ := createJacobian_spec h
  have h0 : M.rows 0 = 0 := by
    cases hn : P.residuals with
    | nil =>
      rw [hn] at h2
      simpa [Evaluator.Prog.numRows, baseOf, hn] using h2
    | cons a l =>
      have := h1 0 (by rw [hn]; simp) 0 (Nat.zero_le _)
      simpa [Evaluator.Prog.rowOffset, baseOf] using this
  have hmem : ∀ (i : ℕ) (hi : i < P.residuals.length), ∀ q ∈ orderedBlocks P.residuals[i], q.1 < P.sizes.length :=
    fun i hi q hq => (hP _ (List.getElem_mem hi)).2 q ((orderedBlocks_perm _).mem_iff.1 hq)
  have hmono : ∀ r < P.numRows, M.rows r ≤ M.rows (r + 1) := by
    intro r hr'
    obtain ⟨i, hi, k, hk, rfl⟩ := row_slot P hr'
    rw [h1 i hi k hk.le, Nat.add_assoc, h1 i hi (k + 1) hk, Nat.add_mul]
    omega
  refine ⟨⟨h0, hmono, fun p hp => ?_⟩, rfl, rfl, (structureOf_fst P).symm, blocksFrom_laid _ _, ?_, fun b hb => ?_,
    fun s hs' => ?_, ?_, ?_, fun s hs' id hid => ?_, fun s hs' => ?_, fun s hs' k hk => ?_⟩
  · obtain ⟨r, hr1, hr2, hr3⟩ := own_row M.rows P.numRows p h0 hp
    obtain ⟨i, hi, k, hk, rfl⟩ := row_slot P hr1
    have := (crs_columns hP h jac hws hi hk).2 (M.cols p, exec ws M.values p) (by
      unfold Evaluator.CRS.row
      exact List.mem_map.2 ⟨p - M.rows (P.rowOffset i + k), List.mem_range.2 (by simp only; omega), by
        simp only; rw [Nat.add_sub_cancel' hr2]⟩)
    exact this
  · rw [structureOf_fst]
    exact blocksFrom_laid _ _
  · refine hs _ ?_
    have := List.mem_map_of_mem (f := Block.size) hb
    rwa [blocksFrom_size] at this
  · obtain ⟨i, hi, rfl⟩ := structureOf_mem hs'
    exact hr _ (List.getElem_mem hi)
  · rw [blocksFrom_size]
    rfl
  · rw [structureOf_fst, blocksFrom_size]
    rfl
  · obtain ⟨i, hi, rfl⟩ := structureOf_mem hs'
    obtain ⟨q, hq, rfl⟩ := List.mem_map.1 hid
    rw [blocksFrom_length]
    exact hmem i hi q hq
  · obtain ⟨i, hi, rfl⟩ := structureOf_mem hs'
    exact ((orderedBlocks_perm _).map Prod.fst).nodup_iff.2 (hP _ (List.getElem_mem hi)).1
  · obtain ⟨i, hi, rfl⟩ := structureOf_mem hs'
    rw [mat_row, crs_row h jac hws hi hk]
    unfold expectedRow columnsOf
    rw [List.map_flatMap, List.flatMap_map]
    refine List.flatMap_congr fun q hq => ?_
    rw [blk_sizes P (hmem i hi q hq), List.map_map, List.range'_eq_map_range]
    rfl

/-- **Its entries are the derivatives.** -/
theorem evaluator_entry (h : createJacobian P = some M) (hws : ws.Perm (allStores P M.rows jac)) {i : ℕ}
    (hi : i < P.residuals.length) {r : ℕ} (hr : r < (P.residuals[i]).numResiduals) (C : ℕ) :
    (jacobianOf P { M with values := exec ws M.values }).mat.entry (P.rowOffset i + r) C =
      denseJacobian P i r P.residuals[i] jac C := by
  rw [← crs_entry h jac hws hi hr C]
  unfold Sparse.Mat.entry Evaluator.CRS.entry Sparse.colSum
  rw [mat_row]

/-- **Calls of the solver with what the evaluator makes fit**, for every point and every schedule of the evaluations. -/
theorem evaluator_fits (hP : P.Ok) (hs : ∀ n ∈ P.sizes, 0 < n) (hr : ∀ rb ∈ P.residuals, 0 < rb.numResiduals)
    (h : createJacobian P = some M) (hws : ws.Perm (allStores P M.rows jac)) (b d : Vec) :
    Fits M.rows M.cols (blocksFrom 0 P.sizes) (structureOf P)
      ⟨jacobianOf P { M with values := exec ws M.values }, b, some d⟩ :=
  ⟨evaluator_isJacobian hP hs hr h hws, fun _ _ => rfl, fun _ _ => rfl, rfl⟩

end

/-- **CGNR on the GPU for a problem**: after any evaluations and calls, the step of an evaluation and a call with a
positive diagonal, run to the end, minimises the linear least squares problem of the derivatives of this evaluation. -/
theorem cuda_cgnr_program {llt : (n : ℕ) → Matrix (Fin n) (Fin n) ℝ → Matrix (Fin n) (Fin n) ℝ} (hl : PartitionedView.LltOk llt)
    {P : Evaluator.Prog} {M : Evaluator.CRS ℝ} (hP : P.Ok) (hs : ∀ n ∈ P.sizes, 0 < n)
    (hr : ∀ rb ∈ P.residuals, 0 < rb.numResiduals) (h : createJacobian P = some M) {threads : ℕ} (ht : 0 < threads)
    {o : CG.Options} (ho : SchurJacobi.Exact o P.sizes.sum) (p : Prec)
    {history : List (List (ℕ × ℝ) × Vec × Vec)}
    (hh : ∀ e ∈ history, ∃ jac, e.1.Perm (allStores P M.rows jac)) {K : Option Kept}
    (hK : After llt p threads (history.map fun e =>
      ⟨jacobianOf P { M with values := exec e.1 M.values }, e.2.1, some e.2.2⟩) K)
    {jac : ℕ → ℕ → ℕ → ℝ} {ws : List (ℕ × ℝ)} (hws : ws.Perm (allStores P M.rows jac)) (b d : Vec)
    (hd : ∀ j < P.sizes.sum, d j ≠ 0) :
    ∃ r, Solve llt o p threads K ⟨jacobianOf P { M with values := exec ws M.values }, b, some d⟩ (some r) ∧
      r.termination = .success ∧ ∃ E : Buf,
        (∀ (i : ℕ) (hi : i < P.residuals.length), ∀ k < (P.residuals[i]).numResiduals, ∀ C,
          E (P.rowOffset i + k) C = denseJacobian P i k P.residuals[i] jac C) ∧
        Minimises P.numRows P.sizes.sum E b (some d) r.x := by
  have hcalls : ∀ call ∈ history.map (fun e =>
      (⟨jacobianOf P { M with values := exec e.1 M.values }, e.2.1, some e.2.2⟩ : Call)),
      Fits M.rows M.cols (blocksFrom 0 P.sizes) (structureOf P) call := by
    intro call hc
    obtain ⟨e, he, rfl⟩ := List.mem_map.1 hc
    obtain ⟨jac', hj⟩ := hh e he
    exact evaluator_fits hP hs hr h hj _ _
  obtain ⟨⟨out, hout⟩, hall⟩ := cuda_cgnr_solves ht o hcalls hK (evaluator_fits hP hs hr h hws b d)
  obtain ⟨r, rfl, hg⟩ := hall out hout
  obtain ⟨g1, g2⟩ := hg.solves hl (SchurJacobi.regular_diagonal hd) ho
  exact ⟨r, hout, g1, _, fun i hi k hk C => evaluator_entry h hws hi hk C, g2⟩

end Ceres.CudaCgnr
