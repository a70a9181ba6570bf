import Verif.Cgnr.Spec
import Verif.Cgnr.Jacobi

/-!
# The SUBSET preconditioner and the operator of the normal equations
-/

noncomputable section

namespace Ceres.Cgnr

open Matrix Ceres.Tasks Ceres.BlockSparse Ceres.Direct Ceres.InnerProduct
open Ceres.PartitionedView (bind_iff onY_iff onY assign Step)

/-! ## The operator -/

theorem dtd_step (n : ℕ) (m : Mem ℝ) :
    Step 0 n true true dtdTask m fun i => m (.y i) + m (.val i) ^ 2 * m (.x i) where
  runs := fun free i tid hi p hm => by
    rw [Nat.zero_add] at hm ⊢
    refine .readMine (Or.inr (by simp [PartitionedView.stepKind])) ?_
    rw [hm]
    exact .readFixed (by simp [PartitionedView.stepKind, hi]) (.readFixed (by simp [PartitionedView.stepKind, hi])
      (.write (Or.inr (by simp [PartitionedView.stepKind])) (.ret _)))

/-- `y += (A'A + D'D) x`, for every schedule. -/
theorem normalMultiply_gives {A : BMat ℝ} (h : A.Ok) {threads : ℕ} (ht : 0 < threads) (D : Option Vec) (x y : Vec) :
    ∃ z, (∀ o, normalMultiply threads A D x y o ↔ o = some z) ∧ ∀ i < A.numCols,
      z i = y i + ∑ j ∈ Finset.range A.numCols, normalMat A.numRows A.entry D i j * x j := by
  have h1 := onY_iff fun o => right_product h ht x (fun _ => 0) o
  have h2 := onY_iff fun o => left_product h ht (fun r => memOf A x (fun r => 0 + ∑ c ∈ Finset.range A.numCols,
    A.entry r c * x c) (.y r)) y o
  set y1 : Vec := fun c => y c + ∑ r ∈ Finset.range A.numRows, A.entry r c * (0 + ∑ c ∈ Finset.range A.numCols,
    A.entry r c * x c) with hy1
  have hval : ∀ i < A.numCols, y1 i + dsq D i * x i =
      y i + ∑ j ∈ Finset.range A.numCols, normalMat A.numRows A.entry D i j * x j := by
    intro i hi
    rw [normalMat_mul _ _ _ _ _ hi, hy1]
    simp only [zero_add]
    ring
  unfold normalMultiply
  simp only [bind_iff h1, bind_iff h2]
  cases D with
  | none =>
    refine ⟨y1, fun o => Iff.rfl, fun i hi => ?_⟩
    rw [← hval i hi]
    simp [dsq]
  | some D =>
    refine ⟨_, fun o => PartitionedView.step_run (dtd_step A.numCols _) ht o, fun i hi => ?_⟩
    rw [← hval i hi, if_pos ⟨Nat.zero_le _, by omega⟩]
    rfl

/-! ## SUBSET -/

/-- What the computed triangle stands for. -/
theorem product_sym {M : BMat ℝ} (h : M.Ok) {s e : ℕ} {upper : Bool} {R : Sparse.Mat ℝ}
    (hR : IsProduct M s e upper R) : Input upper R ∧
    ∀ i < M.numCols, ∀ j < M.numCols, R.sym i j =
      ∑ k ∈ Finset.Ico (rowStart M.bs.rows s) (rowStart M.bs.rows e), M.entry k i * M.entry k j := by
  refine ⟨⟨hR.wf, by rw [hR.numRows, hR.numCols], hR.storage, ?_⟩, ?_⟩
  · intro r hr
    have := hR.increasing r (by rw [← hR.numRows]; exact hr)
    rw [List.pairwise_map] at this
    exact this.imp fun h => le_of_lt h
  · intro i hi j hj
    unfold Sparse.Mat.sym
    rw [hR.storage]
    have hm : ∀ {r c : ℕ}, r ≤ c → blockOf M.bs.cols r ≤ blockOf M.bs.cols c :=
      fun hrc => blockOf_mono h.bs.cols (Nat.zero_le _) hrc
    cases upper with
    | true =>
      simp only [if_true]
      split_ifs with hij
      · rw [hR.entry i hi j hj, if_pos (by unfold InTriangle; rw [if_pos rfl]; exact hm hij)]
      · rw [hR.entry j hj i hi, if_pos (by unfold InTriangle; rw [if_pos rfl]; exact hm (by omega))]
        exact Finset.sum_congr rfl fun k _ => mul_comm _ _
    | false =>
      simp only [Bool.false_eq_true, if_false]
      split_ifs with hij
      · rw [hR.entry i hi j hj, if_pos (by unfold InTriangle; simpa using hm hij)]
      · rw [hR.entry j hj i hi, if_pos (by unfold InTriangle; simpa using hm (by omega))]
        exact Finset.sum_congr rfl fun k _ => mul_comm _ _

theorem same_refl (A : BMat ℝ) : Same A A := ⟨rfl, rfl, rfl, rfl, rfl, fun _ _ => rfl⟩

theorem same_entry {A B : BMat ℝ} (h : Same A B) (hB : B.Ok) : A.entry = B.entry := by
  funext r c
  unfold BMat.entry
  rw [h.bs]
  exact rows_entry_congr hB h.values r c

theorem restore_ok {A A1 : BMat ℝ} {D : Option Vec} (h : A.Ok) (h1 : A1.Ok) (hn : A.nnz ≤ A1.nnz)
    (hs : Same (restore D A1) A) : (restore D A1).Ok := by
  refine ⟨?_, ?_, ?_, ?_, ?_⟩
  · rw [hs.bs, hs.nnz]; exact h.bs
  · rw [hs.tbs, hs.bs]; exact h.tbs
  · rw [hs.numRows, hs.bs]; exact h.numRows
  · rw [hs.numCols, hs.bs]; exact h.numCols
  · rw [hs.nnz]
    have : (restore D A1).maxNnz = A1.maxNnz := by cases D <;> rfl
    rw [this]
    exact hn.trans h1.capacity

theorem restore_prefix {A A1 : BMat ℝ} {D : Option Vec} (hs : Same (restore D A1) A) :
    ∃ k, A.bs.rows = A1.bs.rows.take k := by
  cases D with
  | none => exact ⟨A1.bs.rows.length, by rw [List.take_length, ← hs.bs]; rfl⟩
  | some d => exact ⟨_, by rw [← hs.bs]; rfl⟩

theorem prefix_start {A A1 : BMat ℝ} {k start : ℕ} (hk : A.bs.rows = A1.bs.rows.take k) (hs : start ≤ A.bs.rows.length) :
    start ≤ A1.bs.rows.length ∧ rowStart A1.bs.rows start = rowsBefore A start := by
  have hl := hs
  rw [hk, List.length_take] at hl
  refine ⟨by omega, ?_⟩
  unfold rowStart rowsBefore
  rw [hk, List.take_take, min_eq_left (by omega)]

theorem rowsBefore_le {A : BMat ℝ} (h : A.Ok) (start : ℕ) : rowsBefore A start ≤ A.numRows := by
  unfold rowsBefore
  rw [h.numRows]
  conv_rhs => rw [← List.take_append_drop start A.bs.rows]
  rw [List.map_append, List.sum_append]
  omega

/-- The matrix of the rows used. -/
theorem standsFor_subset {A : BMat ℝ} (h : A.Ok) (start : ℕ) (D : Option Vec) (i j : ℕ) :
    standsFor (.subset start) A D i j =
      normalMat (A.numRows - rowsBefore A start) (fun k j => A.entry (rowsBefore A start + k) j) D i j := by
  unfold standsFor normalMat
  simp only
  rw [Finset.sum_Ico_eq_sum_range]
  rfl

/-- What is kept between calls. -/
def InvSubset (c : SparseChol) (start : ℕ) (bs : BS) (p : Bool) (S : State c) : Prop :=
  (S.computer = none ∧ S.chol = c.init) ∨
  ∃ C P A D A1, S.computer = some C ∧ Reach c P S.chol ∧ SamePattern P C.result ∧ A.Ok ∧ A.bs = bs ∧
    D.isSome = p ∧ augment A D = some A1 ∧ Planned A1 start A1.bs.rows.length c.upper C

/-- **An update of SUBSET** succeeds, gives the matrix back and leaves a factorisation of `Q'Q + D'D`. -/
theorem subset_update {c : SparseChol} {start : ℕ} {bs : BS} {p : Bool} {S : State c} (hI : InvSubset c start bs p S)
    {call : Call} (hf : Fits (.subset start) bs p call) (oldCols : ℕ → ℕ) (oldValues : Vec) :
    ∃ S' A', subsetUpdate start S call.A call.D oldCols oldValues = some (S', A') ∧ Same A' call.A ∧ A'.Ok ∧
      InvSubset c start bs p S' ∧
      (c.Correct → Solvable (.subset start) call.A call.D → ∀ rhs,
        Eqs call.A.numCols (standsFor (.subset start) call.A call.D) (c.solve S'.chol rhs).2 rhs) := by
  obtain ⟨hstart, hnz, hdiag⟩ := hf.subset start rfl
  obtain ⟨A1, hA1, hok1, hs1, hcols1, hnnz1, hrows1, hent1, hsame⟩ :=
    augment_spec hf.ok (hf.structure_ ▸ hf.sorted) call.D
  have hcomp : ∃ C P B D B1, (match S.computer with
      | some C => some C
      | none => create A1 start A1.bs.rows.length c.upper oldCols oldValues) = some C ∧ Reach c P S.chol ∧
      SamePattern P C.result ∧ B.Ok ∧ B.bs = bs ∧ D.isSome = p ∧ augment B D = some B1 ∧
      Planned B1 start B1.bs.rows.length c.upper C := by
    rcases hI with ⟨h1, h2⟩ | ⟨C, P, A, D, B1, h1, h2, h3, h4, h5, h6, h7, h8⟩
    · obtain ⟨C, hC, hP⟩ := create_planned hok1 (lt_of_lt_of_le hnz hnnz1) start A1.bs.rows.length c.upper
        oldCols oldValues
      refine ⟨C, C.result, call.A, call.D, A1, ?_, ?_, ⟨rfl, rfl, fun _ _ => rfl, fun _ _ => rfl⟩, hf.ok,
        hf.structure_, hdiag, hA1, hP⟩
      · rw [h1]; exact hC
      · rw [h2]; exact .init
    · exact ⟨C, P, A, D, B1, by rw [h1], h2, h3, h4, h5, h6, h7, h8⟩
  obtain ⟨C, P, B, D, B1, hC, hreach, hpat, hBok, hBbs, hD, hB1, hplan⟩ := hcomp
  obtain ⟨B1', hB1', hokB1, hsB1, -⟩ := augment_spec hBok (hBbs ▸ hf.sorted) D
  rw [hB1] at hB1'
  cases hB1'
  obtain ⟨hbs1, hncols1⟩ := augment_bs hf.ok hBok (hf.structure_.trans hBbs.symm)
    (hdiag.trans hD.symm) hA1 hB1
  obtain ⟨k, hk⟩ := restore_prefix hsame
  obtain ⟨hle, hbefore⟩ := prefix_start hk (hf.structure_ ▸ hstart)
  have elen : B1.bs.rows.length = A1.bs.rows.length := by rw [hbs1]
  obtain ⟨C', hC', hplan', hprod⟩ := compute_planned hokB1 hsB1 (elen ▸ hle) le_rfl hplan hbs1 hncols1
  have hprod1 : IsProduct A1 start A1.bs.rows.length c.upper C'.result := by
    rw [← elen]; exact hprod
  obtain ⟨hin, hsym⟩ := product_sym hok1 hprod1
  obtain ⟨k1, k2, k3, k4⟩ := compute_keeps hC'
  have hpat' : SamePattern P C'.result := by
    obtain ⟨p1, p2, p3, p4⟩ := hpat
    exact ⟨p1.trans k1.symm, p2.trans k2.symm, by rw [k3]; exact p3, by rw [k4]; exact p4⟩
  have hncol : C'.result.numCols = call.A.numCols := by rw [hprod1.numCols, hcols1]
  have hlast : rowStart A1.bs.rows A1.bs.rows.length = A1.numRows := by
    unfold rowStart
    rw [List.take_length, hok1.numRows]
  have hnormal : ∀ i < call.A.numCols, ∀ j < call.A.numCols,
      C'.result.sym i j = standsFor (.subset start) call.A call.D i j := by
    intro i hi j hj
    rw [hsym i (hcols1 ▸ hi) j (hcols1 ▸ hj), hbefore, hlast, Finset.sum_Ico_eq_sum_range, standsFor_subset hf.ok]
    have hb := rowsBefore_le hf.ok start
    refine gram_append (R := fun k j => A1.entry (rowsBefore call.A start + k) j) ?_ (fun k hk j hj => ?_) hi hj
    · omega
    · rw [hent1 _ (by omega) j hj]
      by_cases hkm : k < call.A.numRows - rowsBefore call.A start
      · rw [if_pos hkm, if_pos (by omega)]
      · rw [if_neg hkm, if_neg (by omega)]
        congr 1
        omega
  have hval : subsetUpdate start S call.A call.D oldCols oldValues = some
      (⟨S.values, some C', (c.factorize S.chol C'.result).2⟩, restore call.D A1) := by
    unfold subsetUpdate
    simp only [Option.bind_eq_bind]
    rw [hA1, Option.bind_some]
    cases hcp : S.computer with
    | none =>
      rw [hcp] at hC
      simp only at hC ⊢
      rw [hC, Option.bind_some, hC', Option.bind_some]
    | some C0 =>
      rw [hcp] at hC
      simp only at hC ⊢
      rw [hC, Option.bind_some, hC', Option.bind_some]
  refine ⟨_, _, hval, hsame, restore_ok hf.ok hok1 hnnz1 hsame,
    Or.inr ⟨C', P, B, D, B1, rfl, .factorize _ hreach hin hpat', hpat', hBok, hBbs, hD, hB1, hplan'⟩, fun hc hreg rhs => ?_⟩
  have hpd : PosDef C'.result.numCols C'.result.sym := by
    rw [hncol]
    intro x hx
    refine lt_of_lt_of_eq (posDef_normal hreg x hx) ?_
    exact Finset.sum_congr rfl fun i hi => Finset.sum_congr rfl fun j hj => by
      rw [hnormal i (Finset.mem_range.1 hi) j (Finset.mem_range.1 hj), standsFor_subset hf.ok]
  have hfac := hc.complete P S.chol C'.result hreach hin hpat' hpd
  have hsol := (hc.solves P S.chol C'.result rhs hreach hin hpat' hfac).2
  intro i hi
  have := hsol i (hncol ▸ hi)
  rw [hncol] at this
  refine Eq.trans ?_ this
  exact Finset.sum_congr rfl fun j hj => by rw [hnormal i hi j (Finset.mem_range.1 hj)]

end Ceres.Cgnr
