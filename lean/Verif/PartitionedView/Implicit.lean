import Verif.PartitionedView.Inverse

/-!
# C85: the implicit Schur complement on flat storage, for every schedule
-/
namespace Ceres.PartitionedView

open Matrix Ceres.Tasks Ceres.BlockSparse Ceres.CG

variable {M : BMat ℝ} {ne threads : ℕ} {V : View}

/-- The least squares problem that the Jacobian `M`, the regularisation `D` and the right hand side `b` stand for, cut
after the first `ne` column blocks. -/
def sysOf (M : BMat ℝ) (ne : ℕ) (D : Option (ℕ → ℝ)) (b : ℕ → ℝ) :
    Schur.Sys M.numRows (colsE M.bs ne) (colsF M.bs ne) where
  E := Matrix.of fun i j => M.entry i j
  F := Matrix.of fun i j => M.entry i (colsE M.bs ne + j)
  b := fun i => b i
  De := D.map fun d j => d j
  Df := D.map fun d j => d (colsE M.bs ne + j)
  be := fun j => blockOf M.bs.cols j
  bf := fun j => blockOf M.bs.cols (colsE M.bs ne + j)

/-- The object holds the inverses and the right hand side. -/
structure Holds (S : Implicit ℝ) (V : View) (M : BMat ℝ) (ne : ℕ) (D : Option (ℕ → ℝ)) (b : ℕ → ℝ) (compute : Bool) :
    Prop where
  view : S.A = V
  diag : S.D = D
  vec : S.b = b
  eteOk : S.ete.Ok
  eteRows : S.ete.numRows = colsE M.bs ne
  eteCols : S.ete.numCols = colsE M.bs ne
  ete : ∀ i j : Fin (colsE M.bs ne), S.ete.entry i j = (sysOf M ne D b).eteInv i j
  ftf : compute = true → ∃ f, S.ftf = some f ∧ f.Ok ∧ f.numRows = colsF M.bs ne ∧ f.numCols = colsF M.bs ne ∧
    ∀ i j : Fin (colsF M.bs ne), f.entry i j = (sysOf M ne D b).ftfInv i j
  rhs : ∀ i : Fin (colsF M.bs ne), S.rhs i = (sysOf M ne D b).rhs i

theorem blocks_e (bs : BS) (ne : ℕ) : offset (blocksOf bs 0 ne) (blocksOf bs 0 ne).length = colsE bs ne := by
  unfold offset
  rw [List.take_length]
  simp [blocksOf, colsE]

theorem blocks_f (bs : BS) (ne : ℕ) :
    offset (blocksOf bs ne bs.cols.length) (blocksOf bs ne bs.cols.length).length = colsF bs ne := by
  unfold offset
  rw [List.take_length]
  rw [blocksOf, colsF, List.take_of_length_le (by simp)]

theorem colsE_zero (bs : BS) : colsE bs 0 = 0 := by simp [colsE]

section
variable (hM : M.Ok) (ho : Ordered M.bs ne) (hV : create M ne threads = some V) (ht : 0 < threads)
include hM ho hV ht

theorem view_threads : V.threads = threads := by
  have := (create_isView ho hV).numThreads
  exact this

/-- `UpdateRhs`. -/
theorem gives_updateRhs (D : Option (ℕ → ℝ)) (b rhs : ℕ → ℝ) (t : Tmp ℝ) {ete : BMat ℝ} (h1 : ete.Ok)
    (h2 : ete.numRows = colsE M.bs ne) (h3 : ete.numCols = colsE M.bs ne)
    (h4 : ∀ i j : Fin (colsE M.bs ne), ete.entry i j = (sysOf M ne D b).eteInv i j) :
    Gives (updateRhs V M ete b rhs t) (colsF M.bs ne) (sysOf M ne D b).rhs rhs := by
  have hv := create_isView ho hV
  have hE := hv.numColsE
  have hF := hv.numColsF
  have hT : V.threads = threads := hv.numThreads
  unfold updateRhs
  rw [hT, hE, hF]
  refine (gives_setZero ht _ _).bind fun e0 he0 _ => ?_
  refine (gives_mulEt hM ho hV ht (A := (sysOf M ne D b).E) (fun _ _ => rfl) (u := (sysOf M ne D b).b)
    (fun _ => rfl) he0).bind fun e1 he1 _ => ?_
  refine (gives_setZero ht _ _).bind fun f0 hf0 _ => ?_
  refine (gives_mulBlocks h1 ht h2 h3 h4 he1 hf0).bind fun f1 hf1 _ => ?_
  refine (gives_setZero ht _ _).bind fun r0 hr0 _ => ?_
  refine (gives_mulE hM ho hV ht (A := (sysOf M ne D b).E) (fun _ _ => rfl) hf1 hr0).bind fun r1 hr1 _ => ?_
  refine (gives_sub ht (u := (sysOf M ne D b).b) (fun _ => rfl) hr1).bind fun r2 hr2 _ => ?_
  obtain ⟨y0, g1, g2, g3⟩ := gives_setZero (K := ℝ) ht (colsF M.bs ne) rhs
  obtain ⟨y, k1, k2, k3⟩ := gives_mulFt hM ho hV ht (A := (sysOf M ne D b).F) (fun _ _ => rfl) hr2 g2
  exact ⟨y, fun o => (bind_iff g1 o).trans (k1 o), k2, fun i hi => (k3 i hi).trans (g3 i hi)⟩

variable {D : Option (ℕ → ℝ)} {b : ℕ → ℝ} {compute : Bool} {S : Implicit ℝ}

/-- `RightMultiplyAndAccumulate`. -/
theorem gives_rightMultiply (hS : Holds S V M ne D b compute) (t : Tmp ℝ) (x y : ℕ → ℝ) :
    Gives (rightMultiply S M t x y) (colsF M.bs ne)
      ((sysOf M ne D b).rightMultiply (fun i => x i) fun i => y i) y := by
  have hv := create_isView ho hV
  have hE := hv.numColsE
  have hF := hv.numColsF
  have hT : V.threads = threads := hv.numThreads
  unfold rightMultiply
  rw [hS.view, hS.diag]
  simp only [hT, hE, hF]
  refine (gives_setZero ht _ _).bind fun r0 hr0 _ => ?_
  refine (gives_mulF hM ho hV ht (A := (sysOf M ne D b).F) (fun _ _ => rfl) (u := fun i => x i) (fun _ => rfl)
    hr0).bind fun r1 hr1 _ => ?_
  refine (gives_setZero ht _ _).bind fun e0 he0 _ => ?_
  refine (gives_mulEt hM ho hV ht (A := (sysOf M ne D b).E) (fun _ _ => rfl) hr1 he0).bind fun e1 he1 _ => ?_
  refine (gives_setZero ht _ _).bind fun f0 hf0 _ => ?_
  refine (gives_mulBlocks hS.eteOk ht hS.eteRows hS.eteCols hS.ete he1 hf0).bind fun f1 hf1 _ => ?_
  refine (gives_neg ht hf1).bind fun f2 hf2 _ => ?_
  refine (gives_mulE hM ho hV ht (A := (sysOf M ne D b).E) (fun _ _ => rfl) hf2 hr1).bind fun r2 hr2 _ => ?_
  cases D with
  | none =>
    obtain ⟨y0, g1, g2, g3⟩ := gives_setZero (K := ℝ) ht (colsF M.bs ne) y
    obtain ⟨z, k1, k2, k3⟩ := gives_mulFt hM ho hV ht (A := (sysOf M ne none b).F) (fun _ _ => rfl) hr2 g2
    exact ⟨z, fun o => (bind_iff g1 o).trans (k1 o), k2, fun i hi => (k3 i hi).trans (g3 i hi)⟩
  | some d =>
    obtain ⟨y0, g1, g2, g3⟩ := gives_scale ht (n := colsF M.bs ne) (x := x) (y := y)
        (v := fun i => d (colsE M.bs ne + i)) (u := fun i : Fin (colsF M.bs ne) => x i)
        (w := fun j : Fin (colsF M.bs ne) => d (colsE M.bs ne + j)) (fun _ => rfl) (fun _ => rfl)
    obtain ⟨z, k1, k2, k3⟩ := gives_mulFt hM ho hV ht (A := (sysOf M ne (some d) b).F) (fun _ _ => rfl) hr2 g2
    exact ⟨z, fun o => (bind_iff g1 o).trans (k1 o), k2, fun i hi => (k3 i hi).trans (g3 i hi)⟩

/-- `InversePowerSeriesOperatorRightMultiplyAccumulate`. -/
theorem gives_powerSeries (hS : Holds S V M ne D b true) (t : Tmp ℝ) (x y : ℕ → ℝ) :
    Gives (powerSeriesOperator S M t x y) (colsF M.bs ne)
      ((sysOf M ne D b).powerOp (fun i => x i) fun i => y i) y := by
  have hv := create_isView ho hV
  have hE := hv.numColsE
  have hF := hv.numColsF
  have hT : V.threads = threads := hv.numThreads
  obtain ⟨f, hf, hf1, hf2, hf3, hf4⟩ := hS.ftf rfl
  unfold powerSeriesOperator
  rw [hS.view, hf]
  simp only [hT, hE, hF]
  refine (gives_setZero ht _ _).bind fun r0 hr0 _ => ?_
  refine (gives_mulF hM ho hV ht (A := (sysOf M ne D b).F) (fun _ _ => rfl) (u := fun i => x i) (fun _ => rfl)
    hr0).bind fun r1 hr1 _ => ?_
  refine (gives_setZero ht _ _).bind fun e0 he0 _ => ?_
  refine (gives_mulEt hM ho hV ht (A := (sysOf M ne D b).E) (fun _ _ => rfl) hr1 he0).bind fun e1 he1 _ => ?_
  refine (gives_setZero ht _ _).bind fun f0 hf0 _ => ?_
  refine (gives_mulBlocks hS.eteOk ht hS.eteRows hS.eteCols hS.ete he1 hf0).bind fun f1 hf1' _ => ?_
  refine (gives_setZero ht _ _).bind fun r2 hr2 _ => ?_
  refine (gives_mulE hM ho hV ht (A := (sysOf M ne D b).E) (fun _ _ => rfl) hf1' hr2).bind fun r3 hr3 _ => ?_
  refine (gives_setZero ht _ _).bind fun g0 hg0 _ => ?_
  refine (gives_mulFt hM ho hV ht (A := (sysOf M ne D b).F) (fun _ _ => rfl) hr3 hg0).bind fun g1 hg1 _ => ?_
  exact gives_mulBlocks hf1 ht hf2 hf3 hf4 (y := y) (w := fun i => y i) hg1 fun _ => rfl

/-- `BackSubstitute`: the e part, then the f part. -/
theorem gives_backSubstitute (hS : Holds S V M ne D b compute) (t : Tmp ℝ) (x y : ℕ → ℝ) :
    ∃ z, (∀ o, backSubstitute S M t x y o ↔ o = some z) ∧
      (∀ i : Fin (colsE M.bs ne), z i = ((sysOf M ne D b).backSubstitute fun i => x i).1 i) ∧
      (∀ i : Fin (colsF M.bs ne), z (colsE M.bs ne + i) = ((sysOf M ne D b).backSubstitute fun i => x i).2 i) ∧
      ∀ i, M.numCols ≤ i → z i = y i := by
  have hv := create_isView ho hV
  have hE := hv.numColsE
  have hF := hv.numColsF
  have hT : V.threads = threads := hv.numThreads
  have hsum : colsE M.bs ne + colsF M.bs ne = M.numCols := by rw [colsE_add_colsF, hM.numCols]
  obtain ⟨r0, a1, a2, -⟩ := gives_setZero (K := ℝ) ht M.numRows t.rows
  obtain ⟨r1, b1, b2, -⟩ := gives_mulF hM ho hV ht (A := (sysOf M ne D b).F) (fun _ _ => rfl) (u := fun i => x i)
    (x := x) (fun _ => rfl) a2
  obtain ⟨r2, c1, c2, -⟩ := gives_sub ht (x := b) (v := b) (u := (sysOf M ne D b).b) (fun _ => rfl) b2
  obtain ⟨e0, d1, d2, -⟩ := gives_setZero (K := ℝ) ht (colsE M.bs ne) t.e
  obtain ⟨e1, f1, f2, -⟩ := gives_mulEt hM ho hV ht (A := (sysOf M ne D b).E) (fun _ _ => rfl) c2 d2
  obtain ⟨y0, g1, g2, g3⟩ := gives_setZero (K := ℝ) ht M.numCols y
  obtain ⟨y1, k1, k2, k3⟩ := gives_mulBlocks hS.eteOk ht hS.eteRows hS.eteCols hS.ete (x := e1) (y := y0)
    (w := 0) f2 fun i => g2 ⟨i, by omega⟩
  refine ⟨fun j => if colsE M.bs ne ≤ j ∧ j < colsE M.bs ne + colsF M.bs ne then x (j - colsE M.bs ne) else y1 j,
    fun o => ?_, fun i => ?_, fun i => ?_, fun i hi => ?_⟩
  · unfold backSubstitute
    rw [hS.view, hS.vec]
    simp only [hT, hE, hF]
    rw [bind_iff a1, bind_iff b1, bind_iff c1, bind_iff d1, bind_iff f1, bind_iff g1, bind_iff k1]
    exact copy_run ht _ _ _ _ _ _
  · simp only
    rw [if_neg (by omega), k2]
    rfl
  · simp only
    rw [if_pos ⟨by omega, by omega⟩, Nat.add_sub_cancel_left]
    rfl
  · simp only
    rw [if_neg (by omega), k3 i (by omega), g3 i hi]

variable {llt : (n : ℕ) → Matrix (Fin n) (Fin n) ℝ → Matrix (Fin n) (Fin n) ℝ}

/-- `Init`. -/
theorem gives_init (hl : LltOk llt) (hs : M.bs.Simple) (hf : (sysOf M ne D b).FullRank) (oldE oldF oldRhs : ℕ → ℝ)
    (t : Tmp ℝ) : ∃ S, (∀ o, init llt V M D b compute oldE oldF oldRhs t o ↔ o = some S) ∧
      Holds S V M ne D b compute ∧ ∀ i, colsF M.bs ne ≤ i → S.rhs i = oldRhs i := by
  have hv := create_isView ho hV
  have hE := hv.numColsE
  have hF := hv.numColsF
  have hT : V.threads = threads := hv.numThreads
  have hle := ho.le
  have hBE := hv.blocksE
  have hBF := hv.blocksF
  -- the block diagonal of E
  obtain ⟨-, -, vE, e1, -, e2⟩ := view_ete hM hs ho hV ht oldE oldE oldE
  obtain ⟨wE, e3, e4, -⟩ := invert_run (bs := M.bs) (a := 0) (b := ne) llt vE D ht
  have eN : SPD (normal (colMat M 0 (colsE M.bs ne)) (D.map fun d (i : Fin (colsE M.bs ne)) => d i)) := by
    have := Schur.normalE_spd hf
    have e : colMat M 0 (colsE M.bs ne) = (sysOf M ne D b).E := by
      ext i j
      simp [colMat, sysOf, colsE_zero]
    rw [e]
    exact this
  have e5 := inverted_entry hl hM hle (blocks_e M.bs ne) e1 D eN e4
  have e6 : ∀ i j : Fin (colsE M.bs ne), (BMat.ofStructure (layout M.bs 0 ne) wE).entry i j =
      (sysOf M ne D b).eteInv i j := by
    intro i j
    rw [e5]
    have e : colMat M 0 (colsE M.bs ne) = (sysOf M ne D b).E := by
      ext i j
      simp [colMat, sysOf, colsE_zero]
    have e' : (fun i : Fin (colsE M.bs ne) => blockOf M.bs.cols (colsE M.bs 0 + i)) = (sysOf M ne D b).be := by
      funext i
      simp [sysOf, colsE_zero]
    rw [e, e']
    rfl
  have e7 : (BMat.ofStructure (layout M.bs 0 ne) wE).numRows = colsE M.bs ne :=
    (layout_numCols M.bs 0 ne wE).2.trans (blocks_e M.bs ne)
  have e8 : (BMat.ofStructure (layout M.bs 0 ne) wE).numCols = colsE M.bs ne :=
    (layout_numCols M.bs 0 ne wE).1.trans (blocks_e M.bs ne)
  have e9 := layout_ok (K := ℝ) M.bs 0 ne wE
  -- the block diagonal of F
  obtain ⟨-, -, vF, f1, -, f2⟩ := view_ftf hM hs ho hV ht oldF oldF oldF
  obtain ⟨wF, f3, f4, -⟩ := invert_run (bs := M.bs) (a := ne) (b := M.bs.cols.length) llt vF
    (tailD (colsE M.bs ne) D) ht
  have fD : (tailD (colsE M.bs ne) D).map (fun d (i : Fin (colsF M.bs ne)) => d i) = (sysOf M ne D b).Df := by
    cases D <;> rfl
  have f5 := inverted_entry hl hM le_rfl (blocks_f M.bs ne) f1 (tailD (colsE M.bs ne) D)
    (by rw [fD]; exact Schur.normalF_spd hf) f4
  have f6 : ∀ i j : Fin (colsF M.bs ne), (BMat.ofStructure (layout M.bs ne M.bs.cols.length) wF).entry i j =
      (sysOf M ne D b).ftfInv i j := by
    intro i j
    rw [f5, fD]
    rfl
  have f7 : (BMat.ofStructure (layout M.bs ne M.bs.cols.length) wF).numRows = colsF M.bs ne :=
    (layout_numCols M.bs ne _ wF).2.trans (blocks_f M.bs ne)
  have f8 : (BMat.ofStructure (layout M.bs ne M.bs.cols.length) wF).numCols = colsF M.bs ne :=
    (layout_numCols M.bs ne _ wF).1.trans (blocks_f M.bs ne)
  have f9 := layout_ok (K := ℝ) M.bs ne M.bs.cols.length wF
  obtain ⟨rhs, r1, r2, r3⟩ := gives_updateRhs hM ho hV ht D b oldRhs t e9 e7 e8 e6
  have e2' : ∀ o, onY (EtERun V M (BMat.ofStructure (layout M.bs 0 ne) oldE) (memOf M oldE oldE)) o ↔ o = some vE :=
    onY_iff e2
  have f2' : ∀ o, onY (FtFRun V M (BMat.ofStructure (layout M.bs ne M.bs.cols.length) oldF) (memOf M oldF oldF)) o ↔
      o = some vF := onY_iff f2
  have hadd : ne + (M.bs.cols.length - ne) = M.bs.cols.length := Nat.add_sub_cancel' hle
  refine ⟨{ A := V, D := D, b := b, ete := BMat.ofStructure (layout M.bs 0 ne) wE
            ftf := if compute then some (BMat.ofStructure (layout M.bs ne M.bs.cols.length) wF) else none
            rhs := rhs }, fun o => ?_, ?_, r3⟩
  · unfold init blockDiagonalE blockDiagonalF
    simp only [hT, hE, hBE, hBF, hadd]
    rw [bind_iff e2']
    cases compute with
    | true =>
      simp only [if_true]
      rw [bind_iff f2', bind_iff e3, bind_iff f3, bind_iff r1]
    | false =>
      simp only [Bool.false_eq_true, if_false]
      rw [bind_iff (a := oldF) (fun _ => Iff.rfl), bind_iff e3, bind_iff (a := oldF) (fun _ => Iff.rfl), bind_iff r1]
  · exact
      { view := rfl, diag := rfl, vec := rfl, eteOk := e9, eteRows := e7, eteCols := e8, ete := e6
        ftf := fun hc => ⟨_, if_pos hc, f9, f7, f8, f6⟩, rhs := r2 }

end

end Ceres.PartitionedView
