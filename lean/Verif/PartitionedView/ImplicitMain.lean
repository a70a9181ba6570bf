import Verif.PartitionedView.Implicit

/-!
# C85: `ImplicitSchurComplement` is the Schur complement of the least squares problem, for every schedule
-/
namespace Ceres.PartitionedView

open Matrix Ceres.Tasks Ceres.BlockSparse Ceres.CG

/-! ## Specification -/

/-- `‖A z - b‖² + ‖D z‖²` for the matrix `A` that `M` holds. -/
noncomputable def lsCost (M : BMat ℝ) (D : Option (ℕ → ℝ)) (b z : ℕ → ℝ) : ℝ :=
  ∑ r ∈ Finset.range M.numRows, (∑ c ∈ Finset.range M.numCols, M.entry r c * z c - b r) ^ 2 +
    D.elim 0 fun d => ∑ c ∈ Finset.range M.numCols, (d c * z c) ^ 2

/-- The columns of `[A; D]` are linearly independent. -/
def Independent (M : BMat ℝ) (D : Option (ℕ → ℝ)) : Prop :=
  ∀ z, lsCost M D (fun _ => 0) z = 0 → ∀ c < M.numCols, z c = 0

/-- `E`: the columns of the first `ne` column blocks. -/
def matE (M : BMat ℝ) (ne : ℕ) : Matrix (Fin M.numRows) (Fin (colsE M.bs ne)) ℝ := Matrix.of fun i j => M.entry i j

/-- `F`: the other columns. -/
def matF (M : BMat ℝ) (ne : ℕ) : Matrix (Fin M.numRows) (Fin (colsF M.bs ne)) ℝ :=
  Matrix.of fun i j => M.entry i (colsE M.bs ne + j)

/-- `diag(D)²` for `n` columns from `off`. -/
def dSquare (D : Option (ℕ → ℝ)) (off n : ℕ) : Matrix (Fin n) (Fin n) ℝ :=
  D.elim 0 fun d => Matrix.diagonal fun j => d (off + j) ^ 2

/-- `(EᵀE + Dₑ²)⁻¹`. -/
noncomputable def invE (M : BMat ℝ) (ne : ℕ) (D : Option (ℕ → ℝ)) : Matrix (Fin (colsE M.bs ne)) (Fin (colsE M.bs ne)) ℝ :=
  ((matE M ne)ᵀ * matE M ne + dSquare D 0 _)⁻¹

/-- The Schur complement `FᵀF + D_f² - FᵀE (EᵀE + Dₑ²)⁻¹ EᵀF`. -/
noncomputable def schurOf (M : BMat ℝ) (ne : ℕ) (D : Option (ℕ → ℝ)) :
    Matrix (Fin (colsF M.bs ne)) (Fin (colsF M.bs ne)) ℝ :=
  (matF M ne)ᵀ * matF M ne + dSquare D (colsE M.bs ne) _ - (matF M ne)ᵀ * matE M ne * invE M ne D * (matE M ne)ᵀ * matF M ne

/-- `Fᵀ(b - E (EᵀE + Dₑ²)⁻¹ Eᵀb)`. -/
noncomputable def rhsOf (M : BMat ℝ) (ne : ℕ) (D : Option (ℕ → ℝ)) (b : ℕ → ℝ) : Fin (colsF M.bs ne) → ℝ :=
  (matF M ne)ᵀ *ᵥ ((fun i : Fin M.numRows => b i) - matE M ne *ᵥ (invE M ne D *ᵥ ((matE M ne)ᵀ *ᵥ fun i => b i)))

/-! ## The system -/

variable {M : BMat ℝ} {ne threads : ℕ} {V : View} {D : Option (ℕ → ℝ)} {b : ℕ → ℝ}

/-- A nonzero entry lies in a cell. -/
theorem entry_cell {r c : ℕ} (h : M.entry r c ≠ 0) : ∃ row ∈ M.bs.rows, ∃ cell ∈ row.cells,
    row.block.position ≤ r ∧ r < row.block.position + row.block.size ∧
      (M.bs.col cell.blockId).position ≤ c ∧
        c < (M.bs.col cell.blockId).position + (M.bs.col cell.blockId).size := by
  by_contra hc
  push Not at hc
  apply h
  unfold BMat.entry BS.entry
  refine List.sum_eq_zero fun x hx => ?_
  obtain ⟨row, hr, rfl⟩ := List.mem_map.1 hx
  refine List.sum_eq_zero fun x hx => ?_
  obtain ⟨cell, hcell, rfl⟩ := List.mem_map.1 hx
  unfold cellAt
  rw [if_neg]
  rintro ⟨h1, h2, h3, h4⟩
  have := hc row hr cell hcell h1 h2 h3
  omega

/-- A row meets one e block. -/
theorem sys_oneE (hM : M.Ok) (ho : Ordered M.bs ne) : (sysOf M ne D b).OneE := by
  intro r i j hi hj
  obtain ⟨ri, hri, ci, hci, i1, i2, i3, i4⟩ := entry_cell (M := M) (r := r) (c := i) hi
  obtain ⟨rj, hrj, cj, hcj, j1, j2, j3, j4⟩ := entry_cell (M := M) (r := r) (c := j) hj
  obtain ⟨ki, hki⟩ := List.mem_iff_getElem?.1 hri
  obtain ⟨kj, hkj⟩ := List.mem_iff_getElem?.1 hrj
  have e1 := blockOf_eq hM.bs.rows (i := ki) (b := ri.block) (by simp [hki]) i1 i2
  have e2 := blockOf_eq hM.bs.rows (i := kj) (b := rj.block) (by simp [hkj]) j1 j2
  have e3 : ki = kj := e1.symm.trans e2
  subst e3
  have e4 : ri = rj := by rw [hki] at hkj; injection hkj
  subst e4
  have a1 := col_get (hM.bs.ids ri hri ci hci)
  have a2 := col_get (hM.bs.ids ri hri cj hcj)
  have f1 := blockOf_eq hM.bs.cols a1 i3 i4
  have f2 := blockOf_eq hM.bs.cols a2 j3 j4
  show blockOf M.bs.cols i = blockOf M.bs.cols j
  rw [f1, f2]
  have lt : ∀ {c : Cell} {k : ℕ}, M.bs.cols[c.blockId]? = some (M.bs.col c.blockId) →
      (M.bs.col c.blockId).position ≤ k → k < colsE M.bs ne → c.blockId < ne := by
    intro c k ha hp hk
    have := (col_e hM.bs.cols (ne := ne) ha)
    by_contra hge
    have := this.2 (by omega)
    omega
  have b1 := lt a1 i3 i.2
  have b2 := lt a2 j3 j.2
  have hd := ho.one ri hri
  cases hcells : ri.cells with
  | nil => rw [hcells] at hci; cases hci
  | cons c0 cs =>
    rw [hcells] at hci hcj hd
    have key : ∀ c ∈ c0 :: cs, c.blockId < ne → c = c0 := by
      intro c hc hlt
      rcases List.mem_cons.1 hc with rfl | hc
      · rfl
      · have := hd c hc
        omega
    rw [key ci hci b1, key cj hcj b2]

/-- The two ways to write the objective. -/
theorem lsCost_eq (hM : M.Ok) (z : ℕ → ℝ) :
    lsCost M D b z = (sysOf M ne D b).cost (fun j => z j, fun j => z (colsE M.bs ne + j)) := by
  have hsum : M.numCols = colsE M.bs ne + colsF M.bs ne := by rw [colsE_add_colsF, hM.numCols]
  have split : ∀ f : ℕ → ℝ, ∑ c ∈ Finset.range M.numCols, f c =
      (∑ j : Fin (colsE M.bs ne), f j) + ∑ j : Fin (colsF M.bs ne), f (colsE M.bs ne + j) := by
    intro f
    rw [hsum, Finset.sum_range_add, Finset.sum_range, Finset.sum_range]
  unfold lsCost Schur.Sys.cost
  rw [Finset.sum_range, add_assoc]
  congr 1
  · refine Finset.sum_congr rfl fun i _ => ?_
    rw [split]
    rfl
  · cases D with
    | none => simp [sysOf]
    | some d =>
      simp only [Option.elim, sysOf, Option.map]
      exact split _

theorem sys_fullRank (hM : M.Ok) (h : Independent M D) : (sysOf M ne D b).FullRank := by
  have hsum : M.numCols = colsE M.bs ne + colsF M.bs ne := by rw [colsE_add_colsF, hM.numCols]
  intro x hx
  let z : ℕ → ℝ := fun c => if h : c < colsE M.bs ne then x.1 ⟨c, h⟩ else
    if h : c - colsE M.bs ne < colsF M.bs ne then x.2 ⟨c - colsE M.bs ne, h⟩ else 0
  have h1 : (fun j : Fin (colsE M.bs ne) => z j) = x.1 := by
    funext j
    simp [z]
  have h2 : (fun j : Fin (colsF M.bs ne) => z (colsE M.bs ne + j)) = x.2 := by
    funext j
    simp [z]
  have h0 : lsCost M D (fun _ => 0) z = 0 := by
    rw [lsCost_eq (ne := ne) hM, h1, h2]
    exact hx
  have hz := h z h0
  refine Prod.ext ?_ ?_
  · rw [← h1]
    funext j
    exact hz j (by omega)
  · rw [← h2]
    funext j
    exact hz _ (by omega)

/-- With a regularisation without zeros nothing is asked of the Jacobian. -/
theorem independent_of_diagonal (d : ℕ → ℝ) (hd : ∀ c < M.numCols, d c ≠ 0) : Independent M (some d) := by
  intro z hz c hc
  unfold lsCost at hz
  simp only [Option.elim] at hz
  have h1 : 0 ≤ ∑ r ∈ Finset.range M.numRows, (∑ c ∈ Finset.range M.numCols, M.entry r c * z c - 0) ^ 2 :=
    Finset.sum_nonneg fun _ _ => sq_nonneg _
  have h2 : 0 ≤ ∑ c ∈ Finset.range M.numCols, (d c * z c) ^ 2 := Finset.sum_nonneg fun _ _ => sq_nonneg _
  have h3 : ∑ c ∈ Finset.range M.numCols, (d c * z c) ^ 2 = 0 := by linarith
  have h4 := (Finset.sum_eq_zero_iff_of_nonneg fun _ _ => sq_nonneg _).1 h3 c (Finset.mem_range.2 hc)
  have h5 : d c * z c = 0 := by simpa using h4
  exact (mul_eq_zero.1 h5).resolve_left (hd c hc)

theorem normal_e : normal (sysOf M ne D b).E (sysOf M ne D b).De =
    (matE M ne)ᵀ * matE M ne + dSquare D 0 _ := by
  cases D with
  | none => rfl
  | some d => simp [normal, sysOf, dSquare, matE]

theorem normal_f : normal (sysOf M ne D b).F (sysOf M ne D b).Df =
    (matF M ne)ᵀ * matF M ne + dSquare D (colsE M.bs ne) _ := by
  cases D with
  | none => rfl
  | some d => rfl

theorem eteInv_invE (hM : M.Ok) (ho : Ordered M.bs ne) : (sysOf M ne D b).eteInv = invE M ne D := by
  rw [Schur.eteInv_eq _ (sys_oneE hM ho), normal_e]
  rfl

theorem schur_schurOf (hM : M.Ok) (ho : Ordered M.bs ne) : (sysOf M ne D b).schur = schurOf M ne D := by
  unfold Schur.Sys.schur schurOf
  rw [eteInv_invE hM ho, normal_f]
  rfl

theorem rhs_rhsOf (hM : M.Ok) (ho : Ordered M.bs ne) : (sysOf M ne D b).rhs = rhsOf M ne D b := by
  rw [Schur.rhs_eq, eteInv_invE hM ho]
  rfl

/-! ## The property -/

section
variable {llt : (n : ℕ) → Matrix (Fin n) (Fin n) ℝ → Matrix (Fin n) (Fin n) ℝ} {compute : Bool} {S : Implicit ℝ}

/-- **`Init` has one outcome** whatever the schedule and whatever the arrays held: the inverse of the block diagonals
and the right hand side of the reduced system. -/
theorem implicit_init (hM : M.Ok) (hs : M.bs.Simple) (ho : Ordered M.bs ne) (hV : create M ne threads = some V)
    (ht : 0 < threads) (hl : LltOk llt) (hi : Independent M D) (b oldE oldF oldRhs : ℕ → ℝ) (compute : Bool)
    (t : Tmp ℝ) : ∃ S, (∀ o, init llt V M D b compute oldE oldF oldRhs t o ↔ o = some S) ∧
      Holds S V M ne D b compute ∧
      (∀ i : Fin (colsF M.bs ne), S.rhs i = rhsOf M ne D b i) ∧
      (∀ i j : Fin (colsE M.bs ne), S.ete.entry i j = invE M ne D i j) := by
  obtain ⟨S, h1, h2, -⟩ := gives_init (compute := compute) hM ho hV ht hl hs (sys_fullRank (b := b) hM hi)
    oldE oldF oldRhs t
  refine ⟨S, h1, h2, fun i => ?_, fun i j => ?_⟩
  · rw [h2.rhs, rhs_rhsOf hM ho]
  · rw [h2.ete, eteInv_invE hM ho]

variable (hM : M.Ok) (ho : Ordered M.bs ne) (hV : create M ne threads = some V) (ht : 0 < threads)
  (hS : Holds S V M ne D b compute)
include hM ho hV ht hS

/-- **`RightMultiplyAndAccumulate` sets `y` to the Schur complement times `x`** — it does not accumulate. -/
theorem implicit_multiply (t : Tmp ℝ) (x y : ℕ → ℝ) : ∃ z, (∀ o, rightMultiply S M t x y o ↔ o = some z) ∧
    (∀ i : Fin (colsF M.bs ne), z i = (schurOf M ne D *ᵥ fun j => x j) i) ∧
      ∀ i, colsF M.bs ne ≤ i → z i = y i := by
  obtain ⟨z, h1, h2, h3⟩ := gives_rightMultiply hM ho hV ht hS t x y
  refine ⟨z, h1, fun i => ?_, h3⟩
  have := Schur.rightMultiply_applies (sysOf M ne D b) fun i => x i
  rw [h2, ← schur_schurOf (b := b) hM ho, ← this]
  rfl

/-- **`BackSubstitute` completes `x`** with the best e part there is, and writes nothing beyond the solution. -/
theorem implicit_backSubstitute (hi : Independent M D) (t : Tmp ℝ) (x y : ℕ → ℝ) :
    ∃ z, (∀ o, backSubstitute S M t x y o ↔ o = some z) ∧
      (∀ i < colsF M.bs ne, z (colsE M.bs ne + i) = x i) ∧ (∀ i, M.numCols ≤ i → z i = y i) ∧
      ∀ w : ℕ → ℝ, (∀ i < colsF M.bs ne, w (colsE M.bs ne + i) = x i) → lsCost M D b z ≤ lsCost M D b w := by
  obtain ⟨z, h1, h2, h3, h4⟩ := gives_backSubstitute hM ho hV ht hS t x y
  have h3' : ∀ i : Fin (colsF M.bs ne), z (colsE M.bs ne + i) = x i := h3
  refine ⟨z, h1, fun i hi => h3' ⟨i, hi⟩, h4, fun w hw => ?_⟩
  rw [lsCost_eq (ne := ne) hM z, lsCost_eq (ne := ne) hM w]
  have := Schur.backSubstitute_optimal (s := sysOf M ne D b) (sys_oneE hM ho) (sys_fullRank hM hi) (fun j => w j)
    fun j => x j
  have e1 : (fun j : Fin (colsE M.bs ne) => z j, fun j : Fin (colsF M.bs ne) => z (colsE M.bs ne + j)) =
      (sysOf M ne D b).backSubstitute fun i => x i := Prod.ext (funext h2) (funext h3)
  have e2 : (fun j : Fin (colsF M.bs ne) => w (colsE M.bs ne + j)) = fun j : Fin (colsF M.bs ne) => x j :=
    funext fun j => hw j j.2
  rw [e1, e2]
  exact this

/-- **The reduced system is the right one**: if the product with `x` is the right hand side, then `BackSubstitute`
yields a minimiser of the least squares problem, and the only one. -/
theorem implicit_solves (hi : Independent M D) (t : Tmp ℝ) (x y y' z z' : ℕ → ℝ)
    (hx : rightMultiply S M t x y (some z)) (hz : ∀ i < colsF M.bs ne, z i = S.rhs i)
    (hb : backSubstitute S M t x y' (some z')) : ∀ w, lsCost M D b z' ≤ lsCost M D b w ∧
      (lsCost M D b z' = lsCost M D b w → ∀ c < M.numCols, w c = z' c) := by
  have hE := sys_oneE (D := D) (b := b) hM ho
  have hf := sys_fullRank (ne := ne) (b := b) hM hi
  have hsum : M.numCols = colsE M.bs ne + colsF M.bs ne := by rw [colsE_add_colsF, hM.numCols]
  obtain ⟨z0, a1, a2, -⟩ := gives_rightMultiply hM ho hV ht hS t x y
  obtain ⟨z1, b1, b2, b3, -⟩ := gives_backSubstitute hM ho hV ht hS t x y'
  obtain rfl : z = z0 := by simpa using (a1 _).1 hx
  obtain rfl : z' = z1 := by simpa using (b1 _).1 hb
  have hq : (sysOf M ne D b).schur *ᵥ (fun j => x j) = (sysOf M ne D b).rhs := by
    funext i
    rw [← hS.rhs, ← hz i i.2, a2, ← Schur.rightMultiply_applies]
    rfl
  have e1 : (fun j : Fin (colsE M.bs ne) => z' j, fun j : Fin (colsF M.bs ne) => z' (colsE M.bs ne + j)) =
      (sysOf M ne D b).backSubstitute fun i => x i := Prod.ext (funext b2) (funext b3)
  intro w
  have hmin := Schur.backSubstitute_unique hE hf hq (fun j => w j, fun j => w (colsE M.bs ne + j))
  rw [lsCost_eq (ne := ne) hM z', lsCost_eq (ne := ne) hM w, e1]
  by_cases he : (fun j : Fin (colsE M.bs ne) => w j, fun j : Fin (colsF M.bs ne) => w (colsE M.bs ne + j)) =
      (sysOf M ne D b).backSubstitute fun i => x i
  · rw [he]
    refine ⟨le_rfl, fun _ c hc => ?_⟩
    rw [← e1] at he
    by_cases hce : c < colsE M.bs ne
    · exact congrFun (congrArg Prod.fst he) ⟨c, hce⟩
    · have := congrFun (congrArg Prod.snd he) ⟨c - colsE M.bs ne, by omega⟩
      simp only at this
      rwa [Nat.add_sub_cancel' (by omega)] at this
  · have := hmin he
    exact ⟨this.le, fun h => absurd h this.ne⟩

/-- **The operator of the power series**: `y += (F-blocks)⁻¹ FᵀE (EᵀE + Dₑ²)⁻¹ EᵀF x`. -/
theorem implicit_powerSeries (hS' : Holds S V M ne D b true) (t : Tmp ℝ) (x y : ℕ → ℝ) :
    ∃ z f, (∀ o, powerSeriesOperator S M t x y o ↔ o = some z) ∧ S.ftf = some f ∧
      (∀ i : Fin (colsF M.bs ne), z i = y i + ((Matrix.of fun i j : Fin (colsF M.bs ne) => f.entry i j) *ᵥ
        ((matF M ne)ᵀ *ᵥ (matE M ne *ᵥ (invE M ne D *ᵥ ((matE M ne)ᵀ *ᵥ (matF M ne *ᵥ fun j => x j)))))) i) ∧
      ∀ i, colsF M.bs ne ≤ i → z i = y i := by
  obtain ⟨z, h1, h2, h3⟩ := gives_powerSeries hM ho hV ht hS' t x y
  obtain ⟨f, hf, -, -, -, hf4⟩ := hS'.ftf rfl
  refine ⟨z, f, h1, hf, fun i => ?_, h3⟩
  rw [h2]
  have : (Matrix.of fun i j : Fin (colsF M.bs ne) => f.entry i j) = (sysOf M ne D b).ftfInv := by
    ext i j
    exact hf4 i j
  rw [this, Schur.powerOp_eq]
  unfold Schur.Sys.powerC
  rw [eteInv_invE hM ho]
  simp only [Pi.add_apply, mulVec_mulVec, Matrix.mul_assoc]
  rfl

end

/-- The block diagonal that `Init` keeps of `FᵀF + D_f²` is inverted block by block. -/
theorem implicit_ftf {S : Implicit ℝ} (hS : Holds S V M ne D b true) : ∃ f, S.ftf = some f ∧
    ∀ i j : Fin (colsF M.bs ne), f.entry i j = ((CG.blockDiag
      (fun i : Fin (colsF M.bs ne) => blockOf M.bs.cols (colsE M.bs ne + i))
      ((matF M ne)ᵀ * matF M ne + dSquare D (colsE M.bs ne) _))⁻¹) i j := by
  obtain ⟨f, hf, -, -, -, hf4⟩ := hS.ftf rfl
  refine ⟨f, hf, fun i j => ?_⟩
  rw [hf4]
  unfold Schur.Sys.ftfInv
  rw [Schur.blockInverse_eq, normal_f]
  rfl

/-! ## No data race, no access out of bounds -/

/-- The states of the vector operations of these calls, on several threads. -/
inductive VectorReach (threads : ℕ) : ℕ → ℕ → ℕ → Mem ℝ → St Loc Empty ℝ → Prop where
  | zero (n m s) : ForReach (2 ^ 16) zeroTask 0 n threads m s → VectorReach threads 0 n 0 m s
  | neg (n m s) : ForReach (2 ^ 16) negTask 0 n threads m s → VectorReach threads 0 n 0 m s
  | sub (n m s) : ForReach (2 ^ 16) subTask 0 n threads m s → VectorReach threads n n 0 m s
  | scale (n m s) : ForReach (2 ^ 16) scaleTask 0 n threads m s → VectorReach threads n n n m s
  | copy (off n m s) : ForReach (2 ^ 16) (copyTask off) 0 n threads m s → VectorReach threads n (off + n) 0 m s

/-- **No two threads meet at an element, and nothing beyond the vectors is touched.** The products are those of the
view, for which this is `view_safe`, and of the block sparse matrix. -/
theorem implicit_safe {threads : ℕ} {s : St Loc Empty ℝ} :
    (∀ nx ny nv m, VectorReach threads nx ny nv m s → ¬ Race s ∧ ∀ l, Touches s l → InBounds nx ny nv l) ∧
    ∀ (llt : (n : ℕ) → Matrix (Fin n) (Fin n) ℝ → Matrix (Fin n) (Fin n) ℝ) (bs : BS) (start stop : ℕ) (v : ℕ → ℝ)
      (D : Option (ℕ → ℝ)), ForReach 1 (invertTask llt (layout bs start stop) D.isSome) 0
        (layout bs start stop).rows.length threads (mem (D.getD 0) v v) s →
      ¬ Race s ∧ ∀ l, Touches s l → InBounds (if D.isSome then (BMat.ofStructure (layout bs start stop) v).numCols else 0)
          (BMat.ofStructure (layout bs start stop) v).nnz 0 l := by
  refine ⟨fun nx ny nv m h => ?_, fun llt bs start stop v D h => invert_safe llt v D h⟩
  cases h with
  | zero _ _ _ h => simpa using step_safe (zero_step _ _) h
  | neg _ _ _ h => simpa using step_safe (neg_step _ _) h
  | sub _ _ _ h => simpa using step_safe (sub_step _ _) h
  | scale _ _ _ h => simpa using step_safe (scale_step _ _) h
  | copy _ _ _ _ h => simpa using step_safe (copy_step _ _ _) h

end Ceres.PartitionedView
