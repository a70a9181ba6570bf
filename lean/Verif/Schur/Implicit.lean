import Verif.Schur.ImplicitModel

/-!
# C51: ITERATIVE_SCHUR with the implicit Schur complement
-/

noncomputable section

namespace Ceres.Schur

open Matrix Ceres.CG

variable {m p q : ℕ}

/-! ## Specification -/

/-- `‖E xₑ + F x_f - b‖² + ‖Dₑ xₑ‖² + ‖D_f x_f‖²`. -/
def Sys.cost (s : Sys m p q) (x : Vec p × Vec q) : ℝ :=
  ∑ i, ((∑ j, s.E i j * x.1 j) + (∑ j, s.F i j * x.2 j) - s.b i) ^ 2 +
    (s.De.elim 0 fun D => ∑ j, (D j * x.1 j) ^ 2) + s.Df.elim 0 fun D => ∑ j, (D j * x.2 j) ^ 2

/-- The columns of `[E F; D]` are linearly independent. -/
def Sys.FullRank (s : Sys m p q) : Prop :=
  ∀ x, { s with b := 0 }.cost x = 0 → x = 0

/-- No row depends on two e blocks. -/
def Sys.OneE (s : Sys m p q) : Prop :=
  ∀ r i j, s.E r i ≠ 0 → s.E r j ≠ 0 → s.be i = s.be j

/-! ## The matrices -/

theorem blockInverse_eq {n : ℕ} (A : Matrix (Fin m) (Fin n) ℝ) (D : Option (Vec n))
    (blk : Fin n → ℕ) : blockInverse A D blk = (CG.blockDiag blk (normal A D))⁻¹ := by
  unfold blockInverse
  refine congrArg (·⁻¹) ?_
  cases D with
  | none => ext i j; simp [CG.blockDiag, normal]
  | some D =>
    ext i j
    simp only [CG.blockDiag, normal, Option.elim, Matrix.add_apply, of_apply]
    by_cases h : blk i = blk j
    · simp [h]
    · have : i ≠ j := fun h' => h (by rw [h'])
      simp [h, diagonal_apply_ne _ this]

/-- `EᵀE` is block diagonal. -/
theorem eteInv_eq (s : Sys m p q) (h : s.OneE) : s.eteInv = (normal s.E s.De)⁻¹ := by
  unfold Sys.eteInv
  rw [blockInverse_eq]
  congr 1
  ext i j
  simp only [CG.blockDiag, of_apply]
  split_ifs with hb
  · rfl
  · have hij : i ≠ j := fun h' => hb (by rw [h'])
    unfold normal
    rw [Matrix.add_apply]
    have h1 : (s.Eᵀ * s.E) i j = 0 := by
      rw [Matrix.mul_apply]
      refine Finset.sum_eq_zero fun r _ => ?_
      rw [transpose_apply]
      by_contra hne
      exact hb (h r i j (left_ne_zero_of_mul hne) (right_ne_zero_of_mul hne))
    have h2 : (s.De.elim (0 : Matrix (Fin p) (Fin p) ℝ)
        fun D => Matrix.diagonal fun j => D j ^ 2) i j = 0 := by
      cases s.De with
      | none => rfl
      | some D => simp [diagonal_apply_ne _ hij]
    rw [h1, h2, add_zero]

/-- The Schur complement. -/
def Sys.schur (s : Sys m p q) : Matrix (Fin q) (Fin q) ℝ :=
  normal s.F s.Df - s.Fᵀ * s.E * s.eteInv * s.Eᵀ * s.F

theorem rightMultiply_applies (s : Sys m p q) : Applies s.rightMultiply s.schur := by
  intro x
  have hD : (match s.Df with
    | some D => fun j => D j ^ 2 * x j
    | none => 0 : Vec q) = (s.Df.elim (0 : Matrix (Fin q) (Fin q) ℝ)
        fun D => Matrix.diagonal fun j => D j ^ 2) *ᵥ x := by
    cases s.Df with
    | none => simp
    | some D => ext j; simp [mulVec_diagonal]
  unfold Sys.rightMultiply Sys.schur normal
  simp only [zero_add]
  refine (congrArg (· + s.Fᵀ *ᵥ (s.F *ᵥ x + s.E *ᵥ -(s.eteInv *ᵥ s.Eᵀ *ᵥ s.F *ᵥ x))) hD).trans ?_
  simp only [sub_mulVec, add_mulVec, mulVec_neg, mulVec_add, mulVec_mulVec, Matrix.mul_assoc]
  abel

theorem rhs_eq (s : Sys m p q) :
    s.rhs = s.Fᵀ *ᵥ (s.b - s.E *ᵥ (s.eteInv *ᵥ (s.Eᵀ *ᵥ s.b))) := by
  unfold Sys.rhs
  simp only [zero_add]

theorem backSubstitute_eq (s : Sys m p q) (z : Vec q) :
    s.backSubstitute z = (s.eteInv *ᵥ (s.Eᵀ *ᵥ (s.b - s.F *ᵥ z)), z) := by
  unfold Sys.backSubstitute
  simp only [zero_add]

/-- For a fixed f part this is a least squares problem for the e part. -/
theorem cost_split (s : Sys m p q) (x : Vec p × Vec q) :
    s.cost x = CG.cost s.E (s.b - s.F *ᵥ x.2) s.De x.1 +
      s.Df.elim 0 fun D => ∑ j, (D j * x.2 j) ^ 2 := by
  unfold Sys.cost CG.cost
  congr 2
  refine Finset.sum_congr rfl fun i _ => ?_
  have : (s.b - s.F *ᵥ x.2) i = s.b i - ∑ j, s.F i j * x.2 j := rfl
  rw [this]
  ring

section Regular

variable {s : Sys m p q}

theorem normalE_spd (hf : s.FullRank) : SPD (normal s.E s.De) := by
  refine ⟨normal_symm _ _, fun x hx => ?_⟩
  refine lt_of_le_of_ne (normal_nonneg _ _ _) fun h => hx ?_
  have h0 : { s with b := 0 }.cost (x, 0) = 0 := by
    rw [cost_split, CG.cost_eq]
    simp only [mulVec_zero, sub_zero, qf, zero_dotProduct, mul_zero, add_zero]
    rw [← h]
    cases s.Df <;> simp
  exact congrArg Prod.fst (hf _ h0)

theorem normalF_spd (hf : s.FullRank) : SPD (normal s.F s.Df) := by
  refine ⟨normal_symm _ _, fun x hx => ?_⟩
  refine lt_of_le_of_ne (normal_nonneg _ _ _) fun h => hx ?_
  have h0 : { s with b := 0 }.cost (0, x) = 0 := by
    rw [dot_normal] at h
    unfold Sys.cost
    have e : ∑ i, ((∑ j, s.E i j * (0 : Vec p) j) + (∑ j, s.F i j * x j) - (0 : Vec m) i) ^ 2 =
        (s.F *ᵥ x) ⬝ᵥ (s.F *ᵥ x) := by
      rw [dotProduct]
      refine Finset.sum_congr rfl fun i _ => ?_
      simp [mulVec, dotProduct, sq]
    simp only
    rw [e]
    have e2 : (s.De.elim 0 fun D => ∑ j, (D j * (0 : Vec p) j) ^ 2) = 0 := by
      cases s.De <;> simp
    rw [e2, add_zero]
    exact h.symm
  exact congrArg Prod.snd (hf _ h0)

/-- The e part computed by back substitution is the best one for its f part. -/
theorem backSubstitute_optimal (hE : s.OneE) (hf : s.FullRank) (xe : Vec p) (z : Vec q) :
    s.cost (s.backSubstitute z) ≤ s.cost (xe, z) := by
  have hN := normalE_spd hf
  rw [cost_split, cost_split, backSubstitute_eq, eteInv_eq s hE, CG.cost_eq, CG.cost_eq]
  simp only
  set u := s.b - s.F *ᵥ z
  set x := (normal s.E s.De)⁻¹ *ᵥ (s.Eᵀ *ᵥ u) with hx
  have hNx : normal s.E s.De *ᵥ x = s.Eᵀ *ᵥ u := by
    rw [hx, mulVec_mulVec, mul_nonsing_inv _ hN.isUnit_det, one_mulVec]
  have e : xe = x + (xe - x) := by abel
  rw [e, qf_add hN.1, hNx, sub_self, dotProduct_zero]
  have := normal_nonneg s.E s.De (xe - x)
  linarith

/-- After elimination the cost is the quadratic of the reduced system. -/
theorem cost_backSubstitute (hE : s.OneE) (hf : s.FullRank) (z : Vec q) :
    s.cost (s.backSubstitute z) = qf s.schur s.rhs z + s.cost (s.backSubstitute 0) := by
  have hN := normalE_spd hf
  have hK : ∀ z : Vec q, s.cost (s.backSubstitute z) =
      (s.b - s.F *ᵥ z) ⬝ᵥ (s.b - s.F *ᵥ z) -
      (s.Eᵀ *ᵥ (s.b - s.F *ᵥ z)) ⬝ᵥ ((normal s.E s.De)⁻¹ *ᵥ (s.Eᵀ *ᵥ (s.b - s.F *ᵥ z))) +
        s.Df.elim 0 fun D => ∑ j, (D j * z j) ^ 2 := by
    intro z
    rw [cost_split, backSubstitute_eq, eteInv_eq s hE, CG.cost_eq]
    simp only [qf]
    rw [mulVec_mulVec (v := s.Eᵀ *ᵥ (s.b - s.F *ᵥ z)) (M := normal s.E s.De),
      mul_nonsing_inv _ hN.isUnit_det, one_mulVec,
      dotProduct_comm ((normal s.E s.De)⁻¹ *ᵥ (s.Eᵀ *ᵥ (s.b - s.F *ᵥ z)))]
    ring
  have hI := hN.inv.1
  rw [hK, hK]
  have hq : qf s.schur s.rhs z = (s.F *ᵥ z) ⬝ᵥ (s.F *ᵥ z) +
      (s.Df.elim 0 fun D => ∑ j, (D j * z j) ^ 2) -
      (s.Eᵀ *ᵥ (s.F *ᵥ z)) ⬝ᵥ ((normal s.E s.De)⁻¹ *ᵥ (s.Eᵀ *ᵥ (s.F *ᵥ z))) -
      2 * (s.b ⬝ᵥ (s.F *ᵥ z) -
        (s.Eᵀ *ᵥ s.b) ⬝ᵥ ((normal s.E s.De)⁻¹ *ᵥ (s.Eᵀ *ᵥ (s.F *ᵥ z)))) := by
    unfold qf Sys.schur
    rw [rhs_eq, eteInv_eq s hE, sub_mulVec, dotProduct_sub, dot_normal]
    congr 1
    · congr 1
      simp only [← mulVec_mulVec, Matrix.mul_assoc]
      rw [dotProduct_mulVec, vecMul_transpose, dotProduct_mulVec, ← mulVec_transpose]
    · congr 1
      rw [mulVec_transpose, ← dotProduct_mulVec, sub_dotProduct]
      congr 1
      rw [dotProduct_comm, dotProduct_mulVec, ← mulVec_transpose, symm_dot hI]
  rw [hq]
  have e0 : (s.Df.elim 0 fun D => ∑ j, (D j * (0 : Vec q) j) ^ 2) = 0 := by
    cases s.Df <;> simp
  rw [e0]
  simp only [mulVec_zero, sub_zero, mulVec_sub, dotProduct_sub, sub_dotProduct]
  rw [symm_dot hI (s.Eᵀ *ᵥ (s.F *ᵥ z)) (s.Eᵀ *ᵥ s.b), dotProduct_comm (s.F *ᵥ z) s.b]
  ring

theorem schur_symm (hE : s.OneE) : s.schur.IsSymm := by
  unfold Matrix.IsSymm Sys.schur
  rw [transpose_sub, (normal_symm s.F s.Df).eq, eteInv_eq s hE]
  congr 1
  simp only [transpose_mul, transpose_transpose, transpose_nonsing_inv,
    (normal_symm s.E s.De).eq, Matrix.mul_assoc]

/-- The Schur complement is positive definite. -/
theorem schur_spd (hE : s.OneE) (hf : s.FullRank) : SPD s.schur := by
  refine ⟨schur_symm hE, fun z hz => ?_⟩
  have hf0 : { s with b := 0 }.FullRank := hf
  have hE0 : { s with b := 0 }.OneE := hE
  have h := cost_backSubstitute (s := { s with b := 0 }) hE0 hf0 z
  have h1 : { s with b := 0 }.cost ({ s with b := 0 }.backSubstitute 0) = 0 := by
    rw [backSubstitute_eq]
    unfold Sys.cost
    have a1 : (s.De.elim 0 fun D => ∑ j, (D j * (0 : Vec p) j) ^ 2) = 0 := by cases s.De <;> simp
    have a2 : (s.Df.elim 0 fun D => ∑ j, (D j * (0 : Vec q) j) ^ 2) = 0 := by cases s.Df <;> simp
    simp only [mulVec_zero, sub_self]
    rw [a1, a2]
    simp
  have h2 : qf s.schur ({ s with b := 0 } : Sys m p q).rhs z = z ⬝ᵥ s.schur *ᵥ z := by
    rw [rhs_eq]
    simp [qf]
  have h3 : ({ s with b := 0 } : Sys m p q).schur = s.schur := rfl
  rw [h1, add_zero, h3, h2] at h
  rw [← h]
  refine lt_of_le_of_ne ?_ fun h0 => hz ?_
  · unfold Sys.cost
    refine add_nonneg (add_nonneg (Finset.sum_nonneg fun _ _ => sq_nonneg _) ?_) ?_
    · cases s.De with
      | none => simp
      | some D => exact Finset.sum_nonneg fun _ _ => sq_nonneg _
    · cases s.Df with
      | none => simp
      | some D => exact Finset.sum_nonneg fun _ _ => sq_nonneg _
  · have := congrArg Prod.snd (hf _ h0.symm)
    rw [backSubstitute_eq] at this
    exact this

/-! ## Preconditioners -/

theorem ftfInv_spd (hf : s.FullRank) : SPD s.ftfInv := by
  unfold Sys.ftfInv
  rw [blockInverse_eq]
  exact (blockDiag_spd (normalF_spd hf) _).inv

/-- `FᵀE(EᵀE)⁻¹EᵀF`. -/
def Sys.powerC (s : Sys m p q) : Matrix (Fin q) (Fin q) ℝ :=
  s.Fᵀ * (s.E * (s.eteInv * (s.Eᵀ * s.F)))

theorem powerC_symm (hE : s.OneE) : s.powerC.IsSymm := by
  unfold Matrix.IsSymm Sys.powerC
  rw [eteInv_eq s hE]
  simp only [transpose_mul, transpose_transpose, transpose_nonsing_inv,
    (normal_symm s.E s.De).eq, Matrix.mul_assoc]

theorem powerC_nonneg (hE : s.OneE) (hf : s.FullRank) (x : Vec q) : 0 ≤ x ⬝ᵥ s.powerC *ᵥ x := by
  unfold Sys.powerC
  rw [eteInv_eq s hE]
  have e : x ⬝ᵥ (s.Fᵀ * (s.E * ((normal s.E s.De)⁻¹ * (s.Eᵀ * s.F)))) *ᵥ x =
      (s.Eᵀ *ᵥ (s.F *ᵥ x)) ⬝ᵥ ((normal s.E s.De)⁻¹ *ᵥ (s.Eᵀ *ᵥ (s.F *ᵥ x))) := by
    simp only [← mulVec_mulVec]
    rw [dotProduct_mulVec, vecMul_transpose, dotProduct_mulVec, ← mulVec_transpose]
  rw [e]
  by_cases h : s.Eᵀ *ᵥ (s.F *ᵥ x) = 0
  · rw [h]; simp
  · exact ((normalE_spd hf).inv.2 _ h).le

theorem powerOp_eq (s : Sys m p q) (x y : Vec q) :
    s.powerOp x y = y + (s.ftfInv * s.powerC) *ᵥ x := by
  unfold Sys.powerOp Sys.powerC
  simp only [zero_add, mulVec_mulVec]

/-- The terms of the series. -/
def Sys.seriesTerm (s : Sys m p q) (i : ℕ) : Matrix (Fin q) (Fin q) ℝ :=
  (s.ftfInv * s.powerC) ^ i * s.ftfInv

theorem seriesTerm_succ (s : Sys m p q) (i : ℕ) :
    s.seriesTerm (i + 1) = s.ftfInv * s.powerC * s.seriesTerm i := by
  unfold Sys.seriesTerm
  rw [pow_succ', Matrix.mul_assoc]

/-- With tolerance zero the number of terms does not depend on the vector. -/
theorem seriesLoop_eq (s : Sys m p q) (n : ℤ) (x : Vec q) :
    ∀ (fuel i : ℕ) (y : Vec q), 1 ≤ i → fuel + i = max 1 n.toNat + 1 → 1 ≤ fuel →
      s.seriesLoop n 0 fuel i (s.seriesTerm (i - 1) *ᵥ x) y =
        y + ∑ k ∈ Finset.Ico i (max 1 n.toNat + 1), s.seriesTerm k *ᵥ x := by
  intro fuel
  induction fuel with
  | zero => intro i y _ _ h; omega
  | succ fuel ih =>
    intro i y hi hfi _
    have hterm : s.powerOp (s.seriesTerm (i - 1) *ᵥ x) 0 = s.seriesTerm i *ᵥ x := by
      rw [powerOp_eq, zero_add, mulVec_mulVec, ← seriesTerm_succ]
      congr 2
      omega
    rw [Sys.seriesLoop]
    simp only [hterm]
    have hpos : ¬ norm2 (s.seriesTerm i *ᵥ x) < 0 := not_lt.2 (norm2_nonneg _)
    by_cases hn : n ≤ (i : ℤ)
    · rw [if_pos (.inl hn)]
      have : max 1 n.toNat = i := by omega
      rw [this, Nat.Ico_succ_singleton, Finset.sum_singleton]
    · rw [if_neg (by rintro (h | h); exacts [hn h, hpos h])]
      have := ih (i + 1) (y + s.seriesTerm i *ᵥ x) (by omega) (by omega) (by omega)
      rw [Nat.add_sub_cancel] at this
      rw [this, Finset.sum_eq_sum_Ico_succ_bot (show i < max 1 n.toNat + 1 by omega), add_assoc]

/-- The matrix of the power series preconditioner. -/
def Sys.seriesMatrix (s : Sys m p q) (n : ℤ) : Matrix (Fin q) (Fin q) ℝ :=
  ∑ k ∈ Finset.range (max 1 n.toNat + 1), s.seriesTerm k

theorem powerSeries_applies (s : Sys m p q) (n : ℤ) :
    Applies (s.powerSeries n 0) (s.seriesMatrix n) := by
  intro x
  unfold Sys.powerSeries Sys.seriesMatrix
  simp only [zero_add, zero_mul]
  have h0 : s.ftfInv *ᵥ x = s.seriesTerm (1 - 1) *ᵥ x := by simp [Sys.seriesTerm]
  have := seriesLoop_eq s n x (max 1 n.toNat) 1 (s.ftfInv *ᵥ x) le_rfl rfl (by omega)
  rw [← h0] at this
  rw [this, sum_mulVec, Finset.range_eq_Ico,
    Finset.sum_eq_sum_Ico_succ_bot (show 0 < max 1 n.toNat + 1 by omega)]
  simp [Sys.seriesTerm]

theorem seriesTerm_comm (s : Sys m p q) (i : ℕ) :
    s.seriesTerm i * (s.powerC * s.ftfInv) = s.ftfInv * s.powerC * s.seriesTerm i := by
  induction i with
  | zero => simp [Sys.seriesTerm, Matrix.mul_assoc]
  | succ i ih => rw [seriesTerm_succ, Matrix.mul_assoc, ih]

theorem seriesTerm_good (hE : s.OneE) (hf : s.FullRank) :
    ∀ i, (s.seriesTerm i).IsSymm ∧ ∀ x : Vec q, 0 ≤ x ⬝ᵥ s.seriesTerm i *ᵥ x := by
  have hB := ftfInv_spd hf
  have hC := powerC_symm hE
  have hnn : ∀ x : Vec q, 0 ≤ x ⬝ᵥ s.ftfInv *ᵥ x := by
    intro x
    by_cases h : x = 0
    · simp [h]
    · exact (hB.2 x h).le
  have e1 : s.seriesTerm 1 = s.ftfInv * s.powerC * s.ftfInv := by simp [Sys.seriesTerm]
  have hstep : ∀ i, s.seriesTerm (i + 2) =
      s.ftfInv * s.powerC * s.seriesTerm i * (s.powerC * s.ftfInv) := by
    intro i
    rw [seriesTerm_succ, seriesTerm_succ, Matrix.mul_assoc _ (s.seriesTerm i), seriesTerm_comm]
  intro i
  induction i using Nat.twoStepInduction with
  | zero => simpa [Sys.seriesTerm] using ⟨hB.1, hnn⟩
  | one =>
    rw [e1]
    refine ⟨?_, fun x => ?_⟩
    · unfold Matrix.IsSymm
      rw [transpose_mul, transpose_mul, hB.1.eq, hC.eq, Matrix.mul_assoc]
    · have : x ⬝ᵥ (s.ftfInv * s.powerC * s.ftfInv) *ᵥ x =
          (s.ftfInv *ᵥ x) ⬝ᵥ s.powerC *ᵥ (s.ftfInv *ᵥ x) := by
        rw [Matrix.mul_assoc, ← mulVec_mulVec, ← mulVec_mulVec, dotProduct_mulVec,
          ← mulVec_transpose, hB.1.eq]
      rw [this]
      exact powerC_nonneg hE hf _
  | more i ih _ =>
    rw [hstep]
    refine ⟨?_, fun x => ?_⟩
    · unfold Matrix.IsSymm
      rw [transpose_mul, transpose_mul, transpose_mul, transpose_mul, hB.1.eq, hC.eq, ih.1.eq]
      simp only [Matrix.mul_assoc]
    · have : x ⬝ᵥ (s.ftfInv * s.powerC * s.seriesTerm i * (s.powerC * s.ftfInv)) *ᵥ x =
          ((s.powerC * s.ftfInv) *ᵥ x) ⬝ᵥ s.seriesTerm i *ᵥ ((s.powerC * s.ftfInv) *ᵥ x) := by
        generalize hK : s.ftfInv * s.powerC = K
        have hKt : s.powerC * s.ftfInv = Kᵀ := by rw [← hK, transpose_mul, hB.1.eq, hC.eq]
        rw [hKt, Matrix.mul_assoc, ← mulVec_mulVec, ← mulVec_mulVec, dotProduct_mulVec,
          ← mulVec_transpose]
      rw [this]
      exact ih.2 _

/-- The power series preconditioner is symmetric positive definite. -/
theorem seriesMatrix_spd (hE : s.OneE) (hf : s.FullRank) (n : ℤ) : SPD (s.seriesMatrix n) := by
  have hg := seriesTerm_good hE hf
  unfold Sys.seriesMatrix
  refine ⟨?_, fun x hx => ?_⟩
  · unfold Matrix.IsSymm
    rw [transpose_sum]
    exact Finset.sum_congr rfl fun i _ => (hg i).1.eq
  · rw [sum_mulVec, dotProduct_sum, Finset.sum_range_succ']
    have h0 : 0 < x ⬝ᵥ s.seriesTerm 0 *ᵥ x := by
      simpa [Sys.seriesTerm] using (ftfInv_spd hf).2 x hx
    have := Finset.sum_nonneg fun i (_ : i ∈ Finset.range (max 1 n.toNat)) => (hg (i + 1)).2 x
    linarith

/-- The preconditioners that apply a positive definite matrix. -/
def SchurPrec.Good : SchurPrec q → Prop
  | .other u op => u = true ∧ ∃ M, Applies op M ∧ SPD M
  | _ => True

theorem prec_spd (hE : s.OneE) (hf : s.FullRank) {t : SchurPrec q} (ht : t.Good) :
    ∃ M, Applies (s.prec t) M ∧ SPD M := by
  match t, ht with
  | .identity, _ => exact ⟨1, fun x => by simp [Sys.prec], one_spd⟩
  | .jacobi, _ => exact ⟨s.ftfInv, fun x => by simp [Sys.prec], ftfInv_spd hf⟩
  | .powerSeries n, _ => exact ⟨s.seriesMatrix n, powerSeries_applies s n, seriesMatrix_spd hE hf n⟩
  | .other _ _, h => exact h.2

theorem Good.updates {t : SchurPrec q} (ht : t.Good) : t.updates = true := by
  match t, ht with
  | .identity, _ => rfl
  | .jacobi, _ => rfl
  | .powerSeries _, _ => rfl
  | .other _ _, h => exact h.1

/-! ## The property -/

theorem solver_zero_rhs (o : CG.Options) (lhs prec : Op q) (x0 : Vec q) :
    (CG.solver o lhs prec 0 x0).x = 0 := by
  rcases solver_outcome o lhs prec 0 x0 with ⟨_, h⟩ | ⟨h, _⟩ | ⟨h, _⟩
  · simp [h]
  · exact absurd (norm2_eq_zero.2 rfl) h
  · exact absurd (norm2_eq_zero.2 rfl) h

/-- **ITERATIVE_SCHUR** (C51): whatever the preconditioner, the tolerances and the limits,
whenever it writes a step (SUCCESS or NO_CONVERGENCE) that step does not increase the cost, and
no other e part goes better with its f part. -/
theorem iterative_schur_never_worse (hE : s.OneE) (hf : s.FullRank) (o : CG.Options)
    (t : SchurPrec q) {x : Vec p × Vec q} (hx : (s.solve o t none).2 = some x) :
    s.cost x ≤ s.cost 0 ∧ ∀ xe, s.cost x ≤ s.cost (xe, x.2) := by
  have hz : ∃ z, x = s.backSubstitute z ∧ qf s.schur s.rhs z ≤ 0 := by
    unfold Sys.solve at hx
    split_ifs at hx with hq ht
    · exact ⟨0, by simpa using hx.symm, by simp [qf]⟩
    · simp only at hx
      split_ifs at hx with hterm
      refine ⟨_, by simpa using hx.symm, ?_⟩
      by_cases hb : s.rhs = 0
      · rw [hb, solver_zero_rhs]; simp [qf]
      · have := (cg_never_worse o (prec := s.prec t) (rightMultiply_applies s) (schur_symm hE)
          s.rhs 0 hb).1
        simpa [qf] using this
  obtain ⟨z, rfl, hz⟩ := hz
  constructor
  · have h1 := cost_backSubstitute hE hf z
    have h2 := backSubstitute_optimal hE hf 0 (0 : Vec q)
    have h3 : ((0, 0) : Vec p × Vec q) = 0 := rfl
    rw [h3] at h2
    linarith
  · intro xe
    have := backSubstitute_optimal hE hf xe z
    rwa [backSubstitute_eq] at this ⊢

/-- A solution of the reduced system yields the unique minimiser. -/
theorem backSubstitute_unique (hE : s.OneE) (hf : s.FullRank) {z : Vec q} (hz : s.schur *ᵥ z = s.rhs)
    (y : Vec p × Vec q) (hy : y ≠ s.backSubstitute z) : s.cost (s.backSubstitute z) < s.cost y := by
  have hS := schur_spd hE hf
  have h1 := backSubstitute_optimal hE hf y.1 y.2
  have h2 := cost_backSubstitute hE hf z
  have h3 := cost_backSubstitute hE hf y.2
  have e : y.2 = z + (y.2 - z) := by abel
  rw [e, qf_add hS.1, hz, sub_self, dotProduct_zero, ← e] at h3
  by_cases hyz : y.2 = z
  · -- same f part, different e part
    have hne : y.1 ≠ (s.backSubstitute z).1 := by
      intro h'
      apply hy
      refine Prod.ext h' ?_
      rw [hyz, backSubstitute_eq]
    have hN := normalE_spd hf
    rw [backSubstitute_eq, eteInv_eq s hE] at hne ⊢
    rw [cost_split, cost_split, CG.cost_eq, CG.cost_eq, hyz]
    simp only at hne ⊢
    generalize s.b - s.F *ᵥ z = u at *
    have hNx : normal s.E s.De *ᵥ ((normal s.E s.De)⁻¹ *ᵥ (s.Eᵀ *ᵥ u)) = s.Eᵀ *ᵥ u := by
      rw [mulVec_mulVec, mul_nonsing_inv _ hN.isUnit_det, one_mulVec]
    generalize (normal s.E s.De)⁻¹ *ᵥ (s.Eᵀ *ᵥ u) = w at *
    have e : y.1 = w + (y.1 - w) := by abel
    rw [e, qf_add hN.1, hNx, sub_self, dotProduct_zero]
    have := hN.2 (y.1 - w) (sub_ne_zero.2 hne)
    linarith
  · have := hS.2 (y.2 - z) (sub_ne_zero.2 hyz)
    have hy' : s.cost (y.1, y.2) = s.cost y := rfl
    linarith

/-- With as many iterations allowed as there are f columns, and no tolerance, it returns the
unique minimiser of the full problem. -/
theorem iterative_schur_exact (hE : s.OneE) (hf : s.FullRank) (o : CG.Options)
    (t : SchurPrec q) (ht : t.Good) (hq : o.qTolerance ≤ 0) (hr : o.rTolerance = 0)
    (hmin : o.minNumIterations ≤ 1) (hmax : q ≤ o.maxNumIterations) :
    ∃ x, s.solve o t none = (.success, some x) ∧ ∀ y, y ≠ x → s.cost x < s.cost y := by
  have hS := schur_spd hE hf
  have main : ∀ z, s.schur *ᵥ z = s.rhs → ∀ y, y ≠ s.backSubstitute z →
      s.cost (s.backSubstitute z) < s.cost y := fun _ hz y hy => backSubstitute_unique hE hf hz y hy
  unfold Sys.solve
  by_cases hq0 : q = 0
  · rw [if_pos hq0]
    refine ⟨_, rfl, main 0 ?_⟩
    subst hq0
    exact Subsingleton.elim _ _
  · obtain ⟨M, hM, hMs⟩ := prec_spd hE hf ht
    obtain ⟨h1, _, _, h4⟩ := cg_converges o (rightMultiply_applies s) hM hS hMs hq hr.ge hmin hmax
      s.rhs
    rw [if_neg hq0]
    simp only [Good.updates ht, if_true]
    rw [h1]
    simp only [ne_eq, reduceCtorEq, not_false_eq_true, if_true]
    exact ⟨_, rfl, main _ (h4 hr)⟩

/-- With a positive definite preconditioner, the solver leaves the step unwritten only
when conjugate gradients had found the solution of the reduced system exactly, a case they
report as a failure. -/
theorem iterative_schur_unwritten (hE : s.OneE) (hf : s.FullRank) (o : CG.Options)
    (t : SchurPrec q) (ht : t.Good) (spse : Option (ℤ × ℝ)) (hx : (s.solve o t spse).2 = none) :
    (s.solve o t spse).1 = .failure ∧ ∃ x0, s.schur *ᵥ
      (CG.solver o s.rightMultiply (s.prec t) s.rhs x0).x = s.rhs := by
  obtain ⟨M, hM, hMs⟩ := prec_spd hE hf ht
  unfold Sys.solve at hx ⊢
  by_cases hq0 : q = 0
  · simp [hq0] at hx
  · rw [if_neg hq0] at hx ⊢
    simp only [Good.updates ht, if_true] at hx ⊢
    split_ifs at hx ⊢ with h1 <;> first | simp at hx | skip
    rw [not_not] at h1
    exact ⟨h1, _, cg_failure_exact o (rightMultiply_applies s) hM hMs s.rhs _ h1⟩

end Regular

/-- A problem that meets the hypotheses: two points seen by one camera, with an observation of
the camera. -/
def exampleSys : Sys 3 2 1 where
  E := !![1, 0; 0, 1; 0, 0]
  F := !![1; 1; 1]
  b := ![1, 2, 3]
  De := none
  Df := none
  be := ![0, 1]
  bf := ![0]

example : exampleSys.OneE ∧ exampleSys.FullRank := by
  constructor
  · intro r i j
    fin_cases r <;> fin_cases i <;> fin_cases j <;> simp [exampleSys]
  · rintro ⟨x, y⟩ h
    simp [Sys.cost, exampleSys, Fin.sum_univ_succ] at h
    have h1 := sq_nonneg (x 0 + y 0)
    have h2 := sq_nonneg (x 1 + y 0)
    have h3 := sq_nonneg (y 0)
    have hy : y 0 = 0 := by nlinarith
    have hx0 : x 0 = 0 := by rw [hy] at h; nlinarith
    have hx1 : x 1 = 0 := by rw [hy] at h; nlinarith
    refine Prod.ext ?_ ?_
    · ext i; fin_cases i <;> simp [hx0, hx1]
    · ext i; fin_cases i; simp [hy]

/-- The implicit Schur complement is not an accumulating operator: the old contents of `y` are
lost. -/
theorem rightMultiply_overwrites (s : Sys m p q) (x y y' : Vec q) :
    s.rightMultiply x y = s.rightMultiply x y' := rfl

end Ceres.Schur
