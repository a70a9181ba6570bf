import Verif.Rotation.AngleAxis
import Mathlib.LinearAlgebra.Matrix.Adjugate
import Mathlib.LinearAlgebra.Matrix.NonsingularInverse

/-!
# Rotation matrices to quaternions and angle-axis vectors
-/

namespace Ceres.Rotation

open Quaternion Matrix

noncomputable section

/-- The matrix `4 q qᵀ` of a unit quaternion `q`, in terms of its rotation matrix. -/
def outer (R : M3) : Fin 4 → Fin 4 → ℝ :=
  ![![1 + R 0 0 + R 1 1 + R 2 2, R 2 1 - R 1 2, R 0 2 - R 2 0, R 1 0 - R 0 1],
    ![R 2 1 - R 1 2, 1 + R 0 0 - R 1 1 - R 2 2, R 0 1 + R 1 0, R 0 2 + R 2 0],
    ![R 0 2 - R 2 0, R 0 1 + R 1 0, 1 - R 0 0 + R 1 1 - R 2 2, R 1 2 + R 2 1],
    ![R 1 0 - R 0 1, R 0 2 + R 2 0, R 1 2 + R 2 1, 1 - R 0 0 - R 1 1 + R 2 2]]

/-- The entries of a rotation matrix satisfy the orthogonality relations of rows and columns, and
each is its own cofactor. -/
theorem IsRotation.relations {R : M3} (h : IsRotation R) :
    (∀ i j, ∑ k, R i k * R j k = if i = j then 1 else 0)
      ∧ (∀ i j, ∑ k, R k i * R k j = if i = j then 1 else 0)
      ∧ (∀ i j, R.adjugate i j = R j i) := by
  have h2 : R.transpose * R = 1 := mul_eq_one_comm.1 h.1
  refine ⟨fun i j => ?_, fun i j => ?_, fun i j => ?_⟩
  · have := congrFun (congrFun h.1 i) j
    rwa [Matrix.mul_apply, Matrix.one_apply] at this
  · have := congrFun (congrFun h2 i) j
    rwa [Matrix.mul_apply, Matrix.one_apply] at this
  · have h3 : R * R.adjugate = 1 := by rw [Matrix.mul_adjugate, h.2, one_smul]
    have h4 : R.adjugate = R.transpose := by
      calc R.adjugate = (R.transpose * R) * R.adjugate := by rw [h2, one_mul]
        _ = R.transpose := by rw [Matrix.mul_assoc, h3, Matrix.mul_one]
    rw [h4, Matrix.transpose_apply]

/-- The matrix `outer` of a rotation has rank one. -/
theorem outer_rank_one {R : M3} (h : IsRotation R) (m n l : Fin 4) :
    outer R m n * outer R m l = outer R m m * outer R n l := by
  obtain ⟨h1, h2, h3⟩ := h.relations
  simp only [Fin.sum_univ_three] at h1 h2
  have r00 := h1 0 0
  have r01 := h1 0 1
  have r02 := h1 0 2
  have r11 := h1 1 1
  have r12 := h1 1 2
  have r22 := h1 2 2
  have c00 := h2 0 0
  have c01 := h2 0 1
  have c02 := h2 0 2
  have c11 := h2 1 1
  have c12 := h2 1 2
  have c22 := h2 2 2
  have a00 := h3 0 0
  have a01 := h3 0 1
  have a02 := h3 0 2
  have a10 := h3 1 0
  have a11 := h3 1 1
  have a12 := h3 1 2
  have a20 := h3 2 0
  have a21 := h3 2 1
  have a22 := h3 2 2
  simp only [Matrix.adjugate_fin_three] at a00 a01 a02 a10 a11 a12 a20 a21 a22
  simp at r00 r01 r02 r11 r12 r22 c00 c01 c02 c11 c12 c22 a00 a01 a02 a10 a11 a12 a20 a21 a22
  clear h1 h2 h3 h
  fin_cases m <;> fin_cases n <;> fin_cases l <;> simp [outer] <;> grind

/-- A row of `outer`, scaled to unit length, is a unit quaternion for the rotation. -/
theorem of_outer {R : M3} (h : IsRotation R) (m : Fin 4) (hm : 0 < outer R m m) (q : Q)
    (hq : ∀ n, q n = outer R m n * (1 / 2 / Real.sqrt (outer R m m))) :
    IsUnitQ ceresOrder q ∧ quaternionToRotation ceresOrder q = R := by
  have hs : Real.sqrt (outer R m m) * Real.sqrt (outer R m m) = outer R m m :=
    Real.mul_self_sqrt hm.le
  have hs0 : Real.sqrt (outer R m m) ≠ 0 := (Real.sqrt_pos.2 hm).ne'
  have hqq : ∀ n l, q n * q l = outer R n l / 4 := by
    intro n l
    have hr := outer_rank_one h m n l
    rw [hq, hq]
    field_simp
    rw [hr, show Real.sqrt (outer R m m) ^ 2 = outer R m m by rw [pow_two, hs]]
    ring
  have hu : IsUnitQ ceresOrder q := by
    rw [IsUnitQ, normSq_toH]
    simp only [hqq, ceresOrder]
    simp [outer]
    ring
  refine ⟨hu, ?_⟩
  rw [quaternionToRotation_unit hu]
  ext i j
  fin_cases i <;> fin_cases j <;>
    simp [quaternionToScaledRotation, hqq] <;> simp [outer, ceresOrder] <;> ring

theorem of_outer' {R : M3} (h : IsRotation R) (m : Fin 4) (hm : 0 < outer R m m) (q : Q)
    (hqm : q m = 1 / 2 * Real.sqrt (outer R m m))
    (hqn : ∀ n, n ≠ m → q n = outer R m n * (1 / 2 / Real.sqrt (outer R m m))) :
    IsUnitQ ceresOrder q ∧ quaternionToRotation ceresOrder q = R := by
  refine of_outer h m hm q fun n => ?_
  by_cases hn : n = m
  · subst hn
    have hs : Real.sqrt (outer R n n) * Real.sqrt (outer R n n) = outer R n n :=
      Real.mul_self_sqrt hm.le
    have hs0 : Real.sqrt (outer R n n) ≠ 0 := (Real.sqrt_pos.2 hm).ne'
    rw [hqm]
    field_simp
    rw [pow_two, hs]
  · exact hqn n hn

/-- The three values of the second branch with the Ceres order. -/
theorem fromLargest_ceres (R : M3) (i : Fin 3) (q₀ : Q) :
    fromLargest ceresOrder R i q₀ = some (fun n =>
      if n = i.succ then 1 / 2 * Real.sqrt (R i i - R (i + 1) (i + 1) - R (i + 2) (i + 2) + 1)
      else outer R i.succ n *
        (1 / 2 / Real.sqrt (R i i - R (i + 1) (i + 1) - R (i + 2) (i + 2) + 1))) := by
  fin_cases i
  · refine Eq.trans (b := some (Function.update (Function.update (Function.update
      (Function.update q₀ 1 _) 0 _) 2 _) 3 _)) rfl ?_
    congr 1
    funext n
    fin_cases n
    · rfl
    · rfl
    · exact congrArg (· * _) (add_comm (R 1 0) (R 0 1))
    · exact congrArg (· * _) (add_comm (R 2 0) (R 0 2))
  · refine Eq.trans (b := some (Function.update (Function.update (Function.update
      (Function.update q₀ 2 _) 0 _) 3 _) 1 _)) rfl ?_
    congr 1
    funext n
    fin_cases n
    · rfl
    · rfl
    · rfl
    · exact congrArg (· * _) (add_comm (R 2 1) (R 1 2))
  · refine Eq.trans (b := some (Function.update (Function.update (Function.update
      (Function.update q₀ 3 _) 0 _) 1 _) 2 _)) rfl ?_
    congr 1
    funext n
    fin_cases n
    · rfl
    · rfl
    · rfl
    · rfl

/-- **C42.** For every rotation matrix, `RotationMatrixToQuaternion` with the Ceres order stays
inside its arrays, whatever the quaternion held before, and gives a unit quaternion whose rotation
matrix is the given one. -/
theorem rotationMatrixToQuaternion_spec {R : M3} (h : IsRotation R) (q₀ : Q) :
    ∃ q, rotationMatrixToQuaternion ceresOrder R q₀ = some q ∧ IsUnitQ ceresOrder q
      ∧ quaternionToRotation ceresOrder q = R := by
  by_cases ht : R 0 0 + R 1 1 + R 2 2 ≥ 0
  · refine ⟨_, by rw [rotationMatrixToQuaternion]; exact if_pos ht, ?_⟩
    have hm : 0 < outer R 0 0 := by simp only [outer]; simp; linarith
    have e : R 0 0 + R 1 1 + R 2 2 + 1 = outer R 0 0 := by simp [outer]; ring
    rw [e]
    refine of_outer' h 0 hm _ rfl ?_
    intro n hn
    fin_cases n
    · exact absurd rfl hn
    · rfl
    · rfl
    · rfl
  · have fin : ∀ i : Fin 3, 0 < outer R i.succ i.succ →
        rotationMatrixToQuaternion ceresOrder R q₀ = fromLargest ceresOrder R i q₀ →
        ∃ q, rotationMatrixToQuaternion ceresOrder R q₀ = some q ∧ IsUnitQ ceresOrder q
          ∧ quaternionToRotation ceresOrder q = R := by
      intro i hm hi
      refine ⟨_, hi.trans (fromLargest_ceres R i q₀), ?_⟩
      have e : R i i - R (i + 1) (i + 1) - R (i + 2) (i + 2) + 1 = outer R i.succ i.succ := by
        fin_cases i
        · show R 0 0 - R 1 1 - R 2 2 + 1 = 1 + R 0 0 - R 1 1 - R 2 2; ring
        · show R 1 1 - R 2 2 - R 0 0 + 1 = 1 - R 0 0 + R 1 1 - R 2 2; ring
        · show R 2 2 - R 0 0 - R 1 1 + 1 = 1 - R 0 0 - R 1 1 + R 2 2; ring
      rw [e]
      refine of_outer' h i.succ hm _ (if_pos rfl) fun n hn => if_neg hn
    have hi : rotationMatrixToQuaternion ceresOrder R q₀
        = if R 1 1 > R 0 0 then (if R 2 2 > R 1 1 then fromLargest ceresOrder R 2 q₀
            else fromLargest ceresOrder R 1 q₀)
          else (if R 2 2 > R 0 0 then fromLargest ceresOrder R 2 q₀
            else fromLargest ceresOrder R 0 q₀) := by
      rw [rotationMatrixToQuaternion]
      refine Eq.trans (if_neg ht) ?_
      by_cases h1 : R 1 1 > R 0 0
      · rw [if_pos h1, if_pos h1]
        show fromLargest ceresOrder R (if R 2 2 > R 1 1 then 2 else 1) q₀ = _
        by_cases h2 : R 2 2 > R 1 1
        · rw [if_pos h2, if_pos h2]
        · rw [if_neg h2, if_neg h2]
      · rw [if_neg h1, if_neg h1]
        show fromLargest ceresOrder R (if R 2 2 > R 0 0 then 2 else 0) q₀ = _
        by_cases h2 : R 2 2 > R 0 0
        · rw [if_pos h2, if_pos h2]
        · rw [if_neg h2, if_neg h2]
    push Not at ht
    have o1 : outer R 1 1 = 1 + R 0 0 - R 1 1 - R 2 2 := rfl
    have o2 : outer R 2 2 = 1 - R 0 0 + R 1 1 - R 2 2 := rfl
    have o3 : outer R 3 3 = 1 - R 0 0 - R 1 1 + R 2 2 := rfl
    by_cases h1 : R 1 1 > R 0 0
    · rw [if_pos h1] at hi
      by_cases h2 : R 2 2 > R 1 1
      · rw [if_pos h2] at hi
        exact fin 2 (by show 0 < outer R 3 3; rw [o3]; linarith) hi
      · rw [if_neg h2] at hi
        exact fin 1 (by show 0 < outer R 2 2; rw [o2]; linarith) hi
    · rw [if_neg h1] at hi
      by_cases h2 : R 2 2 > R 0 0
      · rw [if_pos h2] at hi
        exact fin 2 (by show 0 < outer R 3 3; rw [o3]; linarith) hi
      · rw [if_neg h2] at hi
        exact fin 0 (by show 0 < outer R 1 1; rw [o1]; linarith) hi

/-- **C42.** Two unit quaternions with the same rotation matrix are equal up to the sign. -/
theorem unit_unique {o : Order} (ho : o.Valid) {p q : Q} (hp : IsUnitQ o p) (hq : IsUnitQ o q)
    (h : quaternionToRotation o p = quaternionToRotation o q) : p = q ∨ p = -q := by
  rw [quaternionToRotation_unit hp, quaternionToRotation_unit hq] at h
  have e : ∀ i j, quaternionToScaledRotation o p i j = quaternionToScaledRotation o q i j :=
    fun i j => by rw [h]
  have e00 := e 0 0
  have e01 := e 0 1
  have e02 := e 0 2
  have e10 := e 1 0
  have e11 := e 1 1
  have e12 := e 1 2
  have e20 := e 2 0
  have e21 := e 2 1
  have e22 := e 2 2
  simp [quaternionToScaledRotation] at e00 e01 e02 e10 e11 e12 e20 e21 e22
  rw [IsUnitQ, normSq_toH] at hp hq
  -- the products of the coefficients agree
  have hww : p o.w * p o.w = q o.w * q o.w := by linarith
  have hxx : p o.x * p o.x = q o.x * q o.x := by linarith
  have hyy : p o.y * p o.y = q o.y * q o.y := by linarith
  have hzz : p o.z * p o.z = q o.z * q o.z := by linarith
  have hwx : p o.w * p o.x = q o.w * q o.x := by linarith
  have hwy : p o.w * p o.y = q o.w * q o.y := by linarith
  have hwz : p o.w * p o.z = q o.w * q o.z := by linarith
  have hxy : p o.x * p o.y = q o.x * q o.y := by linarith
  have hxz : p o.x * p o.z = q o.x * q o.z := by linarith
  have hyz : p o.y * p o.z = q o.y * q o.z := by linarith
  -- the inner product of the two quaternions is `1` or `-1`
  have hd : (p o.w * q o.w + p o.x * q o.x + p o.y * q o.y + p o.z * q o.z)
      * (p o.w * q o.w + p o.x * q o.x + p o.y * q o.y + p o.z * q o.z) = 1 := by
    grind
  have done : ∀ s : ℝ, s * s = 1 →
      p o.w * q o.w + p o.x * q o.x + p o.y * q o.y + p o.z * q o.z = s →
      p o.w = s * q o.w ∧ p o.x = s * q o.x ∧ p o.y = s * q o.y ∧ p o.z = s * q o.z := by
    intro s hs h1
    have : (p o.w - s * q o.w) ^ 2 + (p o.x - s * q o.x) ^ 2 + (p o.y - s * q o.y) ^ 2
        + (p o.z - s * q o.z) ^ 2 = 0 := by
      linear_combination hp + (s * s) * hq - 2 * s * h1 - hs
    have a1 := sq_nonneg (p o.w - s * q o.w)
    have a2 := sq_nonneg (p o.x - s * q o.x)
    have a3 := sq_nonneg (p o.y - s * q o.y)
    have a4 := sq_nonneg (p o.z - s * q o.z)
    refine ⟨?_, ?_, ?_, ?_⟩ <;> refine sub_eq_zero.1 (pow_eq_zero_iff two_ne_zero |>.1 ?_) <;> linarith
  rcases mul_self_eq_one_iff.1 hd with h1 | h1
  · left
    obtain ⟨b1, b2, b3, b4⟩ := done 1 (by norm_num) h1
    rw [one_mul] at b1 b2 b3 b4
    funext i
    rcases ho.cover i with rfl | rfl | rfl | rfl <;> assumption
  · right
    obtain ⟨b1, b2, b3, b4⟩ := done (-1) (by norm_num) h1
    rw [neg_one_mul] at b1 b2 b3 b4
    funext i
    rcases ho.cover i with rfl | rfl | rfl | rfl <;> assumption

/-- **C42.** Converting a unit quaternion to a matrix and back gives the quaternion up to the
sign. -/
theorem rotationMatrixToQuaternion_quaternionToRotation (q q₀ : Q) (hq : IsUnitQ ceresOrder q) :
    ∃ q', rotationMatrixToQuaternion ceresOrder (quaternionToRotation ceresOrder q) q₀ = some q'
      ∧ (q' = q ∨ q' = -q) := by
  obtain ⟨q', h1, h2, h3⟩ := rotationMatrixToQuaternion_spec
    (quaternionToRotation_isRotation ceresOrder q hq.ne_zero) q₀
  exact ⟨q', h1, unit_unique ceresOrder_valid h2 hq h3⟩

/-- **C42.** For every rotation matrix, `RotationMatrixToAngleAxis` gives a vector of length at
most `π` whose matrix is the given one. -/
theorem rotationMatrixToAngleAxis_spec {R : M3} (h : IsRotation R) (q₀ : Q) :
    ∃ a, rotationMatrixToAngleAxis R q₀ = some a ∧ theta a ≤ Real.pi
      ∧ angleAxisToRotationMatrix a = R := by
  obtain ⟨q, h1, h2, h3⟩ := rotationMatrixToQuaternion_spec h q₀
  refine ⟨_, by rw [rotationMatrixToAngleAxis, h1]; rfl,
    quaternionToAngleAxis_le_pi _ _ h2.ne_zero, ?_⟩
  rw [angleAxisToRotationMatrix_quaternionToAngleAxis ceresOrder_valid _ h2.ne_zero, h3]

/-- Every rotation matrix is the matrix of an angle-axis vector. -/
theorem exists_angleAxis {R : M3} (h : IsRotation R) : ∃ a, angleAxisToRotationMatrix a = R :=
  let ⟨a, _, _, h⟩ := rotationMatrixToAngleAxis_spec h 0
  ⟨a, h⟩

/-! ## The Eigen order -/

/-- With any valid order the result is right when the trace is not negative. -/
theorem rotationMatrixToQuaternion_partial {o : Order} (ho : o.Valid) {R : M3} (h : IsRotation R)
    (q₀ : Q) (ht : 0 ≤ R 0 0 + R 1 1 + R 2 2) :
    ∃ q, rotationMatrixToQuaternion o R q₀ = some q ∧ IsUnitQ o q
      ∧ quaternionToRotation o q = R := by
  obtain ⟨q, h1, h2, h3⟩ := rotationMatrixToQuaternion_spec h q₀
  refine ⟨convert o ceresOrder q, ?_, ?_, ?_⟩
  · rw [rotationMatrixToQuaternion] at h1 ⊢
    rw [if_pos ht] at h1 ⊢
    simp only [Option.some.injEq] at h1 ⊢
    rw [← h1]
    rfl
  · rw [IsUnitQ, convert_spec ho]; exact h2
  · rw [← h3]
    apply ext_mulVec
    intro p
    apply pure_injective
    rw [quaternionToRotation_mulVec, quaternionToRotation_mulVec, convert_spec ho]

/-- **Finding.** With `EigenQuaternionOrder`, a negative trace and `R(1,1) ≤ R(0,0)` the function
reads `R(3,3)`, outside the matrix. -/
theorem rotationMatrixToQuaternion_eigen_out_of_bounds (R : M3) (q₀ : Q)
    (ht : R 0 0 + R 1 1 + R 2 2 < 0) (h : R 1 1 ≤ R 0 0) :
    rotationMatrixToQuaternion eigenOrder R q₀ = none := by
  rw [rotationMatrixToQuaternion]
  refine Eq.trans (if_neg (not_le.2 ht)) ?_
  rw [if_neg (not_lt.2 h)]
  rfl

/-- **Finding.** With `EigenQuaternionOrder` and a negative trace the function never writes the
x coefficient: when it returns, `quaternion[0]` holds what it held before the call. -/
theorem rotationMatrixToQuaternion_eigen_unwritten (R : M3) (q₀ q : Q)
    (ht : R 0 0 + R 1 1 + R 2 2 < 0) (h : rotationMatrixToQuaternion eigenOrder R q₀ = some q) :
    q eigenOrder.x = q₀ eigenOrder.x := by
  by_cases h1 : R 1 1 ≤ R 0 0
  · rw [rotationMatrixToQuaternion_eigen_out_of_bounds R q₀ ht h1] at h
    cases h
  · rw [rotationMatrixToQuaternion] at h
    have h2 := (Eq.symm (if_neg (not_le.2 ht))).trans h
    rw [if_pos (not_le.1 h1)] at h2
    have h3 : fromLargest eigenOrder R (if R 2 2 > R 0 0 then 1 else 0) q₀ = some q := h2
    by_cases h4 : R 2 2 > R 0 0
    · rw [if_pos h4] at h3
      have h5 := Option.some.inj h3
      rw [← h5]
      rfl
    · rw [if_neg h4] at h3
      have h5 := Option.some.inj h3
      rw [← h5]
      rfl

/-- The half turn about the z axis is a rotation that meets the hypotheses of the first finding,
the half turn about the y axis one that meets those of the second. -/
example : IsRotation !![-1, 0, 0; 0, -1, 0; 0, 0, 1] ∧ IsRotation !![-1, 0, 0; 0, 1, 0; 0, 0, -1] := by
  constructor <;> constructor
  · ext i j; fin_cases i <;> fin_cases j <;> simp [Matrix.mul_apply, Fin.sum_univ_three]
  · simp [Matrix.det_fin_three]
  · ext i j; fin_cases i <;> fin_cases j <;> simp [Matrix.mul_apply, Fin.sum_univ_three]
  · simp [Matrix.det_fin_three]

/-! ## Array layouts -/

/-- **C42.** The adapters address the nine entries of an array one to one. -/
theorem adapter_bijective (r c r' c' : Fin 3) :
    ((r : ℕ) * 1 + c * 3 = r' * 1 + c' * 3 ↔ r = r' ∧ c = c')
      ∧ ((r : ℕ) * 3 + c * 1 = r' * 3 + c' * 1 ↔ r = r' ∧ c = c')
      ∧ (r : ℕ) * 1 + c * 3 < 9 ∧ (r : ℕ) * 3 + c * 1 < 9 := by
  revert r c r' c'; decide

/-- The two layouts of the same array are transposes of each other.  The overloads that take plain
arrays use `columnMajor` for `RotationMatrixToQuaternion`, `RotationMatrixToAngleAxis` and
`AngleAxisToRotationMatrix`, and `rowMajor` for `QuaternionToRotation` and the Euler angles. -/
theorem rowMajor_eq_transpose (p : ℕ → ℝ) : rowMajor p = (columnMajor p).transpose := by
  ext r c
  simp [rowMajor, columnMajor, adapter, add_comm]

/-- **Finding (documented in the code by the default layouts).** Passing the plain array written by
`QuaternionToRotation` to `RotationMatrixToQuaternion` gives the conjugate, up to the sign. -/
theorem plain_array_conjugates (q q₀ : Q) (hq : IsUnitQ ceresOrder q) (p : ℕ → ℝ)
    (hp : rowMajor p = quaternionToRotation ceresOrder q) :
    ∃ q', rotationMatrixToQuaternion ceresOrder (columnMajor p) q₀ = some q'
      ∧ (q' = quaternionConjugate ceresOrder q ∨ q' = -quaternionConjugate ceresOrder q) := by
  have hc : IsUnitQ ceresOrder (quaternionConjugate ceresOrder q) := by
    rw [IsUnitQ, quaternionConjugate_spec ceresOrder_valid, Quaternion.normSq_star]; exact hq
  have : columnMajor p = quaternionToRotation ceresOrder (quaternionConjugate ceresOrder q) := by
    rw [quaternionToRotation_unit hc]
    rw [quaternionToRotation_unit hq, rowMajor_eq_transpose] at hp
    rw [← Matrix.transpose_transpose (columnMajor p), hp]
    ext i j
    have hw : quaternionConjugate ceresOrder q ceresOrder.w = q ceresOrder.w := rfl
    have hx : quaternionConjugate ceresOrder q ceresOrder.x = -q ceresOrder.x := rfl
    have hy : quaternionConjugate ceresOrder q ceresOrder.y = -q ceresOrder.y := rfl
    have hz : quaternionConjugate ceresOrder q ceresOrder.z = -q ceresOrder.z := rfl
    fin_cases i <;> fin_cases j <;> simp [quaternionToScaledRotation, hw, hx, hy, hz] <;> ring
  rw [this]
  exact rotationMatrixToQuaternion_quaternionToRotation _ q₀ hc

end

end Ceres.Rotation
