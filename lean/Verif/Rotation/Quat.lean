import Verif.Rotation.Model
import Mathlib.Algebra.Quaternion
import Mathlib.Analysis.Quaternion
import Mathlib.LinearAlgebra.Matrix.Determinant.Basic
import Mathlib.Tactic.LinearCombination
import Mathlib.Tactic.FinCases

/-!
# Quaternions

Specification: Mathlib's quaternion algebra `ℍ[ℝ]`.  A quaternion in memory with a given order of
coefficients stands for `toH`, a point stands for the pure quaternion `pure`.
-/

namespace Ceres.Rotation

open Quaternion Matrix

noncomputable section

/-- The four positions are distinct. -/
def Order.Valid (o : Order) : Prop :=
  o.w ≠ o.x ∧ o.w ≠ o.y ∧ o.w ≠ o.z ∧ o.x ≠ o.y ∧ o.x ≠ o.z ∧ o.y ≠ o.z

/-- Both orders the library provides are valid. -/
theorem ceresOrder_valid : ceresOrder.Valid := by simp [Order.Valid, ceresOrder]

theorem eigenOrder_valid : eigenOrder.Valid := by simp [Order.Valid, eigenOrder]

/-- The quaternion `w + x i + y j + z k`. -/
def quat (w x y z : ℝ) : ℍ[ℝ] := ⟨w, x, y, z⟩

@[simp] theorem quat_re (w x y z : ℝ) : (quat w x y z).re = w := rfl
@[simp] theorem quat_imI (w x y z : ℝ) : (quat w x y z).imI = x := rfl
@[simp] theorem quat_imJ (w x y z : ℝ) : (quat w x y z).imJ = y := rfl
@[simp] theorem quat_imK (w x y z : ℝ) : (quat w x y z).imK = z := rfl

/-- The quaternion an array stands for. -/
def toH (o : Order) (q : Q) : ℍ[ℝ] := quat (q o.w) (q o.x) (q o.y) (q o.z)

/-- A point as a pure quaternion. -/
def pure (p : V3) : ℍ[ℝ] := quat 0 (p 0) (p 1) (p 2)

section mk

variable {o : Order} (ho : o.Valid) (w x y z : ℝ)
include ho

theorem mk_w : mk o w x y z o.w = w := by simp [mk]
theorem mk_x : mk o w x y z o.x = x := by simp [mk, ho.1.symm]
theorem mk_y : mk o w x y z o.y = y := by simp [mk, ho.2.1.symm, ho.2.2.2.1.symm]
theorem mk_z : mk o w x y z o.z = z := by
  simp [mk, ho.2.2.1.symm, ho.2.2.2.2.1.symm, ho.2.2.2.2.2.symm]

theorem toH_mk : toH o (mk o w x y z) = quat w x y z := by
  simp only [toH, mk_w ho, mk_x ho, mk_y ho, mk_z ho]

end mk

/-- Every position of an array is one of the four positions of a valid order. -/
theorem Order.Valid.cover {o : Order} (ho : o.Valid) (i : Fin 4) :
    i = o.w ∨ i = o.x ∨ i = o.y ∨ i = o.z := by
  obtain ⟨a, b, c, d⟩ := o
  simp only [Order.Valid] at ho ⊢
  revert ho; revert i a b c d; decide

/-- Two arrays standing for the same quaternion are equal. -/
theorem toH_injective {o : Order} (ho : o.Valid) {p q : Q} (h : toH o p = toH o q) : p = q := by
  have h' := (QuaternionAlgebra.ext_iff).1 h
  simp only [toH, quat_re, quat_imI, quat_imJ, quat_imK] at h'
  obtain ⟨h1, h2, h3, h4⟩ := h'
  funext i
  rcases ho.cover i with rfl | rfl | rfl | rfl <;> assumption

theorem pure_injective {p q : V3} (h : pure p = pure q) : p = q := by
  have h' := (QuaternionAlgebra.ext_iff).1 h
  simp only [pure, quat_re, quat_imI, quat_imJ, quat_imK] at h'
  funext i
  fin_cases i
  · exact h'.2.1
  · exact h'.2.2.1
  · exact h'.2.2.2

/-- Every quaternion is representable. -/
theorem toH_surjective {o : Order} (ho : o.Valid) (h : ℍ[ℝ]) : ∃ q, toH o q = h :=
  ⟨mk o h.re h.imI h.imJ h.imK, by rw [toH_mk ho]; ext <;> simp⟩

/-- **C42.** Converting between orders keeps the quaternion. -/
theorem convert_spec {a b : Order} (ha : a.Valid) (q : Q) :
    toH a (convert a b q) = toH b q := by
  rw [convert, toH_mk ha]; rfl

/-- Converting to the other order and back gives the original array. -/
theorem convert_convert {a b : Order} (ha : a.Valid) (hb : b.Valid) (q : Q) :
    convert b a (convert a b q) = q :=
  toH_injective hb (by rw [convert_spec hb, convert_spec ha])

/-- **C42.** `QuaternionProduct` is the product of quaternions. -/
theorem quaternionProduct_spec {o : Order} (ho : o.Valid) (z w : Q) :
    toH o (quaternionProduct o z w) = toH o z * toH o w := by
  rw [quaternionProduct, toH_mk ho]
  ext <;> simp [toH] <;> ring

/-- **C42.** `QuaternionConjugate` is the conjugate. -/
theorem quaternionConjugate_spec {o : Order} (ho : o.Valid) (q : Q) :
    toH o (quaternionConjugate o q) = star (toH o q) := by
  rw [quaternionConjugate, toH_mk ho]
  ext <;> simp [toH]

/-- **C42.** `CrossProduct` and `DotProduct` are the parts of the product of pure quaternions. -/
theorem cross_dot_spec (x y : V3) :
    pure x * pure y = -((dotProduct x y : ℝ) : ℍ[ℝ]) + pure (crossProduct x y) := by
  ext <;> simp [pure, dotProduct, crossProduct] <;> ring

/-- The squared length of a quaternion. -/
theorem normSq_toH (o : Order) (q : Q) :
    Quaternion.normSq (toH o q) = q o.w * q o.w + q o.x * q o.x + q o.y * q o.y + q o.z * q o.z := by
  rw [Quaternion.normSq_def']
  simp only [toH, quat_re, quat_imI, quat_imJ, quat_imK]
  ring

/-- The polynomial identity behind `UnitQuaternionRotatePoint`: for every quaternion, the value is
`q p q* + (1 - |q|²) p`. -/
theorem unitQuaternionRotatePoint_eq (o : Order) (q : Q) (p : V3) :
    pure (unitQuaternionRotatePoint o q p)
      = toH o q * pure p * star (toH o q) + (1 - Quaternion.normSq (toH o q)) • pure p := by
  rw [normSq_toH]
  ext <;> simp [pure, toH, unitQuaternionRotatePoint] <;> ring

/-- **C42.** `UnitQuaternionRotatePoint` with a unit quaternion is `q p q*`. -/
theorem unitQuaternionRotatePoint_spec (o : Order) (q : Q) (p : V3)
    (hq : Quaternion.normSq (toH o q) = 1) :
    pure (unitQuaternionRotatePoint o q p) = toH o q * pure p * star (toH o q) := by
  rw [unitQuaternionRotatePoint_eq, hq]; simp

/-- **C42.** `QuaternionRotatePoint` with any non-zero quaternion is `q p q⁻¹`. -/
theorem quaternionRotatePoint_spec {o : Order} (ho : o.Valid) (q : Q) (p : V3)
    (hq : toH o q ≠ 0) :
    pure (quaternionRotatePoint o q p) = toH o q * pure p * (toH o q)⁻¹ := by
  set n := Quaternion.normSq (toH o q) with hn
  have hn0 : 0 < n := lt_of_le_of_ne Quaternion.normSq_nonneg
    (Ne.symm (by rw [hn, Ne, Quaternion.normSq_eq_zero]; exact hq))
  have hsc : toH o (mk o (1 / Real.sqrt n * q o.w) (1 / Real.sqrt n * q o.x)
      (1 / Real.sqrt n * q o.y) (1 / Real.sqrt n * q o.z)) = (1 / Real.sqrt n) • toH o q := by
    rw [toH_mk ho]; ext <;> simp [toH]
  have hq' : quaternionRotatePoint o q p = unitQuaternionRotatePoint o
      (mk o (1 / Real.sqrt n * q o.w) (1 / Real.sqrt n * q o.x)
      (1 / Real.sqrt n * q o.y) (1 / Real.sqrt n * q o.z)) p := by
    rw [hn, normSq_toH]; rfl
  have hs : Real.sqrt n * Real.sqrt n = n := Real.mul_self_sqrt hn0.le
  have hs0 : Real.sqrt n ≠ 0 := (Real.sqrt_pos.2 hn0).ne'
  have hss : (1 / Real.sqrt n) * (1 / Real.sqrt n) = n⁻¹ := by
    rw [one_div, ← mul_inv, hs]
  rw [hq', unitQuaternionRotatePoint_spec, hsc]
  · rw [Quaternion.star_smul, smul_mul_assoc, smul_mul_assoc, mul_smul_comm, smul_smul, hss]
    show n⁻¹ • _ = _ * (n⁻¹ • star (toH o q))
    rw [mul_smul_comm]
  · rw [hsc, Quaternion.normSq_smul, ← hn, sq, hss, inv_mul_cancel₀ hn0.ne']

/-- Multiplying the scaled rotation matrix with a point is `q p q*`. -/
theorem quaternionToScaledRotation_mulVec (o : Order) (q : Q) (p : V3) :
    pure (quaternionToScaledRotation o q *ᵥ p) = toH o q * pure p * star (toH o q) := by
  ext <;> simp [pure, toH, quaternionToScaledRotation, Matrix.mulVec, _root_.dotProduct,
    Fin.sum_univ_three, Matrix.vecHead, Matrix.vecTail] <;> ring

theorem quaternionToRotation_eq (o : Order) (q : Q) :
    quaternionToRotation o q
      = (Quaternion.normSq (toH o q))⁻¹ • quaternionToScaledRotation o q := by
  ext i j
  simp only [quaternionToRotation, normSq_toH, Matrix.smul_apply, smul_eq_mul, one_div]
  ring

/-- **C42.** The matrix of `QuaternionToRotation` acts on points as `q p q⁻¹`. -/
theorem quaternionToRotation_mulVec (o : Order) (q : Q) (p : V3) :
    pure (quaternionToRotation o q *ᵥ p) = toH o q * pure p * (toH o q)⁻¹ := by
  rw [quaternionToRotation_eq, Matrix.smul_mulVec]
  have : ∀ (c : ℝ) (v : V3), pure (c • v) = c • pure v := by
    intro c v; ext <;> simp [pure]
  rw [this, quaternionToScaledRotation_mulVec]
  show _ = _ * ((Quaternion.normSq (toH o q))⁻¹ • star (toH o q))
  rw [mul_smul_comm]

/-- Two matrices that act alike on all points are equal. -/
theorem ext_mulVec {A B : M3} (h : ∀ p : V3, A *ᵥ p = B *ᵥ p) : A = B := by
  ext i j
  have := congrFun (h (Pi.single j 1)) i
  simpa using this

/-- **C42.** `QuaternionRotatePoint` and the matrix of `QuaternionToRotation` rotate a point to
the same point. -/
theorem quaternionRotatePoint_eq_mulVec {o : Order} (ho : o.Valid) (q : Q) (p : V3)
    (hq : toH o q ≠ 0) :
    quaternionRotatePoint o q p = quaternionToRotation o q *ᵥ p :=
  pure_injective (by rw [quaternionRotatePoint_spec ho q p hq, quaternionToRotation_mulVec])

/-- **C42.** `QuaternionToScaledRotation` maps the product of quaternions to the product of
matrices. -/
theorem quaternionToScaledRotation_mul {o : Order} (ho : o.Valid) (z w : Q) :
    quaternionToScaledRotation o (quaternionProduct o z w)
      = quaternionToScaledRotation o z * quaternionToScaledRotation o w := by
  apply ext_mulVec
  intro p
  apply pure_injective
  rw [← Matrix.mulVec_mulVec, quaternionToScaledRotation_mulVec, quaternionToScaledRotation_mulVec,
    quaternionToScaledRotation_mulVec, quaternionProduct_spec ho, star_mul]
  simp only [mul_assoc]

/-- **C42.** `QuaternionToRotation` maps the product of quaternions to the product of matrices. -/
theorem quaternionToRotation_mul {o : Order} (ho : o.Valid) (z w : Q) :
    quaternionToRotation o (quaternionProduct o z w)
      = quaternionToRotation o z * quaternionToRotation o w := by
  apply ext_mulVec
  intro p
  apply pure_injective
  rw [← Matrix.mulVec_mulVec, quaternionToRotation_mulVec, quaternionToRotation_mulVec,
    quaternionToRotation_mulVec, quaternionProduct_spec ho, _root_.mul_inv_rev]
  simp only [mul_assoc]

/-- **C42.** `QuaternionToScaledRotation` is `|q|²` times a rotation: `M Mᵀ = |q|⁴ I` and
`det M = |q|⁶`. -/
theorem quaternionToScaledRotation_scaled (o : Order) (q : Q) :
    quaternionToScaledRotation o q * (quaternionToScaledRotation o q).transpose
        = (Quaternion.normSq (toH o q)) ^ 2 • (1 : M3)
      ∧ (quaternionToScaledRotation o q).det = (Quaternion.normSq (toH o q)) ^ 3 := by
  rw [normSq_toH]
  constructor
  · ext i j
    fin_cases i <;> fin_cases j <;>
      simp [quaternionToScaledRotation, Matrix.mul_apply, Fin.sum_univ_three] <;> ring
  · rw [Matrix.det_fin_three]
    simp [quaternionToScaledRotation]
    ring

/-- A rotation matrix. -/
def IsRotation (R : M3) : Prop := R * R.transpose = 1 ∧ R.det = 1

/-- **C42.** For every non-zero quaternion, `QuaternionToRotation` gives a rotation matrix. -/
theorem quaternionToRotation_isRotation (o : Order) (q : Q) (hq : toH o q ≠ 0) :
    IsRotation (quaternionToRotation o q) := by
  have hn : Quaternion.normSq (toH o q) ≠ 0 := by
    rw [Ne, Quaternion.normSq_eq_zero]; exact hq
  obtain ⟨h1, h2⟩ := quaternionToScaledRotation_scaled o q
  rw [quaternionToRotation_eq]
  constructor
  · rw [Matrix.transpose_smul, Matrix.smul_mul, Matrix.mul_smul, h1, smul_smul, smul_smul]
    rw [show (Quaternion.normSq (toH o q))⁻¹ * (Quaternion.normSq (toH o q))⁻¹
      * (Quaternion.normSq (toH o q)) ^ 2 = 1 by field_simp, one_smul]
  · rw [Matrix.det_smul, h2]
    simp only [Fintype.card_fin]
    field_simp

/-- A unit quaternion. -/
def IsUnitQ (o : Order) (q : Q) : Prop := Quaternion.normSq (toH o q) = 1

theorem IsUnitQ.ne_zero {o : Order} {q : Q} (h : IsUnitQ o q) : toH o q ≠ 0 := by
  intro h0
  rw [IsUnitQ, h0] at h
  simp at h

/-- The matrix of a unit quaternion is its scaled rotation. -/
theorem quaternionToRotation_unit {o : Order} {q : Q} (h : IsUnitQ o q) :
    quaternionToRotation o q = quaternionToScaledRotation o q := by
  rw [quaternionToRotation_eq, h, inv_one, one_smul]

/-- **C42.** `q` and `-q` give the same rotation. -/
theorem quaternionToRotation_neg (o : Order) (q : Q) :
    quaternionToRotation o (-q) = quaternionToRotation o q := by
  apply ext_mulVec
  intro p
  apply pure_injective
  have : toH o (-q) = -toH o q := by ext <;> simp [toH]
  rw [quaternionToRotation_mulVec, quaternionToRotation_mulVec, this, inv_neg]
  simp

/-- A quaternion that is not of unit length, with all four coefficients different from zero. -/
example : toH ceresOrder (mk ceresOrder 1 2 3 4) = quat 1 2 3 4
    ∧ toH eigenOrder (mk eigenOrder 1 2 3 4) = quat 1 2 3 4
    ∧ mk eigenOrder 1 2 3 4 = ![2, 3, 4, 1] := by
  refine ⟨toH_mk ceresOrder_valid _ _ _ _, toH_mk eigenOrder_valid _ _ _ _, ?_⟩
  funext i
  fin_cases i <;> simp [mk, eigenOrder]

/-- A turn about the z axis by the angle with cosine `-7/25` and sine `24/25`. -/
example : unitQuaternionRotatePoint ceresOrder (mk ceresOrder (3 / 5) 0 0 (4 / 5)) ![1, 0, 2]
    = ![-7 / 25, 24 / 25, 2] := by
  have hw := mk_w ceresOrder_valid (3 / 5) 0 0 (4 / 5)
  have hx := mk_x ceresOrder_valid (3 / 5) 0 0 (4 / 5)
  have hy := mk_y ceresOrder_valid (3 / 5) 0 0 (4 / 5)
  have hz := mk_z ceresOrder_valid (3 / 5) 0 0 (4 / 5)
  funext i
  fin_cases i <;> simp [unitQuaternionRotatePoint, hw, hx, hy, hz] <;> norm_num

end

end Ceres.Rotation
