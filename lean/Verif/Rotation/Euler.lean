import Verif.Rotation.FromMatrix

/-!
# Euler angles

Specification: the rotation matrices `elem` about the three coordinate axes.  An extrinsic system
`ABC` with angles `e0, e1, e2` rotates first about `A` by `e0`, then about the fixed axis `B` by
`e1`, then about `C` by `e2`; an intrinsic system `ABC` rotates about `A`, the moved `B`, the moved
`C`, which is the product in the opposite order.
-/

namespace Ceres.Rotation

open Matrix

noncomputable section

/-- The rotation by an angle about a coordinate axis. -/
def elem (axis : Fin 3) (t : ℝ) : M3 :=
  match axis with
  | 0 => !![1, 0, 0; 0, Real.cos t, -Real.sin t; 0, Real.sin t, Real.cos t]
  | 1 => !![Real.cos t, 0, Real.sin t; 0, 1, 0; -Real.sin t, 0, Real.cos t]
  | 2 => !![Real.cos t, -Real.sin t, 0; Real.sin t, Real.cos t, 0; 0, 0, 1]

/-- The elementary rotations are those of angle-axis vectors along the axes. -/
theorem elem_eq_angleAxis (axis : Fin 3) (t : ℝ) :
    elem axis t = angleAxisToRotationMatrix (Pi.single axis t) := by
  have hth : theta (Pi.single axis t) = |t| := by
    rw [← Real.sqrt_mul_self_eq_abs, theta]
    congr 1
    fin_cases axis <;> simp
  have hh : hypot3 ((Pi.single axis t : V3) 0) ((Pi.single axis t : V3) 1) ((Pi.single axis t : V3) 2)
      = |t| := hth
  simp only [angleAxisToRotationMatrix, hh]
  by_cases h : |t| ≠ 0
  · rw [if_pos h, Real.cos_abs]
    have ht : t ≠ 0 := abs_ne_zero.1 h
    have h1 : t / |t| * (t / |t|) = 1 := by
      rw [div_mul_div_comm, abs_mul_abs_self, div_self (mul_ne_zero ht ht)]
    have h2 : t / |t| * Real.sin |t| = Real.sin t := by
      rcases abs_choice t with h3 | h3 <;> rw [h3]
      · rw [div_self ht, one_mul]
      · rw [Real.sin_neg, div_neg, div_self ht]; ring
    ext i j
    fin_cases axis <;> fin_cases i <;> fin_cases j <;> simp [elem, h1, h2]
  · rw [if_neg h]
    push Not at h
    have ht : t = 0 := abs_eq_zero.1 h
    subst ht
    ext i j
    fin_cases axis <;> fin_cases i <;> fin_cases j <;> simp [elem, angleAxisToRotationMatrixZero]

/-- The names of the 24 systems (euler_angles.h:99-199): whether the system is intrinsic, the three
axes of the name, and the system. -/
def aliases : List (Bool × Fin 3 × Fin 3 × Fin 3 × EulerSystem) :=
  [(false, 0, 1, 2, ⟨0, false, false, false⟩), (false, 0, 1, 0, ⟨0, false, true, false⟩),
   (false, 0, 2, 1, ⟨0, true, false, false⟩), (false, 0, 2, 0, ⟨0, true, true, false⟩),
   (false, 1, 2, 0, ⟨1, false, false, false⟩), (false, 1, 2, 1, ⟨1, false, true, false⟩),
   (false, 1, 0, 2, ⟨1, true, false, false⟩), (false, 1, 0, 1, ⟨1, true, true, false⟩),
   (false, 2, 0, 1, ⟨2, false, false, false⟩), (false, 2, 0, 2, ⟨2, false, true, false⟩),
   (false, 2, 1, 0, ⟨2, true, false, false⟩), (false, 2, 1, 2, ⟨2, true, true, false⟩),
   (true, 2, 1, 0, ⟨0, false, false, true⟩), (true, 0, 1, 0, ⟨0, false, true, true⟩),
   (true, 1, 2, 0, ⟨0, true, false, true⟩), (true, 0, 2, 0, ⟨0, true, true, true⟩),
   (true, 0, 2, 1, ⟨1, false, false, true⟩), (true, 1, 2, 1, ⟨1, false, true, true⟩),
   (true, 2, 0, 1, ⟨1, true, false, true⟩), (true, 1, 0, 1, ⟨1, true, true, true⟩),
   (true, 1, 0, 2, ⟨2, false, false, true⟩), (true, 2, 0, 2, ⟨2, false, true, true⟩),
   (true, 0, 1, 2, ⟨2, true, false, true⟩), (true, 2, 1, 2, ⟨2, true, true, true⟩)]

/-- The inner part of the two conversions, on the axes `i, j, k`. -/
def core (proper : Bool) (e : V3) : M3 :=
  let ci := Real.cos (e 0)
  let cj := Real.cos (e 1)
  let ch := Real.cos (e 2)
  let si := Real.sin (e 0)
  let sj := Real.sin (e 1)
  let sh := Real.sin (e 2)
  if proper then
    !![cj, sj * si, sj * ci;
       sj * sh, -cj * (si * sh) + ci * ch, -cj * (ci * sh) - si * ch;
       -sj * ch, cj * (si * ch) + ci * sh, cj * (ci * ch) - si * sh]
  else
    !![cj * ch, sj * (si * ch) - ci * sh, sj * (ci * ch) + si * sh;
       cj * sh, sj * (si * sh) + ci * ch, sj * (ci * sh) - si * ch;
       -sj, cj * si, cj * ci]

/-- The order and the sign of the angles of a system. -/
def signed (s : EulerSystem) (e : V3) : V3 :=
  let f : V3 := if s.intrinsic then ![e 2, e 1, e 0] else ![e 0, e 1, e 2]
  if s.odd then ![-f 0, -f 1, -f 2] else f

theorem eulerAnglesToRotation_eq (s : EulerSystem) (e : V3) :
    eulerAnglesToRotation s e = assign s.inner s.j s.k (core s.proper (signed s e)) := by
  obtain ⟨i, odd, proper, intr⟩ := s
  cases odd <;> cases proper <;> cases intr <;> rfl

/-- The core for the proper systems, as a product of rotations about the first, second and first
axis; for the others about the first, second and third. -/
theorem core_eq (proper : Bool) (e : V3) :
    core proper e = elem (if proper then 0 else 2) (e 2) * elem 1 (e 1) * elem 0 (e 0) := by
  cases proper <;> ext i j <;> fin_cases i <;> fin_cases j <;>
    simp [core, elem, Matrix.mul_apply, Fin.sum_univ_three] <;> ring

/-- The axes of a system, `kAxes`. -/
def axes (s : EulerSystem) : Fin 3 → Fin 3 := ![s.inner, s.j, s.k]

/-- The position of an axis in `kAxes`. -/
def pos (s : EulerSystem) (a : Fin 3) : Fin 3 :=
  if a = s.inner then 0 else if a = s.j then 1 else if a = s.k then 2 else 0

theorem pos_axes (s : EulerSystem) (a : Fin 3) : pos s (axes s a) = a := by
  obtain ⟨i, odd, proper, intr⟩ := s
  revert a i odd proper intr
  decide

theorem axes_pos (s : EulerSystem) (a : Fin 3) : axes s (pos s a) = a := by
  obtain ⟨i, odd, proper, intr⟩ := s
  revert a i odd proper intr
  decide

/-- The permutation of the axes. -/
def posEquiv (s : EulerSystem) : Fin 3 ≃ Fin 3 := ⟨pos s, axes s, axes_pos s, pos_axes s⟩

theorem assign_eq (s : EulerSystem) (m : M3) :
    assign s.inner s.j s.k m = m.submatrix (posEquiv s) (posEquiv s) := rfl

theorem assign_mul (s : EulerSystem) (m n : M3) :
    assign s.inner s.j s.k (m * n) = assign s.inner s.j s.k m * assign s.inner s.j s.k n := by
  rw [assign_eq, assign_eq, assign_eq, Matrix.submatrix_mul_equiv]

/-- The kinds of entries of `elem`: `0`, `1`, `cos`, `sin`, `-sin`. -/
def kind (axis r c : Fin 3) : Fin 5 :=
  if r = axis ∨ c = axis then (if r = c then 1 else 0)
  else if r = c then 2 else if r = axis + 2 then 3 else 4

/-- The value of an entry. -/
def kindValue (k : Fin 5) (t : ℝ) : ℝ := ![0, 1, Real.cos t, Real.sin t, -Real.sin t] k

theorem elem_kind (axis : Fin 3) (t : ℝ) (r c : Fin 3) : elem axis t r c = kindValue (kind axis r c) t := by
  fin_cases axis <;> fin_cases r <;> fin_cases c <;> simp [elem, kind, kindValue] <;> rfl

/-- The kind of the entry for the negative angle. -/
def kindNeg (k : Fin 5) : Fin 5 := if k = 3 then 4 else if k = 4 then 3 else k

theorem kindValue_neg (k : Fin 5) (t : ℝ) : kindValue k (-t) = kindValue (kindNeg k) t := by
  fin_cases k <;> simp [kindNeg, kindValue]

theorem kind_pos (s : EulerSystem) (a r c : Fin 3) :
    kind a (pos s r) (pos s c)
      = if s.odd then kindNeg (kind (axes s a) r c) else kind (axes s a) r c := by
  obtain ⟨i, odd, proper, intr⟩ := s
  revert a r c i odd proper intr
  decide

theorem assign_elem (s : EulerSystem) (a : Fin 3) (t : ℝ) :
    assign s.inner s.j s.k (elem a t) = elem (axes s a) (if s.odd then -t else t) := by
  have h : ∀ r c, assign s.inner s.j s.k (elem a t) r c = elem a t (pos s r) (pos s c) :=
    fun _ _ => rfl
  ext r c
  rw [h, elem_kind, elem_kind, kind_pos]
  cases s.odd
  · simp
  · simp only [if_true]; rw [kindValue_neg]

/-- The matrix of a system as a product of rotations about its axes. -/
theorem eulerAnglesToRotation_prod (s : EulerSystem) (e : V3) :
    eulerAnglesToRotation s e =
      if s.intrinsic then
        elem (axes s (if s.proper then 0 else 2)) (e 0) * elem (axes s 1) (e 1) * elem (axes s 0) (e 2)
      else
        elem (axes s (if s.proper then 0 else 2)) (e 2) * elem (axes s 1) (e 1)
          * elem (axes s 0) (e 0) := by
  rw [eulerAnglesToRotation_eq, core_eq, assign_mul, assign_mul, assign_elem, assign_elem, assign_elem]
  obtain ⟨i, odd, proper, intr⟩ := s
  cases odd <;> cases intr <;> simp [signed]

/-- **C70.** Each of the 24 systems has the matrix its name says: `EulerAnglesToRotation` of an
extrinsic system `ABC` is `R_C(e2) R_B(e1) R_A(e0)`, of an intrinsic system `ABC` it is
`R_A(e0) R_B(e1) R_C(e2)`. -/
theorem eulerAnglesToRotation_spec (n : Bool × Fin 3 × Fin 3 × Fin 3 × EulerSystem) (hn : n ∈ aliases)
    (e : V3) :
    eulerAnglesToRotation n.2.2.2.2 e =
      if n.1 then elem n.2.1 (e 0) * elem n.2.2.1 (e 1) * elem n.2.2.2.1 (e 2)
      else elem n.2.2.2.1 (e 2) * elem n.2.2.1 (e 1) * elem n.2.1 (e 0) := by
  have key : ∀ n ∈ aliases, n.1 = n.2.2.2.2.intrinsic
      ∧ axes n.2.2.2.2 0 = (if n.1 then n.2.2.2.1 else n.2.1)
      ∧ axes n.2.2.2.2 1 = n.2.2.1
      ∧ axes n.2.2.2.2 (if n.2.2.2.2.proper then 0 else 2) = (if n.1 then n.2.1 else n.2.2.2.1) := by
    decide
  obtain ⟨k1, k2, k3, k4⟩ := key n hn
  rw [eulerAnglesToRotation_prod, k2, k3, k4, ← k1]
  cases n.1 <;> rfl

/-- **C70.** Every system has a name. -/
theorem aliases_complete (s : EulerSystem) : ∃ n ∈ aliases, n.2.2.2.2 = s := by
  obtain ⟨i, odd, proper, intr⟩ := s
  fin_cases i <;> cases odd <;> cases proper <;> cases intr <;> simp [aliases]

/-! ## From matrices -/

/-- The matrix seen in the axes of the system. -/
def view (s : EulerSystem) (R : M3) : M3 := R.submatrix (posEquiv s).symm (posEquiv s).symm

theorem assign_view (s : EulerSystem) (R : M3) : assign s.inner s.j s.k (view s R) = R := by
  rw [assign_eq, view, Matrix.submatrix_submatrix]
  simp

theorem view_isRotation (s : EulerSystem) {R : M3} (h : IsRotation R) : IsRotation (view s R) := by
  constructor
  · rw [view, Matrix.transpose_submatrix, Matrix.submatrix_mul_equiv, h.1, Matrix.submatrix_one_equiv]
  · rw [view, Matrix.det_submatrix_equiv_self, h.2]

/-- The angles before the sign, the order and the ranges are fixed. -/
def raw (proper : Bool) (M : M3) : V3 :=
  if proper then
    let sy := hypot2 (M 0 1) (M 0 2)
    if sy ≠ 0 then ![atan2 (M 0 1) (M 0 2), atan2 sy (M 0 0), atan2 (M 1 0) (-M 2 0)]
    else ![atan2 (-M 1 2) (M 1 1), atan2 sy (M 0 0), 0]
  else
    let cy := hypot2 (M 0 0) (M 1 0)
    if cy ≠ 0 then ![atan2 (M 2 1) (M 2 2), atan2 (-M 2 0) cy, atan2 (M 1 0) (M 0 0)]
    else ![atan2 (-M 1 2) (M 1 1), atan2 (-M 2 0) cy, 0]

/-- The sine and cosine of `atan2`. -/
theorem sin_cos_atan2 {y x r : ℝ} (hr : 0 < r) (h : x * x + y * y = r * r) :
    Real.sin (atan2 y x) = y / r ∧ Real.cos (atan2 y x) = x / r := by
  have hn : ‖(⟨x, y⟩ : ℂ)‖ = r := by
    refine (mul_self_inj (norm_nonneg _) hr.le).1 ?_
    rw [Complex.norm_mul_self_eq_normSq, Complex.normSq_mk, h]
  have h0 : (⟨x, y⟩ : ℂ) ≠ 0 := by rw [← norm_pos_iff, hn]; exact hr
  exact ⟨by rw [atan2, Complex.sin_arg, hn], by rw [atan2, Complex.cos_arg h0, hn]⟩

theorem hypot2_mul_self (a b : ℝ) : hypot2 a b * hypot2 a b = a * a + b * b :=
  Real.mul_self_sqrt (by nlinarith [sq_nonneg a, sq_nonneg b])

/-- The relations of a rotation matrix that the proofs use, entry by entry. -/
theorem IsRotation.entries {R : M3} (h : IsRotation R) :
    (R 0 0 * R 0 0 + R 0 1 * R 0 1 + R 0 2 * R 0 2 = 1
      ∧ R 1 0 * R 1 0 + R 1 1 * R 1 1 + R 1 2 * R 1 2 = 1
      ∧ R 2 0 * R 2 0 + R 2 1 * R 2 1 + R 2 2 * R 2 2 = 1
      ∧ R 0 0 * R 1 0 + R 0 1 * R 1 1 + R 0 2 * R 1 2 = 0
      ∧ R 0 0 * R 2 0 + R 0 1 * R 2 1 + R 0 2 * R 2 2 = 0
      ∧ R 1 0 * R 2 0 + R 1 1 * R 2 1 + R 1 2 * R 2 2 = 0)
    ∧ (R 0 0 * R 0 0 + R 1 0 * R 1 0 + R 2 0 * R 2 0 = 1
      ∧ R 0 1 * R 0 1 + R 1 1 * R 1 1 + R 2 1 * R 2 1 = 1
      ∧ R 0 2 * R 0 2 + R 1 2 * R 1 2 + R 2 2 * R 2 2 = 1
      ∧ R 0 0 * R 0 1 + R 1 0 * R 1 1 + R 2 0 * R 2 1 = 0
      ∧ R 0 0 * R 0 2 + R 1 0 * R 1 2 + R 2 0 * R 2 2 = 0
      ∧ R 0 1 * R 0 2 + R 1 1 * R 1 2 + R 2 1 * R 2 2 = 0)
    ∧ (R 1 1 * R 2 2 - R 1 2 * R 2 1 = R 0 0 ∧ R 1 2 * R 2 0 - R 1 0 * R 2 2 = R 0 1
      ∧ R 1 0 * R 2 1 - R 1 1 * R 2 0 = R 0 2 ∧ R 0 2 * R 2 1 - R 0 1 * R 2 2 = R 1 0
      ∧ R 0 0 * R 2 2 - R 0 2 * R 2 0 = R 1 1 ∧ R 0 1 * R 2 0 - R 0 0 * R 2 1 = R 1 2
      ∧ R 0 1 * R 1 2 - R 0 2 * R 1 1 = R 2 0 ∧ R 0 2 * R 1 0 - R 0 0 * R 1 2 = R 2 1
      ∧ R 0 0 * R 1 1 - R 0 1 * R 1 0 = R 2 2) := by
  obtain ⟨h1, h2, h3⟩ := h.relations
  simp only [Fin.sum_univ_three] at h1 h2
  refine ⟨⟨?_, ?_, ?_, ?_, ?_, ?_⟩, ⟨?_, ?_, ?_, ?_, ?_, ?_⟩, ?_, ?_, ?_, ?_, ?_, ?_, ?_, ?_, ?_⟩
  · simpa using h1 0 0
  · simpa using h1 1 1
  · simpa using h1 2 2
  · simpa using h1 0 1
  · simpa using h1 0 2
  · simpa using h1 1 2
  · simpa using h2 0 0
  · simpa using h2 1 1
  · simpa using h2 2 2
  · simpa using h2 0 1
  · simpa using h2 0 2
  · simpa using h2 1 2
  · have := h3 0 0; rw [Matrix.adjugate_fin_three] at this; simp at this; linarith
  · have := h3 1 0; rw [Matrix.adjugate_fin_three] at this; simp at this; linarith
  · have := h3 2 0; rw [Matrix.adjugate_fin_three] at this; simp at this; linarith
  · have := h3 0 1; rw [Matrix.adjugate_fin_three] at this; simp at this; linarith
  · have := h3 1 1; rw [Matrix.adjugate_fin_three] at this; simp at this; linarith
  · have := h3 2 1; rw [Matrix.adjugate_fin_three] at this; simp at this; linarith
  · have := h3 0 2; rw [Matrix.adjugate_fin_three] at this; simp at this; linarith
  · have := h3 1 2; rw [Matrix.adjugate_fin_three] at this; simp at this; linarith
  · have := h3 2 2; rw [Matrix.adjugate_fin_three] at this; simp at this; linarith

/-- The angles taken from a rotation matrix give it back: Tait-Bryan systems. -/
theorem core_raw_taitBryan {M : M3} (h : IsRotation M) : core false (raw false M) = M := by
  obtain ⟨⟨r00, r11, r22, r01, r02, r12⟩, ⟨c00, c11, c22, c01, c02, c12⟩,
    a00, a01, a02, a10, a11, a12, a20, a21, a22⟩ := h.entries
  have hcy := hypot2_mul_self (M 0 0) (M 1 0)
  have hcy0 : 0 ≤ hypot2 (M 0 0) (M 1 0) := Real.sqrt_nonneg _
  simp only [raw, Bool.false_eq_true, if_false]
  generalize hypot2 (M 0 0) (M 1 0) = cy at *
  have h1 := sin_cos_atan2 (y := -M 2 0) (x := cy) (r := 1) one_pos (by linarith)
  rw [div_one, div_one] at h1
  by_cases hc : cy ≠ 0
  · have hpos : 0 < cy := lt_of_le_of_ne hcy0 (Ne.symm hc)
    have h0 := sin_cos_atan2 (y := M 2 1) (x := M 2 2) hpos (by linarith)
    have h2 := sin_cos_atan2 (y := M 1 0) (x := M 0 0) hpos (by linarith)
    rw [if_pos hc]
    ext i j
    fin_cases i <;> fin_cases j <;> simp [core, h0, h1, h2] <;> field_simp
    · linear_combination -M 0 0 * c01 + M 1 0 * a22 - M 0 1 * hcy
    · linear_combination -M 0 0 * c02 - M 1 0 * a21 - M 0 2 * hcy
    · linear_combination -M 1 0 * c01 - M 0 0 * a22 - M 1 1 * hcy
    · linear_combination -M 1 0 * c02 + M 0 0 * a21 - M 1 2 * hcy
  · rw [if_neg hc]
    push Not at hc
    subst hc
    rw [mul_zero] at hcy
    obtain ⟨z0, z1⟩ := mul_self_add_mul_self_eq_zero.1 hcy.symm
    have h0 := sin_cos_atan2 (y := -M 1 2) (x := M 1 1) (r := 1) one_pos (by rw [z1] at r11; linarith)
    rw [div_one, div_one] at h0
    ext i j
    fin_cases i <;> fin_cases j <;>
      simp [core, h0, h1, z0, z1] <;> grind

/-- The angles taken from a rotation matrix give it back: proper systems. -/
theorem core_raw_proper {M : M3} (h : IsRotation M) : core true (raw true M) = M := by
  obtain ⟨⟨r00, r11, r22, r01, r02, r12⟩, ⟨c00, c11, c22, c01, c02, c12⟩,
    a00, a01, a02, a10, a11, a12, a20, a21, a22⟩ := h.entries
  have hsy := hypot2_mul_self (M 0 1) (M 0 2)
  have hsy0 : 0 ≤ hypot2 (M 0 1) (M 0 2) := Real.sqrt_nonneg _
  simp only [raw, if_true]
  generalize hypot2 (M 0 1) (M 0 2) = sy at *
  have h1 := sin_cos_atan2 (y := sy) (x := M 0 0) (r := 1) one_pos (by linarith)
  rw [div_one, div_one] at h1
  by_cases hc : sy ≠ 0
  · have hpos : 0 < sy := lt_of_le_of_ne hsy0 (Ne.symm hc)
    have h0 := sin_cos_atan2 (y := M 0 1) (x := M 0 2) hpos (by linarith)
    have h2 := sin_cos_atan2 (y := M 1 0) (x := -M 2 0) hpos (by linarith)
    rw [if_pos hc]
    ext i j
    fin_cases i <;> fin_cases j <;>
      simp [core, h0, h1, h2] <;> field_simp
    · linear_combination -M 0 1 * r01 + M 0 2 * a20 - M 1 1 * hsy
    · linear_combination -M 0 2 * r01 - M 0 1 * a20 - M 1 2 * hsy
    · linear_combination -M 0 1 * r02 - M 0 2 * a10 - M 2 1 * hsy
    · linear_combination -M 0 2 * r02 + M 0 1 * a10 - M 2 2 * hsy
  · rw [if_neg hc]
    push Not at hc
    subst hc
    rw [mul_zero] at hsy
    obtain ⟨z0, z1⟩ := mul_self_add_mul_self_eq_zero.1 hsy.symm
    have z2 : M 1 0 = 0 := by rw [← a10, z0, z1]; ring
    have z3 : M 2 0 = 0 := by rw [← a20, z0, z1]; ring
    have h0 := sin_cos_atan2 (y := -M 1 2) (x := M 1 1) (r := 1) one_pos (by rw [z2] at r11; linarith)
    rw [div_one, div_one] at h0
    ext i j
    fin_cases i <;> fin_cases j <;>
      simp [core, h0, h1, z0, z1, z2, z3] <;> grind

/-- The sign and the order of the angles, and for proper systems their ranges. -/
def finish (s : EulerSystem) (ea : V3) : V3 :=
  let ea : V3 := if s.odd then ![-ea 0, -ea 1, -ea 2] else ea
  let e : V3 := if s.intrinsic then ![ea 2, ea 1, ea 0] else ![ea 0, ea 1, ea 2]
  if s.proper then
    let e : V3 :=
      if e 1 < 0 ∨ ea 1 > Real.pi then ![e 0 + Real.pi, -e 1, e 2 - Real.pi] else e
    ![wrap (e 0), wrap (e 1), wrap (e 2)]
  else e

theorem rotationMatrixToEulerAngles_eq (s : EulerSystem) (R : M3) :
    rotationMatrixToEulerAngles s R = finish s (raw s.proper (view s R)) := by
  have v : ∀ a b, view s R a b = R (axes s a) (axes s b) := fun _ _ => rfl
  have a0 : axes s 0 = s.inner := rfl
  have a1 : axes s 1 = s.j := rfl
  have a2 : axes s 2 = s.k := rfl
  simp only [rotationMatrixToEulerAngles, finish, raw, v, a0, a1, a2]

/-- The core depends on the sines and cosines of the angles only. -/
theorem core_congr (proper : Bool) {e f : V3} (h : ∀ i, Real.cos (e i) = Real.cos (f i))
    (h' : ∀ i, Real.sin (e i) = Real.sin (f i)) : core proper e = core proper f := by
  simp only [core, h, h']

/-- Proper angles that stand for the same rotation. -/
theorem core_flip {e f : V3} (h : ∀ i, i ≠ 1 → Real.cos (e i) = -Real.cos (f i))
    (h' : ∀ i, i ≠ 1 → Real.sin (e i) = -Real.sin (f i)) (h1 : e 1 = -f 1) :
    core true e = core true f := by
  have a0 := h 0 (by decide)
  have a2 := h 2 (by decide)
  have b0 := h' 0 (by decide)
  have b2 := h' 2 (by decide)
  simp only [core, a0, a2, b0, b2, h1, Real.cos_neg, Real.sin_neg]
  simp

theorem cos_wrap (t : ℝ) : Real.cos (wrap t) = Real.cos t := by
  unfold wrap
  by_cases h1 : t < -Real.pi
  · rw [if_pos h1, Real.cos_add_two_pi]
  · rw [if_neg h1]
    by_cases h2 : t > Real.pi
    · rw [if_pos h2, Real.cos_sub_two_pi]
    · rw [if_neg h2]

theorem sin_wrap (t : ℝ) : Real.sin (wrap t) = Real.sin t := by
  unfold wrap
  by_cases h1 : t < -Real.pi
  · rw [if_pos h1, Real.sin_add_two_pi]
  · rw [if_neg h1]
    by_cases h2 : t > Real.pi
    · rw [if_pos h2, Real.sin_sub_two_pi]
    · rw [if_neg h2]

/-- Fixing the sign, the order and the ranges keeps the rotation. -/
theorem core_finish (s : EulerSystem) (ea : V3) :
    core s.proper (signed s (finish s ea)) = core s.proper ea := by
  obtain ⟨i, odd, proper, intr⟩ := s
  cases proper
  · congr 1
    funext n
    cases odd <;> cases intr <;> fin_cases n <;> simp [signed, finish]
  · simp only [finish, if_true]
    -- the flip does not matter
    by_cases h : (if intr then ![(if odd then ![-ea 0, -ea 1, -ea 2] else ea) 2,
          (if odd then ![-ea 0, -ea 1, -ea 2] else ea) 1, (if odd then ![-ea 0, -ea 1, -ea 2] else ea) 0]
        else ![(if odd then ![-ea 0, -ea 1, -ea 2] else ea) 0,
          (if odd then ![-ea 0, -ea 1, -ea 2] else ea) 1,
          (if odd then ![-ea 0, -ea 1, -ea 2] else ea) 2] : V3) 1 < 0
        ∨ (if odd then ![-ea 0, -ea 1, -ea 2] else ea) 1 > Real.pi
    · rw [if_pos h]
      refine Eq.trans (b := core true (signed ⟨i, odd, true, intr⟩
        ![(if intr then ![(if odd then ![-ea 0, -ea 1, -ea 2] else ea) 2,
          (if odd then ![-ea 0, -ea 1, -ea 2] else ea) 1, (if odd then ![-ea 0, -ea 1, -ea 2] else ea) 0]
        else ![(if odd then ![-ea 0, -ea 1, -ea 2] else ea) 0,
          (if odd then ![-ea 0, -ea 1, -ea 2] else ea) 1,
          (if odd then ![-ea 0, -ea 1, -ea 2] else ea) 2] : V3) 0 + Real.pi,
          -(if intr then ![(if odd then ![-ea 0, -ea 1, -ea 2] else ea) 2,
          (if odd then ![-ea 0, -ea 1, -ea 2] else ea) 1, (if odd then ![-ea 0, -ea 1, -ea 2] else ea) 0]
        else ![(if odd then ![-ea 0, -ea 1, -ea 2] else ea) 0,
          (if odd then ![-ea 0, -ea 1, -ea 2] else ea) 1,
          (if odd then ![-ea 0, -ea 1, -ea 2] else ea) 2] : V3) 1,
          (if intr then ![(if odd then ![-ea 0, -ea 1, -ea 2] else ea) 2,
          (if odd then ![-ea 0, -ea 1, -ea 2] else ea) 1, (if odd then ![-ea 0, -ea 1, -ea 2] else ea) 0]
        else ![(if odd then ![-ea 0, -ea 1, -ea 2] else ea) 0,
          (if odd then ![-ea 0, -ea 1, -ea 2] else ea) 1,
          (if odd then ![-ea 0, -ea 1, -ea 2] else ea) 2] : V3) 2 - Real.pi])) ?_ ?_
      · apply core_congr <;> intro n <;> cases odd <;> cases intr <;> fin_cases n <;>
          simp [signed, cos_wrap, sin_wrap, Real.cos_add, Real.cos_sub, Real.sin_add, Real.sin_sub]
      · apply core_flip
        · intro n hn
          cases odd <;> cases intr <;> fin_cases n <;>
            simp [signed, Real.cos_add, Real.cos_sub, Real.sin_add, Real.sin_sub] at hn ⊢
        · intro n hn
          cases odd <;> cases intr <;> fin_cases n <;>
            simp [signed, Real.cos_add, Real.cos_sub, Real.sin_add, Real.sin_sub] at hn ⊢
        · cases odd <;> cases intr <;> simp [signed]
    · rw [if_neg h]
      apply core_congr <;> intro n <;> cases odd <;> cases intr <;> fin_cases n <;>
        simp [signed, cos_wrap, sin_wrap]

/-- **C70.** For every system and every rotation matrix, the angles of
`RotationMatrixToEulerAngles` give the matrix back through `EulerAnglesToRotation`, also in the
degenerate positions. -/
theorem eulerAngles_roundtrip (s : EulerSystem) {R : M3} (h : IsRotation R) :
    eulerAnglesToRotation s (rotationMatrixToEulerAngles s R) = R := by
  rw [eulerAnglesToRotation_eq, rotationMatrixToEulerAngles_eq, core_finish]
  have hc : core s.proper (raw s.proper (view s R)) = view s R := by
    cases s.proper
    · exact core_raw_taitBryan (view_isRotation s h)
    · exact core_raw_proper (view_isRotation s h)
  rw [hc, assign_view]

theorem abs_atan2_le (y x : ℝ) : |atan2 y x| ≤ Real.pi := Complex.abs_arg_le_pi _

theorem abs_wrap_le {t : ℝ} (h : |t| ≤ 2 * Real.pi) : |wrap t| ≤ Real.pi := by
  have hp := Real.pi_pos
  rw [abs_le] at h
  unfold wrap
  by_cases h1 : t < -Real.pi
  · rw [if_pos h1, abs_le]; constructor <;> linarith [h.1, h.2]
  · rw [if_neg h1]
    by_cases h2 : t > Real.pi
    · rw [if_pos h2, abs_le]; constructor <;> linarith [h.1, h.2]
    · rw [if_neg h2, abs_le]; constructor <;> linarith [h.1, h.2]

theorem raw_range (proper : Bool) (M : M3) :
    |raw proper M 0| ≤ Real.pi ∧ |raw proper M 2| ≤ Real.pi
      ∧ (if proper then 0 ≤ raw proper M 1 ∧ raw proper M 1 ≤ Real.pi
        else |raw proper M 1| ≤ Real.pi / 2) := by
  have hp := Real.pi_pos
  cases proper
  · simp only [raw, Bool.false_eq_true, if_false]
    by_cases hc : hypot2 (M 0 0) (M 1 0) ≠ 0
    · rw [if_pos hc]
      refine ⟨abs_atan2_le _ _, abs_atan2_le _ _, ?_⟩
      exact Complex.abs_arg_le_pi_div_two_iff.2 (Real.sqrt_nonneg _)
    · rw [if_neg hc]
      refine ⟨abs_atan2_le _ _, by simp [hp.le], ?_⟩
      exact Complex.abs_arg_le_pi_div_two_iff.2 (Real.sqrt_nonneg _)
  · simp only [raw, if_true]
    by_cases hc : hypot2 (M 0 1) (M 0 2) ≠ 0
    · rw [if_pos hc]
      refine ⟨abs_atan2_le _ _, abs_atan2_le _ _, ?_, ?_⟩
      · exact Complex.arg_nonneg_iff.2 (Real.sqrt_nonneg _)
      · exact (abs_le.1 (abs_atan2_le _ _)).2
    · rw [if_neg hc]
      refine ⟨abs_atan2_le _ _, by simp [hp.le], ?_, ?_⟩
      · exact Complex.arg_nonneg_iff.2 (Real.sqrt_nonneg _)
      · exact (abs_le.1 (abs_atan2_le _ _)).2

/-- **C70.** The ranges of the angles: the first and the third are in `[-π, π]`; the second is in
`[0, π]` for proper systems and in `[-π/2, π/2]` for the others. -/
theorem rotationMatrixToEulerAngles_range (s : EulerSystem) (R : M3) :
    |rotationMatrixToEulerAngles s R 0| ≤ Real.pi ∧ |rotationMatrixToEulerAngles s R 2| ≤ Real.pi
      ∧ (if s.proper then 0 ≤ rotationMatrixToEulerAngles s R 1
            ∧ rotationMatrixToEulerAngles s R 1 ≤ Real.pi
        else |rotationMatrixToEulerAngles s R 1| ≤ Real.pi / 2) := by
  rw [rotationMatrixToEulerAngles_eq]
  obtain ⟨h0, h2, h1⟩ := raw_range s.proper (view s R)
  generalize raw s.proper (view s R) = ea at *
  have hp := Real.pi_pos
  obtain ⟨i, odd, proper, intr⟩ := s
  cases proper
  · cases odd <;> cases intr <;> simp [finish] at * <;> exact ⟨by assumption, by assumption, by assumption⟩
  · simp only [if_true] at h1
    have wr : ∀ t, 0 ≤ t → t ≤ Real.pi → wrap t = t := by
      intro t a b
      rw [wrap, if_neg (by linarith), if_neg (by linarith)]
    have ab : ∀ t, |t| ≤ Real.pi → |wrap t| ≤ Real.pi ∧ |wrap (t + Real.pi)| ≤ Real.pi
        ∧ |wrap (t - Real.pi)| ≤ Real.pi := by
      intro t ht
      rw [abs_le] at ht
      refine ⟨abs_wrap_le (abs_le.2 ⟨?_, ?_⟩), abs_wrap_le (abs_le.2 ⟨?_, ?_⟩),
        abs_wrap_le (abs_le.2 ⟨?_, ?_⟩)⟩ <;> linarith [ht.1, ht.2]
    have h0' : |-ea 0| ≤ Real.pi := by rwa [abs_neg]
    have h2' : |-ea 2| ≤ Real.pi := by rwa [abs_neg]
    cases odd
    · have hn : ¬(ea 1 < 0 ∨ Real.pi < ea 1) := by
        rintro (h | h) <;> linarith [h1.1, h1.2]
      cases intr
      · simp [finish, hn]
        exact ⟨(ab _ h0).1, (ab _ h2).1, by rw [wr _ h1.1 h1.2]; exact h1⟩
      · simp [finish, hn]
        exact ⟨(ab _ h2).1, (ab _ h0).1, by rw [wr _ h1.1 h1.2]; exact h1⟩
    · by_cases hz : ea 1 = 0
      · have hn : ¬(0 < ea 1 ∨ Real.pi < -ea 1) := by
          rw [hz]; rintro (h | h) <;> linarith
        cases intr
        · simp [finish, hn]
          exact ⟨(ab _ h0').1, (ab _ h2').1, by rw [hz, neg_zero, wr 0 le_rfl hp.le]; exact ⟨le_rfl, hp.le⟩⟩
        · simp [finish, hn]
          exact ⟨(ab _ h2').1, (ab _ h0').1, by rw [hz, neg_zero, wr 0 le_rfl hp.le]; exact ⟨le_rfl, hp.le⟩⟩
      · have hpos : 0 < ea 1 ∨ Real.pi < -ea 1 := Or.inl (lt_of_le_of_ne h1.1 (Ne.symm hz))
        cases intr
        · simp [finish, hpos]
          exact ⟨(ab _ h0').2.1, (ab _ h2').2.2, by rw [wr _ h1.1 h1.2]; exact h1⟩
        · simp [finish, hpos]
          exact ⟨(ab _ h2').2.1, (ab _ h0').2.2, by rw [wr _ h1.1 h1.2]; exact h1⟩

/-- Two angles in the range with the same sine and cosine are equal if one is inside. -/
theorem angle_unique {a b : ℝ} (hs : Real.sin a = Real.sin b) (hc : Real.cos a = Real.cos b)
    (ha : |a| ≤ Real.pi) (hb : |b| < Real.pi) : a = b := by
  rw [abs_le] at ha
  rw [abs_lt] at hb
  have h1 : Real.cos (a - b) = 1 := by
    rw [Real.cos_sub, hs, hc]
    linarith [Real.sin_sq_add_cos_sq b]
  have := (Real.cos_eq_one_iff_of_lt_of_lt (x := a - b) (by linarith [ha.1, hb.2]) (by linarith [ha.2, hb.1])).1 h1
  linarith

/-- The core of a Tait-Bryan system determines the angles. -/
theorem core_injective_taitBryan {e f : V3} (h : core false e = core false f)
    (he0 : |e 0| ≤ Real.pi) (he1 : |e 1| ≤ Real.pi / 2) (he2 : |e 2| ≤ Real.pi)
    (hf0 : |f 0| < Real.pi) (hf1 : |f 1| < Real.pi / 2) (hf2 : |f 2| < Real.pi) : e = f := by
  have hm : ∀ i j, core false e i j = core false f i j := fun i j => by rw [h]
  have m20 := hm 2 0
  have m21 := hm 2 1
  have m22 := hm 2 2
  have m00 := hm 0 0
  have m10 := hm 1 0
  simp [core] at m20 m21 m22 m00 m10
  rw [abs_le] at he1
  have hf1' := abs_lt.1 hf1
  have h1 : e 1 = f 1 := Real.injOn_sin ⟨by linarith [he1.1], he1.2⟩ ⟨by linarith [hf1'.1], hf1'.2.le⟩ m20
  have hc : Real.cos (f 1) ≠ 0 := (Real.cos_pos_of_mem_Ioo ⟨by linarith [hf1'.1], hf1'.2⟩).ne'
  rw [h1] at m21 m22 m00 m10
  have h0 : e 0 = f 0 := angle_unique (mul_left_cancel₀ hc m21) (mul_left_cancel₀ hc m22) he0 hf0
  have h2 : e 2 = f 2 := angle_unique (mul_left_cancel₀ hc m10) (mul_left_cancel₀ hc m00) he2 hf2
  funext i
  fin_cases i <;> assumption

/-- The core of a proper system determines the angles, for either sign of the second one. -/
theorem core_injective_proper {e f : V3} (h : core true e = core true f) (h1 : e 1 = f 1)
    (he0 : |e 0| ≤ Real.pi) (he2 : |e 2| ≤ Real.pi)
    (hf0 : |f 0| < Real.pi) (hf1 : Real.sin (f 1) ≠ 0) (hf2 : |f 2| < Real.pi) : e = f := by
  have hm : ∀ i j, core true e i j = core true f i j := fun i j => by rw [h]
  have m01 := hm 0 1
  have m02 := hm 0 2
  have m10 := hm 1 0
  have m20 := hm 2 0
  simp [core] at m01 m02 m10 m20
  rw [h1] at m01 m02 m10 m20
  have h0 : e 0 = f 0 := angle_unique (mul_left_cancel₀ hf1 m01) (mul_left_cancel₀ hf1 m02) he0 hf0
  have h2 : e 2 = f 2 := angle_unique (mul_left_cancel₀ hf1 m10)
    (mul_left_cancel₀ hf1 (by linarith)) he2 hf2
  funext i
  fin_cases i <;> assumption

theorem assign_injective (s : EulerSystem) {m n : M3}
    (h : assign s.inner s.j s.k m = assign s.inner s.j s.k n) : m = n := by
  ext a b
  have := congrFun (congrFun h (axes s a)) (axes s b)
  have e : ∀ m : M3, assign s.inner s.j s.k m (axes s a) (axes s b) = m (pos s (axes s a)) (pos s (axes s b)) :=
    fun _ => rfl
  rw [e, e, pos_axes, pos_axes] at this
  exact this

theorem elem_isRotation (a : Fin 3) (t : ℝ) : IsRotation (elem a t) := by
  rw [elem_eq_angleAxis]; exact angleAxisToRotationMatrix_isRotation _

theorem IsRotation.mul {A B : M3} (hA : IsRotation A) (hB : IsRotation B) : IsRotation (A * B) := by
  constructor
  · rw [Matrix.transpose_mul, Matrix.mul_assoc, ← Matrix.mul_assoc B, hB.1, Matrix.one_mul, hA.1]
  · rw [Matrix.det_mul, hA.2, hB.2, one_mul]

/-- **C70.** `EulerAnglesToRotation` gives a rotation matrix for all angles. -/
theorem eulerAnglesToRotation_isRotation (s : EulerSystem) (e : V3) :
    IsRotation (eulerAnglesToRotation s e) := by
  rw [eulerAnglesToRotation_prod]
  cases s.intrinsic
  · exact ((elem_isRotation _ _).mul (elem_isRotation _ _)).mul (elem_isRotation _ _)
  · exact ((elem_isRotation _ _).mul (elem_isRotation _ _)).mul (elem_isRotation _ _)

/-- **C70.** Angles inside the ranges come back from the matrix unchanged: the first and third in
`(-π, π)`, the second in `(0, π)` for proper systems and in `(-π/2, π/2)` for the others. -/
theorem eulerAngles_recovered (s : EulerSystem) (e : V3) (h0 : |e 0| < Real.pi) (h2 : |e 2| < Real.pi)
    (h1 : if s.proper then 0 < e 1 ∧ e 1 < Real.pi else |e 1| < Real.pi / 2) :
    rotationMatrixToEulerAngles s (eulerAnglesToRotation s e) = e := by
  have hr := eulerAngles_roundtrip s (eulerAnglesToRotation_isRotation s e)
  obtain ⟨r0, r2, r1⟩ := rotationMatrixToEulerAngles_range s (eulerAnglesToRotation s e)
  generalize rotationMatrixToEulerAngles s (eulerAnglesToRotation s e) = f at *
  rw [eulerAnglesToRotation_eq, eulerAnglesToRotation_eq] at hr
  have hc := assign_injective s hr
  have back : signed s f = signed s e → f = e := by
    intro h
    have g0 := congrFun h 0
    have g1 := congrFun h 1
    have g2 := congrFun h 2
    obtain ⟨i, odd, proper, intr⟩ := s
    funext n
    cases odd <;> cases intr <;> simp [signed] at g0 g1 g2 <;> fin_cases n <;> simp [*]
  apply back
  obtain ⟨i, odd, proper, intr⟩ := s
  cases proper
  · simp only [Bool.false_eq_true, if_false] at h1 r1 hc
    cases odd <;> cases intr <;> apply core_injective_taitBryan hc <;> simp [signed] <;> assumption
  · simp only [if_true] at h1 r1 hc
    have hcos := congrFun (congrFun hc 0) 0
    have e1 : f 1 = e 1 := by
      refine Real.injOn_cos ⟨r1.1, r1.2⟩ ⟨h1.1.le, h1.2.le⟩ ?_
      cases odd <;> cases intr <;> simpa [core, signed] using hcos
    have hs : Real.sin (e 1) ≠ 0 := (Real.sin_pos_of_pos_of_lt_pi h1.1 h1.2).ne'
    cases odd <;> cases intr <;> apply core_injective_proper hc <;> simp [signed] <;> assumption

/-- **C70.** `EulerAnglesToRotationMatrix` takes degrees and rotates about x, then y, then z. -/
theorem eulerAnglesToRotationMatrix_spec (e : V3) :
    eulerAnglesToRotationMatrix e
      = elem 2 (e 2 * (Real.pi / 180)) * elem 1 (e 1 * (Real.pi / 180))
        * elem 0 (e 0 * (Real.pi / 180)) := by
  ext i j
  fin_cases i <;> fin_cases j <;>
    simp [eulerAnglesToRotationMatrix, elem, Matrix.mul_apply, Fin.sum_univ_three] <;> ring

/-- The hypotheses of `eulerAngles_recovered` hold for the angles `1, 1, 1` in every system. -/
example (s : EulerSystem) : rotationMatrixToEulerAngles s (eulerAnglesToRotation s ![1, 1, 1])
    = ![1, 1, 1] := by
  have hp := Real.pi_gt_three
  apply eulerAngles_recovered
  · simp; linarith
  · simp; linarith
  · cases s.proper
    · simp; linarith
    · simp; linarith

end

end Ceres.Rotation
