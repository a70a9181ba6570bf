import Mathlib.Analysis.SpecialFunctions.Complex.Arg
import Mathlib.LinearAlgebra.Matrix.Notation

/-!
# Model: rotations

Models `include/ceres/rotation.h` and `include/ceres/internal/euler_angles.h`.

Numbers are exact reals.  `hypot` is the square root of the sum of squares, `atan2(y, x)` is the
argument of the complex number `x + i y` (which agrees with the C function except at signed zeros),
`fpclassify(x) != FP_ZERO` is `x ≠ 0`, and `copysign(1, x)` is `-1` for `x < 0` and `1` otherwise.
A `MatrixAdapter` with its strides is a matrix; `rowMajor` and `columnMajor` relate it to the array.
-/

namespace Ceres.Rotation

noncomputable section

/-- A quaternion in memory. -/
abbrev Q := Fin 4 → ℝ

/-- A vector of length three. -/
abbrev V3 := Fin 3 → ℝ

/-- A `3 × 3` matrix. -/
abbrev M3 := Matrix (Fin 3) (Fin 3) ℝ

/-- The positions of the coefficients, as in `CeresQuaternionOrder`. -/
structure Order where
  w : Fin 4
  x : Fin 4
  y : Fin 4
  z : Fin 4

/-- `CeresQuaternionOrder` (rotation.h:85-90). -/
def ceresOrder : Order := ⟨0, 1, 2, 3⟩

/-- `EigenQuaternionOrder` (rotation.h:93-98). -/
def eigenOrder : Order := ⟨3, 0, 1, 2⟩

/-- Assignment of the four coefficients, also `MakeQuaternion` (rotation.h:101-114). -/
def mk (o : Order) (w x y z : ℝ) : Q := fun i =>
  if i = o.w then w else if i = o.x then x else if i = o.y then y else z

/-- `ConvertQuaternion` between different orders (rotation.h:126-131). -/
def convert (dst src : Order) (q : Q) : Q := mk dst (q src.w) (q src.x) (q src.y) (q src.z)

/-- `std::hypot` with three arguments. -/
def hypot3 (a b c : ℝ) : ℝ := Real.sqrt (a * a + b * b + c * c)

/-- `std::hypot` with two arguments. -/
def hypot2 (a b : ℝ) : ℝ := Real.sqrt (a * a + b * b)

/-- `std::atan2`. -/
def atan2 (y x : ℝ) : ℝ := Complex.arg ⟨x, y⟩

/-- `std::copysign(1, x)`. -/
def copysign1 (x : ℝ) : ℝ := if x < 0 then -1 else 1

/-- `QuaternionProduct` (rotation.h:826-837). -/
def quaternionProduct (o : Order) (z w : Q) : Q :=
  mk o
    (z o.w * w o.w - z o.x * w o.x - z o.y * w o.y - z o.z * w o.z)
    (z o.w * w o.x + z o.x * w o.w + z o.y * w o.z - z o.z * w o.y)
    (z o.w * w o.y - z o.x * w o.z + z o.y * w o.w + z o.z * w o.x)
    (z o.w * w o.z + z o.x * w o.y - z o.y * w o.x + z o.z * w o.w)

/-- `QuaternionConjugate` (rotation.h:839-845). -/
def quaternionConjugate (o : Order) (q : Q) : Q := mk o (q o.w) (-q o.x) (-q o.y) (-q o.z)

/-- `CrossProduct` (rotation.h:848-856). -/
def crossProduct (x y : V3) : V3 :=
  ![x 1 * y 2 - x 2 * y 1, x 2 * y 0 - x 0 * y 2, x 0 * y 1 - x 1 * y 0]

/-- `DotProduct` (rotation.h:858-861). -/
def dotProduct (x y : V3) : ℝ := x 0 * y 0 + x 1 * y 1 + x 2 * y 2

/-- `UnitQuaternionRotatePoint` (rotation.h:786-806). -/
def unitQuaternionRotatePoint (o : Order) (q : Q) (pt : V3) : V3 :=
  let uv0 := q o.y * pt 2 - q o.z * pt 1
  let uv1 := q o.z * pt 0 - q o.x * pt 2
  let uv2 := q o.x * pt 1 - q o.y * pt 0
  let uv0 := uv0 + uv0
  let uv1 := uv1 + uv1
  let uv2 := uv2 + uv2
  ![pt 0 + q o.w * uv0 + (q o.y * uv2 - q o.z * uv1),
    pt 1 + q o.w * uv1 + (q o.z * uv0 - q o.x * uv2),
    pt 2 + q o.w * uv2 + (q o.x * uv1 - q o.y * uv0)]

/-- `QuaternionRotatePoint` (rotation.h:808-824). -/
def quaternionRotatePoint (o : Order) (q : Q) (pt : V3) : V3 :=
  let scale := 1 / Real.sqrt (q o.w * q o.w + q o.x * q o.x + q o.y * q o.y + q o.z * q o.z)
  unitQuaternionRotatePoint o (mk o (scale * q o.w) (scale * q o.x) (scale * q o.y) (scale * q o.z)) pt

/-- `QuaternionToScaledRotation` (rotation.h:737-763). -/
def quaternionToScaledRotation (o : Order) (q : Q) : M3 :=
  let a := q o.w
  let b := q o.x
  let c := q o.y
  let d := q o.z
  !![a * a + b * b - c * c - d * d, 2 * (b * c - a * d), 2 * (a * c + b * d);
     2 * (a * d + b * c), a * a - b * b + c * c - d * d, 2 * (c * d - a * b);
     2 * (b * d - a * c), 2 * (a * b + c * d), a * a - b * b - c * c + d * d]

/-- `QuaternionToRotation` (rotation.h:770-784). -/
def quaternionToRotation (o : Order) (q : Q) : M3 :=
  let normalizer := 1 / (q o.w * q o.w + q o.x * q o.x + q o.y * q o.y + q o.z * q o.z)
  fun i j => quaternionToScaledRotation o q i j * normalizer

/-- The branch of `AngleAxisToQuaternion` for the zero vector (rotation.h:395-402). -/
def angleAxisToQuaternionZero (o : Order) (a : V3) : Q :=
  mk o 1 (a 0 * (1 / 2)) (a 1 * (1 / 2)) (a 2 * (1 / 2))

/-- `AngleAxisToQuaternion` (rotation.h:379-407). -/
def angleAxisToQuaternion (o : Order) (a : V3) : Q :=
  let theta := hypot3 (a 0) (a 1) (a 2)
  if theta ≠ 0 then
    let half := theta * (1 / 2)
    let k := Real.sin half / theta
    mk o (Real.cos half) (a 0 * k) (a 1 * k) (a 2 * k)
  else angleAxisToQuaternionZero o a

/-- The branch of `QuaternionToAngleAxis` for a zero vector part (rotation.h:441-451). -/
def quaternionToAngleAxisZero (o : Order) (q : Q) : V3 := ![q o.x * 2, q o.y * 2, q o.z * 2]

/-- `QuaternionToAngleAxis` (rotation.h:409-452). -/
def quaternionToAngleAxis (o : Order) (q : Q) : V3 :=
  let s := hypot3 (q o.x) (q o.y) (q o.z)
  if s ≠ 0 then
    let sign := copysign1 (q o.w)
    let k := 2 * atan2 (sign * s) (sign * q o.w) / s
    ![q o.x * k, q o.y * k, q o.z * k]
  else quaternionToAngleAxisZero o q

/-- The branch of `AngleAxisToRotationMatrix` for the zero vector (rotation.h:546-557). -/
def angleAxisToRotationMatrixZero (a : V3) : M3 :=
  !![1, -a 2, a 1;
     a 2, 1, -a 0;
     -a 1, a 0, 1]

/-- `AngleAxisToRotationMatrix` (rotation.h:517-558). -/
def angleAxisToRotationMatrix (a : V3) : M3 :=
  let theta := hypot3 (a 0) (a 1) (a 2)
  if theta ≠ 0 then
    let wx := a 0 / theta
    let wy := a 1 / theta
    let wz := a 2 / theta
    let c := Real.cos theta
    let s := Real.sin theta
    !![c + wx * wx * (1 - c), wx * wy * (1 - c) - wz * s, wy * s + wx * wz * (1 - c);
       wz * s + wx * wy * (1 - c), c + wy * wy * (1 - c), -wx * s + wy * wz * (1 - c);
       -wy * s + wx * wz * (1 - c), wx * s + wy * wz * (1 - c), c + wz * wz * (1 - c)]
  else angleAxisToRotationMatrixZero a

/-- The branch of `AngleAxisRotatePoint` for the zero vector (rotation.h:904-929). -/
def angleAxisRotatePointZero (a pt : V3) : V3 :=
  ![pt 0 + (a 1 * pt 2 - a 2 * pt 1),
    pt 1 + (a 2 * pt 0 - a 0 * pt 2),
    pt 2 + (a 0 * pt 1 - a 1 * pt 0)]

/-- `AngleAxisRotatePoint` (rotation.h:863-930). -/
def angleAxisRotatePoint (a pt : V3) : V3 :=
  let theta := hypot3 (a 0) (a 1) (a 2)
  if theta ≠ 0 then
    let c := Real.cos theta
    let s := Real.sin theta
    let inv := 1 / theta
    let w0 := a 0 * inv
    let w1 := a 1 * inv
    let w2 := a 2 * inv
    let tmp := (w0 * pt 0 + w1 * pt 1 + w2 * pt 2) * (1 - c)
    ![pt 0 * c + (w1 * pt 2 - w2 * pt 1) * s + w0 * tmp,
      pt 1 * c + (w2 * pt 0 - w0 * pt 2) * s + w1 * tmp,
      pt 2 * c + (w0 * pt 1 - w1 * pt 0) * s + w2 * tmp]
  else angleAxisRotatePointZero a pt

/-- Reading `R(r, c)` of a `3 × 3` matrix adapter: `none` is an access outside the array. -/
def readM (R : M3) (r c : ℕ) : Option ℝ :=
  if h : r < 3 ∧ c < 3 then some (R ⟨r, h.1⟩ ⟨c, h.2⟩) else none

/-- Writing `quaternion[i]`: `none` is an access outside the array. -/
def writeQ (q : Q) (i : ℕ) (v : ℝ) : Option Q :=
  if h : i < 4 then some (Function.update q ⟨i, h⟩ v) else none

/-- The second part of the second branch of `RotationMatrixToQuaternion` (rotation.h:482-489), where
`i` is the index of the largest diagonal entry. -/
def fromLargest (o : Order) (R : M3) (i : ℕ) (q : Q) : Option Q :=
  let j := (i + 1) % 3
  let k := (j + 1) % 3
  (readM R i i).bind fun rii =>
  (readM R j j).bind fun rjj =>
  (readM R k k).bind fun rkk =>
  let t := Real.sqrt (rii - rjj - rkk + 1)
  (writeQ q (i + 1) (1 / 2 * t)).bind fun q =>
  let t := 1 / 2 / t
  (readM R k j).bind fun rkj =>
  (readM R j k).bind fun rjk =>
  (writeQ q o.w ((rkj - rjk) * t)).bind fun q =>
  (readM R j i).bind fun rji =>
  (readM R i j).bind fun rij =>
  (writeQ q (j + 1) ((rji + rij) * t)).bind fun q =>
  (readM R k i).bind fun rki =>
  (readM R i k).bind fun rik =>
  writeQ q (k + 1) ((rki + rik) * t)

/-- `RotationMatrixToQuaternion` (rotation.h:461-491).  `none` is an access outside the matrix or
the quaternion, `q` is the previous content of the quaternion.  In the second branch the code uses
the positions `Order::kW`, `Order::kX`, `Order::kY` as indices of the matrix. -/
def rotationMatrixToQuaternion (o : Order) (R : M3) (q : Q) : Option Q :=
  let trace := R 0 0 + R 1 1 + R 2 2
  if trace ≥ 0 then
    let t := Real.sqrt (trace + 1)
    let t2 := 1 / 2 / t
    some (mk o (1 / 2 * t) ((R 2 1 - R 1 2) * t2) ((R 0 2 - R 2 0) * t2) ((R 1 0 - R 0 1) * t2))
  else
    let i : ℕ := if R 1 1 > R 0 0 then o.x else o.w
    (readM R i i).bind fun rii =>
    let i : ℕ := if R 2 2 > rii then o.y else i
    fromLargest o R i q

/-- `RotationMatrixToAngleAxis` (rotation.h:503-510); the local quaternion starts with arbitrary
content `q`. -/
def rotationMatrixToAngleAxis (R : M3) (q : Q) : Option V3 :=
  (rotationMatrixToQuaternion ceresOrder R q).map (quaternionToAngleAxis ceresOrder)

/-! ## Euler angles -/

/-- `EulerSystem` (euler_angles.h:83-94). -/
structure EulerSystem where
  inner : Fin 3
  odd : Bool
  proper : Bool
  intrinsic : Bool

/-- `kAxes[1]` (euler_angles.h:90-93). -/
def EulerSystem.j (s : EulerSystem) : Fin 3 := s.inner + 1 + (if s.odd then 1 else 0)

/-- `kAxes[2]` (euler_angles.h:90-93). -/
def EulerSystem.k (s : EulerSystem) : Fin 3 := s.inner + 2 - (if s.odd then 1 else 0)

/-- Assignment of all entries `R(i, ·)`, `R(j, ·)`, `R(k, ·)` of a matrix. -/
def assign (i j k : Fin 3) (m : M3) : M3 := fun r c =>
  let pos : Fin 3 → Fin 3 := fun a => if a = i then 0 else if a = j then 1 else if a = k then 2 else 0
  m (pos r) (pos c)

/-- `EulerAnglesToRotation` (rotation.h:565-619). -/
def eulerAnglesToRotation (s : EulerSystem) (euler : V3) : M3 :=
  let i := s.inner
  let j := s.j
  let k := s.k
  let e0 := if s.intrinsic then euler 2 else euler 0
  let e1 := euler 1
  let e2 := if s.intrinsic then euler 0 else euler 2
  let e0 := if s.odd then -e0 else e0
  let e1 := if s.odd then -e1 else e1
  let e2 := if s.odd then -e2 else e2
  let ci := Real.cos e0
  let cj := Real.cos e1
  let ch := Real.cos e2
  let si := Real.sin e0
  let sj := Real.sin e1
  let sh := Real.sin e2
  let cc := ci * ch
  let cs := ci * sh
  let sc := si * ch
  let ss := si * sh
  if s.proper then
    assign i j k
      !![cj, sj * si, sj * ci;
         sj * sh, -cj * ss + cc, -cj * cs - sc;
         -sj * ch, cj * sc + cs, cj * cc - ss]
  else
    assign i j k
      !![cj * ch, sj * sc - cs, sj * cc + ss;
         cj * sh, sj * ss + cc, sj * cs - sc;
         -sj, cj * si, cj * ci]

/-- The loop that moves an angle to the range (rotation.h:685-691). -/
def wrap (e : ℝ) : ℝ :=
  if e < -Real.pi then e + 2 * Real.pi else if e > Real.pi then e - 2 * Real.pi else e

/-- `RotationMatrixToEulerAngles` (rotation.h:626-693). -/
def rotationMatrixToEulerAngles (s : EulerSystem) (R : M3) : V3 :=
  let i := s.inner
  let j := s.j
  let k := s.k
  let ea : V3 :=
    if s.proper then
      let sy := hypot2 (R i j) (R i k)
      if sy ≠ 0 then
        ![atan2 (R i j) (R i k), atan2 sy (R i i), atan2 (R j i) (-R k i)]
      else ![atan2 (-R j k) (R j j), atan2 sy (R i i), 0]
    else
      let cy := hypot2 (R i i) (R j i)
      if cy ≠ 0 then
        ![atan2 (R k j) (R k k), atan2 (-R k i) cy, atan2 (R j i) (R i i)]
      else ![atan2 (-R j k) (R j j), atan2 (-R k i) cy, 0]
  let ea : V3 := if s.odd then ![-ea 0, -ea 1, -ea 2] else ea
  let e : V3 := if s.intrinsic then ![ea 2, ea 1, ea 0] else ![ea 0, ea 1, ea 2]
  if s.proper then
    let e : V3 :=
      if e 1 < 0 ∨ ea 1 > Real.pi then ![e 0 + Real.pi, -e 1, e 2 - Real.pi] else e
    ![wrap (e 0), wrap (e 1), wrap (e 2)]
  else e

/-- `EulerAnglesToRotationMatrix` (rotation.h:702-730); the angles are in degrees. -/
def eulerAnglesToRotationMatrix (euler : V3) : M3 :=
  let rad := Real.pi / 180
  let pitch := euler 0 * rad
  let roll := euler 1 * rad
  let yaw := euler 2 * rad
  let c1 := Real.cos yaw
  let s1 := Real.sin yaw
  let c2 := Real.cos roll
  let s2 := Real.sin roll
  let c3 := Real.cos pitch
  let s3 := Real.sin pitch
  !![c1 * c2, -s1 * c3 + c1 * s2 * s3, s1 * s3 + c1 * s2 * c3;
     s1 * c2, c1 * c3 + s1 * s2 * s3, -c1 * s3 + s1 * s2 * c3;
     -s2, c2 * s3, c2 * c3]

/-- `MatrixAdapter::operator()` (rotation.h:360-367): the matrix seen in an array. -/
def adapter (rowStride colStride : ℕ) (p : ℕ → ℝ) : M3 := fun r c => p (r * rowStride + c * colStride)

/-- `ColumnMajorAdapter3x3` (rotation.h:369-372). -/
def columnMajor (p : ℕ → ℝ) : M3 := adapter 1 3 p

/-- `RowMajorAdapter3x3` (rotation.h:374-377). -/
def rowMajor (p : ℕ → ℝ) : M3 := adapter 3 1 p

end

end Ceres.Rotation
