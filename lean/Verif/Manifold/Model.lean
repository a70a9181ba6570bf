import Verif.Rotation.Model
import Mathlib.LinearAlgebra.Matrix.DotProduct

/-! # Model of the manifolds

Sources: `include/ceres/manifold.h`, `internal/ceres/manifold.cc`,
`include/ceres/internal/householder_vector.h`,
`include/ceres/internal/sphere_manifold_functions.h`, `include/ceres/sphere_manifold.h`,
`include/ceres/line_manifold.h`, `include/ceres/product_manifold.h`.

Doubles are reals; rounding is not modelled.  Eigen vectors of size `n` are functions on `Fin n`.
Raw buffers are functions `ℕ → ℝ`. -/

namespace Ceres.Manifold

open Ceres.Rotation Matrix

noncomputable section

/-- A vector of `n` doubles. -/
abbrev Vec (n : ℕ) := Fin n → ℝ

/-- A raw buffer of doubles. -/
abbrev Buf := ℕ → ℝ

/-- Eigen's `squaredNorm`. -/
def squaredNorm {n : ℕ} (x : Vec n) : ℝ := ∑ i, x i * x i

/-- Eigen's `norm`. -/
def norm2 {n : ℕ} (x : Vec n) : ℝ := Real.sqrt (squaredNorm x)

/-- `x.head(size - 1)`. -/
def head {n : ℕ} (x : Vec (n + 1)) : Vec n := fun i => x i.castSucc

/-- `x(size - 1)`. -/
def last {n : ℕ} (x : Vec (n + 1)) : ℝ := x (Fin.last n)

/-- `y << h, l`. -/
def snoc {n : ℕ} (h : Vec n) (l : ℝ) : Vec (n + 1) := Fin.snoc (α := fun _ => ℝ) h l

/-- `std::numeric_limits<double>::epsilon()`. -/
def eps : ℝ := 1 / 2 ^ 52

/-- `ComputeHouseholderVector` (householder_vector.h:47-82): the pair `(v, beta)`.  The size of `x` is
`n + 1`; the `CHECK` `x.rows() > 1` (line 53) is `1 ≤ n` and is a hypothesis where it matters. -/
def computeHouseholderVector {n : ℕ} (x : Vec (n + 1)) : Vec (n + 1) × ℝ :=
  let sigma := squaredNorm (head x)
  let pivot := last x
  if sigma ≤ eps then
    (snoc (head x) 1, if pivot < 0 then 2 else 0)
  else
    let mu := Real.sqrt (pivot * pivot + sigma)
    let vPivot := if pivot ≤ 0 then pivot - mu else -sigma / (pivot + mu)
    let beta := 2 * vPivot * vPivot / (sigma + vPivot * vPivot)
    (snoc (fun i => head x i / vPivot) 1, beta)

/-- `ApplyHouseholderVector` (householder_vector.h:84-90). -/
def applyHouseholderVector {n : ℕ} (y v : Vec n) (beta : ℝ) : Vec n :=
  fun i => y i - v i * (beta * ∑ j, v j * y j)

/-- `ComputeSphereManifoldPlus` (sphere_manifold_functions.h:64-82). -/
def computeSphereManifoldPlus {n : ℕ} (v : Vec (n + 1)) (beta : ℝ) (x : Vec (n + 1)) (delta : Vec n)
    (normDelta : ℝ) : Vec (n + 1) :=
  let sinDeltaByDelta := Real.sin normDelta / normDelta
  let y := snoc (fun i => sinDeltaByDelta * delta i) (Real.cos normDelta)
  fun i => norm2 x * applyHouseholderVector y v beta i

/-- `ComputeSphereManifoldPlusJacobian` (sphere_manifold_functions.h:84-107); rows first. -/
def computeSphereManifoldPlusJacobian {n : ℕ} (x : Vec (n + 1)) : Matrix (Fin (n + 1)) (Fin n) ℝ :=
  let (v, beta) := computeHouseholderVector x
  Matrix.of fun r c =>
    (-beta * v c.castSucc * v r + if r = c.castSucc then 1 else 0) * norm2 x

/-- `ComputeSphereManifoldMinus` (sphere_manifold_functions.h:109-131). -/
def computeSphereManifoldMinus {n : ℕ} (v : Vec (n + 1)) (beta : ℝ) (x y : Vec (n + 1)) : Vec n :=
  let hy : Vec (n + 1) := fun i => applyHouseholderVector y v beta i / norm2 x
  let yLast := last hy
  let hyNorm := norm2 (head hy)
  if hyNorm = 0 then
    fun i => if i.val + 1 = n then (if 0 ≤ yLast then 0 else Real.pi) else 0
  else
    fun i => atan2 hyNorm yLast / hyNorm * head hy i

/-- `ComputeSphereManifoldMinusJacobian` (sphere_manifold_functions.h:133-159). -/
def computeSphereManifoldMinusJacobian {n : ℕ} (x : Vec (n + 1)) : Matrix (Fin n) (Fin (n + 1)) ℝ :=
  let (v, beta) := computeHouseholderVector x
  Matrix.of fun r c =>
    (-beta * v r.castSucc * v c + if c = r.castSucc then 1 else 0) / norm2 x

/-- `SphereManifold::Plus` (sphere_manifold.h:156-186). -/
def spherePlus {n : ℕ} (x : Vec (n + 1)) (delta : Vec n) : Vec (n + 1) :=
  let normDelta := norm2 delta
  if normDelta = 0 then x
  else
    let (v, beta) := computeHouseholderVector x
    computeSphereManifoldPlus v beta x delta normDelta

/-- `SphereManifold::PlusJacobian` (sphere_manifold.h:188-196). -/
def spherePlusJacobian {n : ℕ} (x : Vec (n + 1)) : Matrix (Fin (n + 1)) (Fin n) ℝ :=
  computeSphereManifoldPlusJacobian x

/-- `SphereManifold::Minus` (sphere_manifold.h:198-218). -/
def sphereMinus {n : ℕ} (y x : Vec (n + 1)) : Vec n :=
  let (v, beta) := computeHouseholderVector x
  computeSphereManifoldMinus v beta x y

/-- `SphereManifold::MinusJacobian` (sphere_manifold.h:220-228). -/
def sphereMinusJacobian {n : ℕ} (x : Vec (n + 1)) : Matrix (Fin n) (Fin (n + 1)) ℝ :=
  computeSphereManifoldMinusJacobian x

/-- `LineManifold::Plus` (line_manifold.h:141-216).  The buffers of `2 * size` and `2 * (size - 1)`
doubles are pairs of their halves. -/
def linePlus {n : ℕ} (x : Vec (n + 1) × Vec (n + 1)) (delta : Vec n × Vec n) :
    Vec (n + 1) × Vec (n + 1) :=
  let (o, d) := x
  let (deltaO, deltaD) := delta
  let normDeltaD := norm2 deltaD
  if normDeltaD = 0 ∧ ∀ i, deltaO i = 0 then (o, d)
  else
    let (v, beta) := computeHouseholderVector d
    let dPlus := if normDeltaD ≠ 0 then computeSphereManifoldPlus v beta d deltaD normDeltaD else d
    let y := snoc deltaO 0
    (fun i => o i + applyHouseholderVector y v beta i, dPlus)

/-- `LineManifold::PlusJacobian` (line_manifold.h:218-238): the same block in the top left and in the
bottom right corner, zero elsewhere. -/
def linePlusJacobian {n : ℕ} (x : Vec (n + 1) × Vec (n + 1)) :
    Matrix (Fin (n + 1) ⊕ Fin (n + 1)) (Fin n ⊕ Fin n) ℝ :=
  let jacobianD := computeSphereManifoldPlusJacobian x.2
  Matrix.fromBlocks jacobianD 0 0 jacobianD

/-- `LineManifold::Minus` (line_manifold.h:240-270). -/
def lineMinus {n : ℕ} (y x : Vec (n + 1) × Vec (n + 1)) : Vec n × Vec n :=
  let (yo, yd) := y
  let (xo, xd) := x
  let (v, beta) := computeHouseholderVector xd
  (head (applyHouseholderVector (fun i => yo i - xo i) v beta),
    computeSphereManifoldMinus v beta xd yd)

/-- `LineManifold::MinusJacobian` (line_manifold.h:272-293). -/
def lineMinusJacobian {n : ℕ} (x : Vec (n + 1) × Vec (n + 1)) :
    Matrix (Fin n ⊕ Fin n) (Fin (n + 1) ⊕ Fin (n + 1)) ℝ :=
  let jacobianD := computeSphereManifoldMinusJacobian x.2
  Matrix.fromBlocks jacobianD 0 0 jacobianD

/-- `QuaternionPlusImpl` (manifold.cc:12-36). -/
def quaternionPlus (o : Order) (x : Q) (delta : V3) : Q :=
  let normDelta := hypot3 (delta 0) (delta 1) (delta 2)
  if normDelta = 0 then x
  else
    let sinDeltaByDelta := Real.sin normDelta / normDelta
    let qDelta := mk o (Real.cos normDelta) (sinDeltaByDelta * delta 0) (sinDeltaByDelta * delta 1)
      (sinDeltaByDelta * delta 2)
    quaternionProduct o qDelta x

/-- `QuaternionPlusJacobianImpl` (manifold.cc:38-55). -/
def quaternionPlusJacobian (o : Order) (x : Q) : Matrix (Fin 4) (Fin 3) ℝ :=
  Matrix.of fun r =>
    if r = o.w then ![-x o.x, -x o.y, -x o.z]
    else if r = o.x then ![x o.w, x o.z, -x o.y]
    else if r = o.y then ![-x o.z, x o.w, x o.x]
    else ![x o.y, -x o.x, x o.w]

/-- `QuaternionMinusImpl` (manifold.cc:57-81). -/
def quaternionMinus (o : Order) (y x : Q) : V3 :=
  let d := quaternionProduct o y (quaternionConjugate o x)
  let uNorm := hypot3 (d o.x) (d o.y) (d o.z)
  if uNorm ≠ 0 then
    let theta := atan2 uNorm (d o.w)
    ![theta * d o.x / uNorm, theta * d o.y / uNorm, theta * d o.z / uNorm]
  else ![0, 0, 0]

/-- `QuaternionMinusJacobianImpl` (manifold.cc:83-100). -/
def quaternionMinusJacobian (o : Order) (x : Q) : Matrix (Fin 3) (Fin 4) ℝ :=
  Matrix.of ![mk o (-x o.x) (x o.w) (-x o.z) (x o.y),
    mk o (-x o.y) (x o.z) (x o.w) (-x o.x),
    mk o (-x o.z) (-x o.y) (x o.x) (x o.w)]

/-- `EuclideanManifold::Plus` (manifold.h:262-270). -/
def euclideanPlus {n : ℕ} (x delta : Vec n) : Vec n := fun i => x i + delta i

/-- `EuclideanManifold::Minus` (manifold.h:286-294). -/
def euclideanMinus {n : ℕ} (y x : Vec n) : Vec n := fun i => y i - x i

/-- `EuclideanManifold::PlusJacobian` and `MinusJacobian` (manifold.h:272-276, 296-300). -/
def euclideanJacobian (n : ℕ) : Matrix (Fin n) (Fin n) ℝ := 1

/-- `EuclideanManifold::RightMultiplyByPlusJacobian` (manifold.h:278-284): `std::copy_n`. -/
def euclideanRightMultiply (n numRows : ℕ) (ambient tangent : Buf) : Buf :=
  fun i => if i < numRows * n then ambient i else tangent i

/-! ## The subset manifold -/

/-- A `SubsetManifold` object (manifold.h:311-333). -/
structure Subset where
  tangentSize : ℤ
  mask : List Bool

/-- `SubsetManifold::SubsetManifold` (manifold.cc:126-148); `none` is a failed `CHECK`.  The three
`CHECK`s on the sorted copy of the list say: no entry is negative, none is `size` or larger, none is
repeated. -/
def mkSubset (size : ℕ) (constant : List ℤ) : Option Subset :=
  let s : Subset := ⟨(size : ℤ) - constant.length, List.replicate size false⟩
  if constant = [] then some s
  else
    let sorted := constant.mergeSort (· ≤ ·)
    if ¬0 ≤ sorted.headD 0 then none
    else if ¬sorted.getLastD 0 < size then none
    else if ¬(sorted.zip sorted.tail).all (fun p => p.1 != p.2) then none
    else some { s with mask := constant.foldl (fun m i => m.set i.toNat true) s.mask }

/-- `SubsetManifold::AmbientSize` (manifold.cc:150). -/
def Subset.ambientSize (s : Subset) : ℕ := s.mask.length

/-- The loop of `SubsetManifold::Plus` (manifold.cc:158-164). -/
def subsetPlusLoop (x delta : Buf) : List Bool → ℕ → ℕ → Buf → Buf
  | [], _, _, out => out
  | c :: mask, i, j, out =>
    if c then subsetPlusLoop x delta mask (i + 1) j (Function.update out i (x i))
    else subsetPlusLoop x delta mask (i + 1) (j + 1) (Function.update out i (x i + delta j))

/-- `SubsetManifold::Plus` (manifold.cc:154-166). -/
def Subset.plus (s : Subset) (x delta out : Buf) : Buf := subsetPlusLoop x delta s.mask 0 0 out

/-- Set entries `0 ..< n` of a buffer to zero (Eigen's `setZero`). -/
def setZero (n : ℕ) (m : Buf) : Buf := fun i => if i < n then 0 else m i

/-- The loop of `SubsetManifold::PlusJacobian` (manifold.cc:177-181): row major, `t` columns. -/
def subsetPlusJacobianLoop (t : ℕ) : List Bool → ℕ → ℕ → Buf → Buf
  | [], _, _, m => m
  | k :: mask, r, c, m =>
    if !k then subsetPlusJacobianLoop t mask (r + 1) (c + 1) (Function.update m (r * t + c) 1)
    else subsetPlusJacobianLoop t mask (r + 1) c m

/-- `SubsetManifold::PlusJacobian` (manifold.cc:168-183). -/
def Subset.plusJacobian (s : Subset) (m : Buf) : Buf :=
  if s.tangentSize = 0 then m
  else subsetPlusJacobianLoop s.tangentSize.toNat s.mask 0 0
    (setZero (s.ambientSize * s.tangentSize.toNat) m)

/-- The inner loop of `SubsetManifold::RightMultiplyByPlusJacobian` (manifold.cc:195-200). -/
def subsetRightMultiplyRow (a t : ℕ) (ambient : Buf) (r : ℕ) : List Bool → ℕ → ℕ → Buf → Buf
  | [], _, _, m => m
  | k :: mask, idx, c, m =>
    if !k then
      subsetRightMultiplyRow a t ambient r mask (idx + 1) (c + 1)
        (Function.update m (r * t + c) (ambient (r * a + idx)))
    else subsetRightMultiplyRow a t ambient r mask (idx + 1) c m

/-- `SubsetManifold::RightMultiplyByPlusJacobian` (manifold.cc:185-203). -/
def Subset.rightMultiply (s : Subset) (numRows : ℕ) (ambient m : Buf) : Buf :=
  if s.tangentSize = 0 then m
  else (List.range numRows).foldl (fun m r =>
    subsetRightMultiplyRow s.ambientSize s.tangentSize.toNat ambient r s.mask 0 0 m) m

/-- The loop of `SubsetManifold::Minus` (manifold.cc:213-217). -/
def subsetMinusLoop (y x : Buf) : List Bool → ℕ → ℕ → Buf → Buf
  | [], _, _, out => out
  | k :: mask, i, j, out =>
    if !k then subsetMinusLoop y x mask (i + 1) (j + 1) (Function.update out j (y i - x i))
    else subsetMinusLoop y x mask (i + 1) j out

/-- `SubsetManifold::Minus` (manifold.cc:205-219). -/
def Subset.minus (s : Subset) (y x out : Buf) : Buf :=
  if s.tangentSize = 0 then out else subsetMinusLoop y x s.mask 0 0 out

/-- The loop of `SubsetManifold::MinusJacobian` (manifold.cc:226-230): row major, `a` columns. -/
def subsetMinusJacobianLoop (a : ℕ) : List Bool → ℕ → ℕ → Buf → Buf
  | [], _, _, m => m
  | k :: mask, c, r, m =>
    if !k then subsetMinusJacobianLoop a mask (c + 1) (r + 1) (Function.update m (r * a + c) 1)
    else subsetMinusJacobianLoop a mask (c + 1) r m

/-- `SubsetManifold::MinusJacobian` (manifold.cc:221-232). -/
def Subset.minusJacobian (s : Subset) (m : Buf) : Buf :=
  subsetMinusJacobianLoop s.ambientSize s.mask 0 0
    (setZero (s.tangentSize.toNat * s.ambientSize) m)

/-! ## The interface and the product manifold -/

/-- The interface `Manifold` (manifold.h:148-228): any implementation; `none` is the return value
`false`.  The Jacobians are matrices; their row major layout is modelled where the product manifold
reads them. -/
structure Manifold where
  ambientSize : ℕ
  tangentSize : ℕ
  plus : Vec ambientSize → Vec tangentSize → Option (Vec ambientSize)
  plusJacobian : Vec ambientSize → Option (Matrix (Fin ambientSize) (Fin tangentSize) ℝ)
  minus : Vec ambientSize → Vec ambientSize → Option (Vec tangentSize)
  minusJacobian : Vec ambientSize → Option (Matrix (Fin tangentSize) (Fin ambientSize) ℝ)

/-- The `n` doubles at `p + off`. -/
def readAt (p : Buf) (off n : ℕ) : Vec n := fun i => p (off + i)

/-- Store `n` doubles at `p + off`. -/
def writeAt (p : Buf) (off : ℕ) {n : ℕ} (x : Vec n) : Buf :=
  fun i => if h : off ≤ i ∧ i < off + n then x ⟨i - off, by omega⟩ else p i

/-- Row major storage of a matrix (Eigen's `MatrixRef` is row major). -/
def rowMajorOf {a t : ℕ} (m : Matrix (Fin a) (Fin t) ℝ) : Vec (a * t) :=
  fun i => m i.divNat i.modNat

/-- `Manifold::RightMultiplyByPlusJacobian`, the default implementation (manifold.cc:106-124): the
return value and the new content of `tangent_matrix`. -/
def Manifold.rightMultiply (M : Manifold) (x : Vec M.ambientSize) (numRows : ℕ) (ambient m : Buf) :
    Bool × Buf :=
  if M.tangentSize = 0 then (true, m)
  else match M.plusJacobian x with
    | none => (false, m)
    | some J =>
      (true, writeAt m 0 (rowMajorOf (Matrix.of fun (r : Fin numRows) c =>
        ∑ k : Fin M.ambientSize, ambient (r * M.ambientSize + k) * J k c)))

/-- `std::exclusive_scan` (product_manifold.h:218-223), from the start value. -/
def exclusiveScan : ℕ → List ℕ → List ℕ
  | _, [] => []
  | acc, a :: l => acc :: exclusiveScan (acc + a) l

/-- The manifolds with their offsets (product_manifold.h:134-149). -/
def withOffsets (ms : List Manifold) : List (Manifold × ℕ × ℕ) :=
  ms.zip ((exclusiveScan 0 (ms.map Manifold.ambientSize)).zip
    (exclusiveScan 0 (ms.map Manifold.tangentSize)))

/-- `ProductManifold::AmbientSize` and `TangentSize` (product_manifold.h:146-149). -/
def productAmbientSize (ms : List Manifold) : ℕ := (ms.map Manifold.ambientSize).foldl (· + ·) 0

@[inherit_doc productAmbientSize]
def productTangentSize (ms : List Manifold) : ℕ := (ms.map Manifold.tangentSize).foldl (· + ·) 0

/-- A fold over `&&`: stop at the first `false` (the fold expressions of product_manifold.h:156-160,
168-172, 193, 214). -/
def allOf {α : Type} (f : α → Buf → Bool × Buf) : List α → Buf → Bool × Buf
  | [], b => (true, b)
  | a :: l, b =>
    match f a b with
    | (false, b') => (false, b')
    | (true, b') => allOf f l b'

/-- `ProductManifold::Plus` (product_manifold.h:103-107, 151-161).  A factor that fails leaves the
output as it is; in C++ it may have written to its own part. -/
def productPlus (ms : List Manifold) (x delta out : Buf) : Bool × Buf :=
  allOf (fun (p : Manifold × ℕ × ℕ) out =>
    match p.1.plus (readAt x p.2.1 _) (readAt delta p.2.2 _) with
    | none => (false, out)
    | some y => (true, writeAt out p.2.1 y)) (withOffsets ms) out

/-- `ProductManifold::Minus` (product_manifold.h:109-113, 163-173). -/
def productMinus (ms : List Manifold) (y x out : Buf) : Bool × Buf :=
  allOf (fun (p : Manifold × ℕ × ℕ) out =>
    match p.1.minus (readAt y p.2.1 _) (readAt x p.2.1 _) with
    | none => (false, out)
    | some d => (true, writeAt out p.2.2 d)) (withOffsets ms) out

/-- `jacobian.block(r0, c0, a, t) = MatrixRef(buffer, a, t)`: a row major matrix with `cols` columns.  -/
def writeBlock (m : Buf) (cols r0 c0 a t : ℕ) (buffer : Buf) : Buf :=
  fun i =>
    if r0 ≤ i / cols ∧ i / cols < r0 + a ∧ c0 ≤ i % cols ∧ i % cols < c0 + t then
      buffer ((i / cols - r0) * t + (i % cols - c0))
    else m i

/-- `ProductManifold::PlusJacobian` (product_manifold.h:115-121, 175-194).  The `buffer` each factor
writes its row major Jacobian to starts empty here; in C++ it keeps the entries of the previous
factor, of which none is read because each factor fills its own matrix. -/
def productPlusJacobian (ms : List Manifold) (x jacobian : Buf) : Bool × Buf :=
  let cols := productTangentSize ms
  allOf (fun (p : Manifold × ℕ × ℕ) m =>
    match p.1.plusJacobian (readAt x p.2.1 _) with
    | none => (false, m)
    | some J =>
      (true, writeBlock m cols p.2.1 p.2.2 p.1.ambientSize p.1.tangentSize
        (writeAt (fun _ => 0) 0 (rowMajorOf J)))) (withOffsets ms)
    (setZero (productAmbientSize ms * cols) jacobian)

/-- `ProductManifold::MinusJacobian` (product_manifold.h:123-129, 196-216). -/
def productMinusJacobian (ms : List Manifold) (x jacobian : Buf) : Bool × Buf :=
  let cols := productAmbientSize ms
  allOf (fun (p : Manifold × ℕ × ℕ) m =>
    match p.1.minusJacobian (readAt x p.2.1 _) with
    | none => (false, m)
    | some J =>
      (true, writeBlock m cols p.2.2 p.2.1 p.1.tangentSize p.1.ambientSize
        (writeAt (fun _ => 0) 0 (rowMajorOf J)))) (withOffsets ms)
    (setZero (productTangentSize ms * cols) jacobian)

end

end Ceres.Manifold
