import Mathlib.Algebra.Ring.Defs
import Mathlib.Data.Nat.Bitwise
import Mathlib.Logic.Function.Basic

/-!
# The small dense kernels (small_blas.h, small_blas_generic.h)

The kernels are written against raw pointers.  The model keeps that: there is *one* memory, a map
from addresses to cells, where a cell that is not part of any live allocation is `none`.  Loading
from or storing to such a cell faults.  A pointer is an address, pointer arithmetic is addition.
Nothing says that `A`, `B` and `C` are different arrays; the theorems have to ask for it where the
code needs it.

Simplifications.
* `int` is `ℕ` (every integer in these functions is non-negative; overflow is not modelled).
* `double` is an arbitrary, not necessarily commutative, ring: rounding is not modelled.
* The `DCHECK`s are not executed (they vanish in release builds); they are hypotheses of theorems.
-/

namespace Ceres.SmallBlas

/-- Memory: an address holds a `double`, or is outside every allocation. -/
abbrev Mem (K : Type) := ℕ → Option K

/-- A computation over the memory; `none` is a fault (access outside an allocation). -/
def M (K : Type) (α : Type) := Mem K → Option (α × Mem K)

instance {K : Type} : Monad (M K) where
  pure a := fun m => some (a, m)
  bind x f := fun m => (x m).bind fun r => f r.1 r.2

variable {K : Type} [Ring K]

/-- `*p` as a value. -/
def load (p : ℕ) : M K K := fun m => (m p).map fun x => (x, m)

/-- `*p = v`. -/
def store (p : ℕ) (v : K) : M K Unit := fun m =>
  (m p).map fun _ => ((), Function.update m p (some v))

/-- `*p += v`. -/
def addStore (p : ℕ) (v : K) : M K Unit := do
  let x ← load p
  store p (x + v)

/-- `*p -= v`. -/
def subStore (p : ℕ) (v : K) : M K Unit := do
  let x ← load p
  store p (x - v)

/-- A loop `while (cond) body`, with a bound on the number of iterations.  Running out of the bound
is a fault, so a theorem that the loop does not fault includes that it terminates. -/
def whileM {S : Type} (cond : S → Bool) (body : S → M K S) : ℕ → S → M K S
  | 0, s => if cond s then fun _ => none else pure s
  | n + 1, s => if cond s then body s >>= whileM cond body n else pure s

/-- `CERES_GEMM_STORE_SINGLE` (small_blas.h:95-102). -/
def storeSingle (op : ℤ) (p index : ℕ) (value : K) : M K Unit :=
  if op > 0 then addStore (p + index) value
  else if op < 0 then subStore (p + index) value
  else store (p + index) value

/-- `CERES_GEMM_STORE_PAIR` (small_blas.h:104-114). -/
def storePair (op : ℤ) (p index : ℕ) (v1 v2 : K) : M K Unit :=
  if op > 0 then do
    addStore (p + index) v1
    addStore (p + (index + 1)) v2
  else if op < 0 then do
    subStore (p + index) v1
    subStore (p + (index + 1)) v2
  else do
    store (p + index) v1
    store (p + (index + 1)) v2

/-- The local variables of the unrolled kernels: `cvec4`, the loop counter `k`, the offsets `ai`,
`bi` (MMM, MTM) and the moving pointers `pa`, `pb` (MVM, MTV).  A kernel that does not have one of
them leaves it alone. -/
structure Reg (K : Type) where
  c0 : K
  c1 : K
  c2 : K
  c3 : K
  k : ℕ := 0
  ai : ℕ := 0
  bi : ℕ := 0
  pa : ℕ := 0
  pb : ℕ := 0

/-- `CERES_GEMM_OPT_NAIVE_HEADER`: `cvec4`, `pa`, `pb` (small_blas_generic.h:41-44). -/
def header (a b : ℕ) : Reg K := { c0 := 0, c1 := 0, c2 := 0, c3 := 0, pa := a, pb := b }

/-- `col_r` (small_blas_generic.h:46). -/
def colR (colA : ℕ) : ℕ := colA &&& (4 - 1)

/-- `col_m` of the generic kernels (small_blas_generic.h:47). -/
def colM (colA : ℕ) : ℕ := colA - colR colA

/-- `CERES_GEMM_OPT_STORE_MAT1X4` (small_blas_generic.h:49-66).  The final `c += 4` changes a local
pointer that is not used again. -/
def store1x4 (op : ℤ) (c : ℕ) (r : Reg K) : M K Unit :=
  if op > 0 then do
    addStore c r.c0
    addStore (c + 1) r.c1
    addStore (c + 2) r.c2
    addStore (c + 3) r.c3
  else if op < 0 then do
    subStore c r.c0
    subStore (c + 1) r.c1
    subStore (c + 2) r.c2
    subStore (c + 3) r.c3
  else do
    store c r.c0
    store (c + 1) r.c1
    store (c + 2) r.c2
    store (c + 3) r.c3

/-! ### `MMM_mat1x4` -/

/-- `CERES_GEMM_OPT_MMM_MAT1X4_MUL` (small_blas_generic.h:97-106).  `pb += 4` is dead: `pb` is set
again before it is used. -/
def mmmMul (a b strideB : ℕ) (r : Reg K) : M K (Reg K) := do
  let av ← load (a + r.k)
  let b0 ← load (b + r.bi)
  let b1 ← load (b + r.bi + 1)
  let b2 ← load (b + r.bi + 2)
  let b3 ← load (b + r.bi + 3)
  pure { r with
    c0 := r.c0 + av * b0
    c1 := r.c1 + av * b1
    c2 := r.c2 + av * b2
    c3 := r.c3 + av * b3
    bi := r.bi + strideB
    k := r.k + 1 }

/-- The four copies of the macro in the unrolled loop (small_blas_generic.h:109-112). -/
def unroll4 (f : Reg K → M K (Reg K)) (r : Reg K) : M K (Reg K) := do
  let r ← f r
  let r ← f r
  let r ← f r
  f r

/-- `MMM_mat1x4` (small_blas_generic.h:87-122). -/
def mmmMat1x4 (op : ℤ) (colA a b strideB c : ℕ) : M K Unit := do
  let r ← whileM (fun r : Reg K => r.k < colM colA) (unroll4 (mmmMul a b strideB)) colA
    { header a b with k := 0 }
  let r ← whileM (fun r : Reg K => r.k < colA) (mmmMul a b strideB) colA
    { r with k := colM colA }
  store1x4 op c r

/-! ### `MTM_mat1x4` -/

/-- `CERES_GEMM_OPT_MTM_MAT1X4_MUL` (small_blas_generic.h:165-174). -/
def mtmMul (a strideA b strideB : ℕ) (r : Reg K) : M K (Reg K) := do
  let av ← load (a + r.ai)
  let b0 ← load (b + r.bi)
  let b1 ← load (b + r.bi + 1)
  let b2 ← load (b + r.bi + 2)
  let b3 ← load (b + r.bi + 3)
  pure { r with
    c0 := r.c0 + av * b0
    c1 := r.c1 + av * b1
    c2 := r.c2 + av * b2
    c3 := r.c3 + av * b3
    ai := r.ai + strideA
    bi := r.bi + strideB }

/-- The loop increment `k += step`, performed after the body of a `for` loop. -/
def thenStep (step : ℕ) (f : Reg K → M K (Reg K)) (r : Reg K) : M K (Reg K) := do
  let r ← f r
  pure { r with k := r.k + step }

/-- The two loops shared by `MTM_mat1x4`, `MVM_mat4x1` and `MTV_mat4x1`
(small_blas_generic.h:176-185, 231-240 and 294-303). -/
def twoLoops (colA : ℕ) (mul : Reg K → M K (Reg K)) (r : Reg K) : M K (Reg K) := do
  let r ← whileM (fun r : Reg K => r.k < colM colA) (thenStep 4 (unroll4 mul)) colA
    { r with k := 0 }
  whileM (fun r : Reg K => r.k < colA) (thenStep 1 mul) colA { r with k := colM colA }

/-- `MTM_mat1x4` (small_blas_generic.h:153-190). -/
def mtmMat1x4 (op : ℤ) (colA a strideA b strideB c : ℕ) : M K Unit := do
  let r ← twoLoops colA (mtmMul a strideA b strideB) (header a b)
  store1x4 op c r

/-! ### `MVM_mat4x1` -/

/-- `CERES_GEMM_OPT_MVM_MAT4X1_MUL` (small_blas_generic.h:221-228). -/
def mvmMul (strideA : ℕ) (r : Reg K) : M K (Reg K) := do
  let bv ← load r.pb
  let a0 ← load r.pa
  let a1 ← load (r.pa + strideA)
  let a2 ← load (r.pa + strideA * 2)
  let a3 ← load (r.pa + strideA * 3)
  pure { r with
    c0 := r.c0 + a0 * bv
    c1 := r.c1 + a1 * bv
    c2 := r.c2 + a2 * bv
    c3 := r.c3 + a3 * bv
    pa := r.pa + 1
    pb := r.pb + 1 }

/-- `MVM_mat4x1` (small_blas_generic.h:211-245). -/
def mvmMat4x1 (op : ℤ) (colA a strideA b c : ℕ) : M K Unit := do
  let r ← twoLoops colA (mvmMul strideA) (header a b)
  store1x4 op c r

/-! ### `MTV_mat4x1` -/

/-- `CERES_GEMM_OPT_MTV_MAT4X1_MUL` (small_blas_generic.h:285-292). -/
def mtvMul (strideA : ℕ) (r : Reg K) : M K (Reg K) := do
  let bv ← load r.pb
  let a0 ← load r.pa
  let a1 ← load (r.pa + 1)
  let a2 ← load (r.pa + 2)
  let a3 ← load (r.pa + 3)
  pure { r with
    c0 := r.c0 + a0 * bv
    c1 := r.c1 + a1 * bv
    c2 := r.c2 + a2 * bv
    c3 := r.c3 + a3 * bv
    pa := r.pa + strideA
    pb := r.pb + 1 }

/-- `MTV_mat4x1` (small_blas_generic.h:276-308). -/
def mtvMat4x1 (op : ℤ) (colA a strideA b c : ℕ) : M K Unit := do
  let r ← twoLoops colA (mtvMul strideA) (header a b)
  store1x4 op c r

/-! ### The remainder loops

The loops for one and for two remaining columns (rows) occur in all four functions.  They differ in
how the two pointers move; the model has one definition each, with the two strides as arguments. -/

/-- Local variables of the remainder loops: `tmp`/`tmp1`, `tmp2`, the counter and the pointers. -/
structure Tmp (K : Type) where
  t1 : K
  t2 : K
  k : ℕ
  pa : ℕ
  pb : ℕ

/-- `tmp` after `for (k < n) { tmp += pa[0] * pb[0]; pa += strideA; pb += strideB; }`.
small_blas.h:196-199 (`pa[k]`, that is `strideA = 1`; `pb += NUM_COL_B`), 299-304
(`pa += NUM_COL_A`, `pb += NUM_COL_B`), 424-427 (both 1) and 510-514 (`pa += NUM_COL_A`,
`pb` by 1). -/
def single (n pa strideA pb strideB : ℕ) : M K K := do
  let t ← whileM (fun t : Tmp K => t.k < n)
    (fun t => do
      let x ← load t.pa
      let y ← load t.pb
      pure { t with t1 := t.t1 + x * y, k := t.k + 1, pa := t.pa + strideA, pb := t.pb + strideB })
    n { t1 := 0, t2 := 0, k := 0, pa := pa, pb := pb }
  pure t.t1

/-- `tmp1`, `tmp2` of the loops that compute two neighbouring columns of the result:
`tmp1 += av * pb[0]; tmp2 += av * pb[1]` (small_blas.h:217-222, with `strideA = 1`, and 322-329). -/
def pairB (n pa strideA pb strideB : ℕ) : M K (K × K) := do
  let t ← whileM (fun t : Tmp K => t.k < n)
    (fun t => do
      let av ← load t.pa
      let y0 ← load t.pb
      let y1 ← load (t.pb + 1)
      pure { t1 := t.t1 + av * y0, t2 := t.t2 + av * y1, k := t.k + 1,
             pa := t.pa + strideA, pb := t.pb + strideB })
    n { t1 := 0, t2 := 0, k := 0, pa := pa, pb := pb }
  pure (t.t1, t.t2)

/-- `tmp1`, `tmp2` of the loops that compute two neighbouring entries of a matrix-vector product:
`tmp1 += *pa1 * bv; tmp2 += *pa2 * bv` with `pa2 = pa1 + gap` (small_blas.h:439-447, with
`gap = NUM_COL_A`, stride 1, and 526-536, with `gap = 1`, stride `NUM_COL_A`). -/
def pairA (n pa gap strideA pb : ℕ) : M K (K × K) := do
  let t ← whileM (fun t : Tmp K => t.k < n)
    (fun t => do
      let bv ← load t.pb
      let x0 ← load t.pa
      let x1 ← load (t.pa + gap)
      pure { t1 := t.t1 + x0 * bv, t2 := t.t2 + x1 * bv, k := t.k + 1,
             pa := t.pa + strideA, pb := t.pb + 1 })
    n { t1 := 0, t2 := 0, k := 0, pa := pa, pb := pb }
  pure (t.t1, t.t2)

/-- `for (int i = 0; i < n; i += step) body(i)` for bodies that only change the memory. -/
def forM (n step : ℕ) (body : ℕ → M K Unit) : M K Unit := do
  let _ ← whileM (fun i : ℕ => i < n) (fun i => do body i; pure (i + step)) n 0
  pure ()

/-- `n & ~(span - 1)` (small_blas.h:213, 235, 318, 342, 438, 457, 525, 546). -/
def mask4 (n : ℕ) : ℕ := Nat.ldiff n (4 - 1)

/-- `index` (small_blas.h:201, 224, 238, 306, 331, 345). -/
def index (row startRow stride startCol col : ℕ) : ℕ := (row + startRow) * stride + startCol + col

/-! ### `MatrixMatrixMultiply` -/

/-- The last odd column (small_blas.h:192-203). -/
def mmOdd (op : ℤ) (A rowA colA B colB C startRow startCol stride : ℕ) : M K Unit :=
  forM rowA 1 fun row => do
    let tmp ← single colA (A + row * colA) 1 (B + (colB - 1)) colB
    storeSingle op C (index row startRow stride startCol (colB - 1)) tmp

/-- The couple of columns (small_blas.h:213-226). -/
def mmPair (op : ℤ) (A rowA colA B colB C startRow startCol stride : ℕ) : M K Unit :=
  forM rowA 1 fun row => do
    let t ← pairB colA (A + row * colA) 1 (B + mask4 colB) colB
    storePair op C (index row startRow stride startCol (mask4 colB)) t.1 t.2

/-- The main part (small_blas.h:235-244). -/
def mmMain (op : ℤ) (A rowA colA B colB C startRow startCol stride : ℕ) : M K Unit :=
  forM (mask4 colB) 4 fun col =>
    forM rowA 1 fun row =>
      mmmMat1x4 op colA (A + row * colA) (B + col) colB
        (C + index row startRow stride startCol col)

/-- From the second remainder on (small_blas.h:211-245). -/
def mmRest (op : ℤ) (A rowA colA B colB C startRow startCol stride : ℕ) : M K Unit :=
  if colB &&& 2 ≠ 0 then do
    mmPair op A rowA colA B colB C startRow startCol stride
    if colB < 4 then pure () else mmMain op A rowA colA B colB C startRow startCol stride
  else mmMain op A rowA colA B colB C startRow startCol stride

/-- `MatrixMatrixMultiplyNaive` (small_blas.h:178-245), for the sizes `NUM_ROW_A`, `NUM_COL_A` and
`NUM_COL_B` computed by `CERES_GEMM_NAIVE_HEADER`.  `NUM_ROW_B` and `row_stride_c` only occur in
`DCHECK`s. -/
def mmNaive (op : ℤ) (A rowA colA B colB C startRow startCol stride : ℕ) : M K Unit :=
  if colB &&& 1 ≠ 0 then do
    mmOdd op A rowA colA B colB C startRow startCol stride
    if colB = 1 then pure () else mmRest op A rowA colA B colB C startRow startCol stride
  else mmRest op A rowA colA B colB C startRow startCol stride

/-! ### `MatrixTransposeMatrixMultiply` -/

/-- The last odd column (small_blas.h:294-308). -/
def mtmOdd (op : ℤ) (A rowA colA B colB C startRow startCol stride : ℕ) : M K Unit :=
  forM colA 1 fun row => do
    let tmp ← single rowA (A + row) colA (B + (colB - 1)) colB
    storeSingle op C (index row startRow stride startCol (colB - 1)) tmp

/-- The couple of columns (small_blas.h:318-333). -/
def mtmPair (op : ℤ) (A rowA colA B colB C startRow startCol stride : ℕ) : M K Unit :=
  forM colA 1 fun row => do
    let t ← pairB rowA (A + row) colA (B + mask4 colB) colB
    storePair op C (index row startRow stride startCol (mask4 colB)) t.1 t.2

/-- The main part (small_blas.h:342-351). -/
def mtmMain (op : ℤ) (A rowA colA B colB C startRow startCol stride : ℕ) : M K Unit :=
  forM (mask4 colB) 4 fun col =>
    forM colA 1 fun row =>
      mtmMat1x4 op rowA (A + row) colA (B + col) colB
        (C + index row startRow stride startCol col)

/-- From the second remainder on (small_blas.h:316-352). -/
def mtmRest (op : ℤ) (A rowA colA B colB C startRow startCol stride : ℕ) : M K Unit :=
  if colB &&& 2 ≠ 0 then do
    mtmPair op A rowA colA B colB C startRow startCol stride
    if colB < 4 then pure () else mtmMain op A rowA colA B colB C startRow startCol stride
  else mtmMain op A rowA colA B colB C startRow startCol stride

/-- `MatrixTransposeMatrixMultiplyNaive` (small_blas.h:281-352). -/
def mtmNaive (op : ℤ) (A rowA colA B colB C startRow startCol stride : ℕ) : M K Unit :=
  if colB &&& 1 ≠ 0 then do
    mtmOdd op A rowA colA B colB C startRow startCol stride
    if colB = 1 then pure () else mtmRest op A rowA colA B colB C startRow startCol stride
  else mtmRest op A rowA colA B colB C startRow startCol stride

/-! ### `MatrixVectorMultiply` -/

/-- The last odd row (small_blas.h:421-428). -/
def mvOdd (op : ℤ) (A rowA colA b c : ℕ) : M K Unit := do
  let tmp ← single colA (A + (rowA - 1) * colA) 1 b 1
  storeSingle op c (rowA - 1) tmp

/-- The couple of rows (small_blas.h:438-448). -/
def mvPair (op : ℤ) (A rowA colA b c : ℕ) : M K Unit := do
  let t ← pairA colA (A + mask4 rowA * colA) colA 1 b
  storePair op c (mask4 rowA) t.1 t.2

/-- The main part (small_blas.h:457-463). -/
def mvMain (op : ℤ) (A rowA colA b c : ℕ) : M K Unit :=
  forM (mask4 rowA) 4 fun row => mvmMat4x1 op colA (A + row * colA) colA b (c + row)

/-- From the second remainder on (small_blas.h:436-466). -/
def mvRest (op : ℤ) (A rowA colA b c : ℕ) : M K Unit :=
  if rowA &&& 2 ≠ 0 then do
    mvPair op A rowA colA b c
    if rowA < 4 then pure () else mvMain op A rowA colA b c
  else mvMain op A rowA colA b c

/-- `MatrixVectorMultiply` (small_blas.h:385-466, the branch without `CERES_NO_CUSTOM_BLAS`), for
the sizes `NUM_ROW_A` and `NUM_COL_A`. -/
def mvNaive (op : ℤ) (A rowA colA b c : ℕ) : M K Unit :=
  if rowA &&& 1 ≠ 0 then do
    mvOdd op A rowA colA b c
    if rowA = 1 then pure () else mvRest op A rowA colA b c
  else mvRest op A rowA colA b c

/-! ### `MatrixTransposeVectorMultiply` -/

/-- The last odd column (small_blas.h:507-515). -/
def mtvOdd (op : ℤ) (A rowA colA b c : ℕ) : M K Unit := do
  let tmp ← single rowA (A + (colA - 1)) colA b 1
  storeSingle op c (colA - 1) tmp

/-- The couple of columns (small_blas.h:525-537). -/
def mtvPair (op : ℤ) (A rowA colA b c : ℕ) : M K Unit := do
  let t ← pairA rowA (A + mask4 colA) 1 colA b
  storePair op c (mask4 colA) t.1 t.2

/-- The main part (small_blas.h:546-552). -/
def mtvMain (op : ℤ) (A rowA colA b c : ℕ) : M K Unit :=
  forM (mask4 colA) 4 fun row => mtvMat4x1 op rowA (A + row) colA b (c + row)

/-- From the second remainder on (small_blas.h:523-555). -/
def mtvRest (op : ℤ) (A rowA colA b c : ℕ) : M K Unit :=
  if colA &&& 2 ≠ 0 then do
    mtvPair op A rowA colA b c
    if colA < 4 then pure () else mtvMain op A rowA colA b c
  else mtvMain op A rowA colA b c

/-- `MatrixTransposeVectorMultiply` (small_blas.h:471-555, the branch without
`CERES_NO_CUSTOM_BLAS`). -/
def mtvNaive (op : ℤ) (A rowA colA b c : ℕ) : M K Unit :=
  if colA &&& 1 ≠ 0 then do
    mtvOdd op A rowA colA b c
    if colA = 1 then pure () else mtvRest op A rowA colA b c
  else mtvRest op A rowA colA b c

/-! ### The entry points -/

/-- `NUM_ROW_A` etc. (small_blas.h:75-78, 413-414, 499-500): the template argument, unless it is
`Eigen::Dynamic` (`none`). -/
def dim (k : Option ℕ) (n : ℕ) : ℕ :=
  match k with
  | some k => k
  | none => n

/-- `MatrixMatrixMultiply` (small_blas.h:247-263) where it calls the loop based implementation, that
is, where at least one of the four template arguments is `Eigen::Dynamic`.  With four fixed sizes
the function is one line of Eigen (small_blas.h:164-176), which is not modelled: `none`. -/
def matrixMatrixMultiply (kRowA kColA kRowB kColB : Option ℕ) (op : ℤ)
    (A rowA colA B colB C startRow startCol stride : ℕ) : Option (M K Unit) :=
  if kRowA.isSome && kColA.isSome && kRowB.isSome && kColB.isSome then none
  else some (mmNaive op A (dim kRowA rowA) (dim kColA colA) B (dim kColB colB) C
    startRow startCol stride)

/-- `MatrixTransposeMatrixMultiply` (small_blas.h:354-370), likewise. -/
def matrixTransposeMatrixMultiply (kRowA kColA kRowB kColB : Option ℕ) (op : ℤ)
    (A rowA colA B colB C startRow startCol stride : ℕ) : Option (M K Unit) :=
  if kRowA.isSome && kColA.isSome && kRowB.isSome && kColB.isSome then none
  else some (mtmNaive op A (dim kRowA rowA) (dim kColA colA) B (dim kColB colB) C
    startRow startCol stride)

/-- `MatrixVectorMultiply` (small_blas.h:385-414). -/
def matrixVectorMultiply (kRowA kColA : Option ℕ) (op : ℤ) (A rowA colA b c : ℕ) : M K Unit :=
  mvNaive op A (dim kRowA rowA) (dim kColA colA) b c

/-- `MatrixTransposeVectorMultiply` (small_blas.h:471-500). -/
def matrixTransposeVectorMultiply (kRowA kColA : Option ℕ) (op : ℤ) (A rowA colA b c : ℕ) :
    M K Unit :=
  mtvNaive op A (dim kRowA rowA) (dim kColA colA) b c

end Ceres.SmallBlas
