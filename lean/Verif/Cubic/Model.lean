import Verif.Jet.Model
import Mathlib.Algebra.Order.Floor.Defs

/-! # Model of the cubic interpolators

Source: `include/ceres/cubic_interpolation.h`.  Doubles are reals and `int` is `ℤ`: rounding and a
coordinate beyond the range of `int` (undefined behaviour in the conversion of `std::floor(x)`) are not
modelled.  An output pointer is `none` when null and otherwise the buffer it points to; an
uninitialised local buffer holds `junk`, over which all statements quantify. -/

namespace Ceres.Cubic

open Ceres.Jet (Jet)

noncomputable section

variable {k : ℕ}

/-- A value with `kDataDimension` components. -/
abbrev Vec (k : ℕ) := Fin k → ℝ

/-- An output argument `double*`. -/
abbrev Out (k : ℕ) := Option (Vec k)

/-- `if (o != nullptr) Map(o) = v`. -/
def write (o : Out k) (v : Vec k) : Out k := o.map fun _ => v

/-- `CubicHermiteSpline` (cubic_interpolation.h:68-94). -/
def cubicHermiteSpline (p0 p1 p2 p3 : Vec k) (x : ℝ) (f dfdx : Out k) : Out k × Out k :=
  let a : Vec k := (1 / 2 : ℝ) • (-p0 + (3 : ℝ) • p1 - (3 : ℝ) • p2 + p3)
  let b : Vec k := (1 / 2 : ℝ) • ((2 : ℝ) • p0 - (5 : ℝ) • p1 + (4 : ℝ) • p2 - p3)
  let c : Vec k := (1 / 2 : ℝ) • (-p0 + p2)
  let d : Vec k := p1
  (write f (d + x • (c + x • (b + x • a))), write dfdx (c + x • ((2 : ℝ) • b + x • ((3 : ℝ) • a))))

/-- `CubicInterpolator::Evaluate(x, f, dfdx)` (cubic_interpolation.h:137-145). -/
def cubicEvaluate (grid : ℤ → Vec k) (x : ℝ) (f dfdx : Out k) : Out k × Out k :=
  let n : ℤ := ⌊x⌋
  let p0 := grid (n - 1)
  let p1 := grid n
  let p2 := grid (n + 1)
  let p3 := grid (n + 2)
  cubicHermiteSpline p0 p1 p2 p3 (x - n) f dfdx

/-- `CubicInterpolator::Evaluate(x, f)` for doubles (cubic_interpolation.h:150). -/
def cubicEvaluateValue (grid : ℤ → Vec k) (x : ℝ) (f : Out k) : Out k :=
  (cubicEvaluate grid x f none).1

/-- `CubicInterpolator::Evaluate(x, f)` for jets (cubic_interpolation.h:152-160). -/
def cubicEvaluateJet {n : ℕ} (grid : ℤ → Vec k) (junk : Vec k) (x : Jet n) : Fin k → Jet n :=
  let r := cubicEvaluate grid x.a (some junk) (some junk)
  let fx := r.1.getD junk
  let dfdx := r.2.getD junk
  fun i => ⟨fx i, dfdx i • x.v⟩

/-- `BiCubicInterpolator::Evaluate(r, c, f, dfdr, dfdc)` (cubic_interpolation.h:271-332). -/
def bicubicEvaluate (grid : ℤ → ℤ → Vec k) (junk : Vec k) (r c : ℝ) (f dfdr dfdc : Out k) :
    Out k × Out k × Out k :=
  let row : ℤ := ⌊r⌋
  let col : ℤ := ⌊c⌋
  let out : Out k := some junk
  let q0 := cubicHermiteSpline (grid (row - 1) (col - 1)) (grid (row - 1) col)
    (grid (row - 1) (col + 1)) (grid (row - 1) (col + 2)) (c - col) out out
  let q1 := cubicHermiteSpline (grid row (col - 1)) (grid row col)
    (grid row (col + 1)) (grid row (col + 2)) (c - col) out out
  let q2 := cubicHermiteSpline (grid (row + 1) (col - 1)) (grid (row + 1) col)
    (grid (row + 1) (col + 1)) (grid (row + 1) (col + 2)) (c - col) out out
  let q3 := cubicHermiteSpline (grid (row + 2) (col - 1)) (grid (row + 2) col)
    (grid (row + 2) (col + 1)) (grid (row + 2) (col + 2)) (c - col) out out
  let v := cubicHermiteSpline (q0.1.getD junk) (q1.1.getD junk) (q2.1.getD junk) (q3.1.getD junk)
    (r - row) f dfdr
  let dfdc := if dfdc.isSome then
      (cubicHermiteSpline (q0.2.getD junk) (q1.2.getD junk) (q2.2.getD junk) (q3.2.getD junk)
        (r - row) dfdc none).1
    else dfdc
  (v.1, v.2, dfdc)

/-- `BiCubicInterpolator::Evaluate(r, c, f)` for doubles (cubic_interpolation.h:337-339). -/
def bicubicEvaluateValue (grid : ℤ → ℤ → Vec k) (junk : Vec k) (r c : ℝ) (f : Out k) : Out k :=
  (bicubicEvaluate grid junk r c f none none).1

/-- `BiCubicInterpolator::Evaluate(r, c, f)` for jets (cubic_interpolation.h:341-351). -/
def bicubicEvaluateJet {n : ℕ} (grid : ℤ → ℤ → Vec k) (junk : Vec k) (r c : Jet n) :
    Fin k → Jet n :=
  let e := bicubicEvaluate grid junk r.a c.a (some junk) (some junk) (some junk)
  let frc := e.1.getD junk
  let dfdr := e.2.1.getD junk
  let dfdc := e.2.2.getD junk
  fun i => ⟨frc i, dfdr i • r.v + dfdc i • c.v⟩

end

/-! ## Grids -/

variable {T : Type*} {k : ℕ}

/-- `std::clamp(n, lo, hi)`. -/
def clamp (n lo hi : ℤ) : ℤ := if n < lo then lo else if hi < n then hi else n

/-- `Grid1D` (cubic_interpolation.h:187-218); the constructor checks `begin < end`.  `data` is indexed
from the start of the array. -/
structure Grid1D (T : Type*) where
  data : ℤ → T
  begin : ℤ
  «end» : ℤ
  interleaved : Bool

/-- The element of `data_` read by `Grid1D::GetValue(n)` for component `i` of `k`
(cubic_interpolation.h:201-211). -/
def Grid1D.index (g : Grid1D T) (k : ℕ) (n : ℤ) (i : ℕ) : ℤ :=
  let numValues := g.end - g.begin
  let idx := clamp n g.begin (g.end - 1) - g.begin
  if g.interleaved then k * idx + i else i * numValues + idx

/-- `Grid1D::GetValue` (cubic_interpolation.h:197-212). -/
def Grid1D.getValue (g : Grid1D T) (n : ℤ) : Fin k → T := fun i => g.data (g.index k n i)

/-- `Grid2D` (cubic_interpolation.h:384-440); the constructor checks that both ranges are nonempty. -/
structure Grid2D (T : Type*) where
  data : ℤ → T
  rowBegin : ℤ
  rowEnd : ℤ
  colBegin : ℤ
  colEnd : ℤ
  rowMajor : Bool
  interleaved : Bool

/-- The element of `data_` read by `Grid2D::GetValue(r, c)` for component `i` of `k`
(cubic_interpolation.h:414-429). -/
def Grid2D.index (g : Grid2D T) (k : ℕ) (r c : ℤ) (i : ℕ) : ℤ :=
  let numRows := g.rowEnd - g.rowBegin
  let numCols := g.colEnd - g.colBegin
  let numValues := numRows * numCols
  let rowIdx := clamp r g.rowBegin (g.rowEnd - 1) - g.rowBegin
  let colIdx := clamp c g.colBegin (g.colEnd - 1) - g.colBegin
  let n := if g.rowMajor then numCols * rowIdx + colIdx else numRows * colIdx + rowIdx
  if g.interleaved then k * n + i else i * numValues + n

/-- `Grid2D::GetValue` (cubic_interpolation.h:410-430). -/
def Grid2D.getValue (g : Grid2D T) (r c : ℤ) : Fin k → T := fun i => g.data (g.index k r c i)

end Ceres.Cubic
