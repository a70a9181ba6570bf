import Mathlib.Analysis.SpecialFunctions.Pow.Deriv
import Mathlib.Analysis.SpecialFunctions.Trigonometric.ArctanDeriv
import Mathlib.Analysis.SpecialFunctions.Trigonometric.InverseDeriv
import Mathlib.Analysis.SpecialFunctions.Log.Base
import Mathlib.Analysis.SpecialFunctions.Complex.Arg
import Mathlib.MeasureTheory.Integral.IntervalIntegral.Basic
import Mathlib.Analysis.SpecialFunctions.Integrals.Basic
import Mathlib.Algebra.Order.Floor.Defs

/-! # Model of jets and automatic differentiation

Sources: `include/ceres/jet.h`, `include/ceres/internal/autodiff.h`,
`include/ceres/autodiff_cost_function.h`, `include/ceres/autodiff_first_order_function.h`,
`include/ceres/dynamic_autodiff_cost_function.h`, `include/ceres/autodiff_manifold.h`.

Doubles are reals, functions of `<cmath>` are the real functions they approximate; rounding is not
modelled.  A `NaN` or infinity the code writes explicitly is a real parameter `nan`, `inf` over which
all statements quantify, so that no statement can depend on it.  A jet over jets (`T` a jet) is not
modelled. -/

namespace Ceres.Jet

noncomputable section

/-- `Jet<double, N>` (jet.h:210-294). -/
@[ext] structure Jet (n : ℕ) where
  a : ℝ
  v : Fin n → ℝ

variable {n : ℕ}

/-! ## Functions of `<cmath>` -/

/-- `std::copysign`; a zero sign argument is taken to be `+0`. -/
def copysign (a b : ℝ) : ℝ := if b < 0 then -|a| else |a|

/-- `std::log10`. -/
def log10 (x : ℝ) : ℝ := Real.logb 10 x

/-- `std::log2`. -/
def log2 (x : ℝ) : ℝ := Real.logb 2 x

/-- `std::log1p`. -/
def log1p (x : ℝ) : ℝ := Real.log (1 + x)

/-- `std::expm1`. -/
def expm1 (x : ℝ) : ℝ := Real.exp x - 1

/-- `std::exp2`. -/
def exp2 (x : ℝ) : ℝ := (2 : ℝ) ^ x

/-- `std::cbrt`. -/
def cbrt (x : ℝ) : ℝ := if x < 0 then -((-x) ^ (1 / 3 : ℝ)) else x ^ (1 / 3 : ℝ)

/-- `std::hypot`. -/
def hypot (x y : ℝ) : ℝ := Real.sqrt (x * x + y * y)

/-- `std::hypot` with three arguments. -/
def hypot3 (x y z : ℝ) : ℝ := Real.sqrt (x * x + y * y + z * z)

/-- `std::fma`. -/
def fma (x y z : ℝ) : ℝ := x * y + z

/-- `std::atan2`. -/
def atan2 (y x : ℝ) : ℝ := Complex.arg ⟨x, y⟩

/-- `std::erf`. -/
def erf (x : ℝ) : ℝ := 2 / Real.sqrt Real.pi * ∫ t in (0 : ℝ)..x, Real.exp (-t ^ 2)

/-- `std::erfc`. -/
def erfc (x : ℝ) : ℝ := 1 - erf x

/-- The Bessel function of the first kind of integer order, `jn`. -/
def besselJ (k : ℤ) (x : ℝ) : ℝ :=
  1 / Real.pi * ∫ t in (0 : ℝ)..Real.pi, Real.cos (k * t - x * Real.sin t)

/-- `std::lerp`. -/
def lerp (a b t : ℝ) : ℝ := a + t * (b - a)

/-- `std::midpoint`. -/
def midpoint (a b : ℝ) : ℝ := (a + b) / 2

/-! ## Constructors and arithmetic -/

/-- `Jet(const T& value)` (jet.h:223-226). -/
def Jet.const (c : ℝ) : Jet n := ⟨c, fun _ => 0⟩

/-- `Jet(const T& value, int k)` (jet.h:229-233). -/
def Jet.seed (c : ℝ) (k : ℕ) : Jet n := ⟨c, fun i => if i.val = k then 1 else 0⟩

/-- Unary `-` (jet.h:306-309). -/
def Jet.neg (f : Jet n) : Jet n := ⟨-f.a, -f.v⟩

/-- Binary `+` (jet.h:312-315). -/
def Jet.add (f g : Jet n) : Jet n := ⟨f.a + g.a, f.v + g.v⟩

/-- Binary `+` with a scalar (jet.h:318-327). -/
def Jet.addScalar (f : Jet n) (s : ℝ) : Jet n := ⟨f.a + s, f.v⟩

/-- Binary `-` (jet.h:330-333). -/
def Jet.sub (f g : Jet n) : Jet n := ⟨f.a - g.a, f.v - g.v⟩

/-- Binary `-` with a scalar on the right (jet.h:336-339). -/
def Jet.subScalar (f : Jet n) (s : ℝ) : Jet n := ⟨f.a - s, f.v⟩

/-- Binary `-` with a scalar on the left (jet.h:342-345). -/
def Jet.scalarSub (s : ℝ) (f : Jet n) : Jet n := ⟨s - f.a, -f.v⟩

/-- Binary `*` (jet.h:348-351). -/
def Jet.mul (f g : Jet n) : Jet n := ⟨f.a * g.a, f.a • g.v + g.a • f.v⟩

/-- Binary `*` with a scalar (jet.h:354-363). -/
def Jet.mulScalar (f : Jet n) (s : ℝ) : Jet n := ⟨f.a * s, s • f.v⟩

/-- Binary `/` (jet.h:366-378). -/
def Jet.div (f g : Jet n) : Jet n :=
  let gInv := 1 / g.a
  let fByG := f.a * gInv
  ⟨fByG, gInv • (f.v - fByG • g.v)⟩

/-- Binary `/` with a scalar on the left (jet.h:381-385). -/
def Jet.scalarDiv (s : ℝ) (g : Jet n) : Jet n :=
  let m := -s / (g.a * g.a)
  ⟨s / g.a, m • g.v⟩

/-- Binary `/` with a scalar on the right (jet.h:388-392). -/
def Jet.divScalar (f : Jet n) (s : ℝ) : Jet n :=
  let sInv := 1 / s
  ⟨f.a * sInv, sInv • f.v⟩

/-- `f.v[k]`; the code never reads out of bounds. -/
def Jet.part (f : Jet n) (k : ℕ) : ℝ := if h : k < n then f.v ⟨k, h⟩ else 0

/-! ## Functions of one jet -/

/-- `abs` (jet.h:526-529). -/
def Jet.abs (f : Jet n) : Jet n := ⟨|f.a|, copysign 1 f.a • f.v⟩

/-- `log` (jet.h:568-572). -/
def Jet.log (f : Jet n) : Jet n :=
  let aInv := 1 / f.a
  ⟨Real.log f.a, aInv • f.v⟩

/-- `log10` (jet.h:575-580). -/
def Jet.log10 (f : Jet n) : Jet n :=
  let aInv := 1 / (f.a * Real.log 10)
  ⟨Ceres.Jet.log10 f.a, aInv • f.v⟩

/-- `log1p` (jet.h:583-587). -/
def Jet.log1p (f : Jet n) : Jet n :=
  let aInv := 1 / (1 + f.a)
  ⟨Ceres.Jet.log1p f.a, aInv • f.v⟩

/-- `exp` (jet.h:590-594). -/
def Jet.exp (f : Jet n) : Jet n :=
  let tmp := Real.exp f.a
  ⟨tmp, tmp • f.v⟩

/-- `expm1` (jet.h:597-602). -/
def Jet.expm1 (f : Jet n) : Jet n :=
  let tmp := Ceres.Jet.expm1 f.a
  let expa := tmp + 1
  ⟨tmp, expa • f.v⟩

/-- `sqrt` (jet.h:605-610). -/
def Jet.sqrt (f : Jet n) : Jet n :=
  let tmp := Real.sqrt f.a
  let twoAInv := 1 / (2 * tmp)
  ⟨tmp, twoAInv • f.v⟩

/-- `cos` (jet.h:613-616). -/
def Jet.cos (f : Jet n) : Jet n := ⟨Real.cos f.a, -Real.sin f.a • f.v⟩

/-- `acos` (jet.h:619-623). -/
def Jet.acos (f : Jet n) : Jet n :=
  let tmp := -1 / Real.sqrt (1 - f.a * f.a)
  ⟨Real.arccos f.a, tmp • f.v⟩

/-- `sin` (jet.h:626-629). -/
def Jet.sin (f : Jet n) : Jet n := ⟨Real.sin f.a, Real.cos f.a • f.v⟩

/-- `asin` (jet.h:632-636). -/
def Jet.asin (f : Jet n) : Jet n :=
  let tmp := 1 / Real.sqrt (1 - f.a * f.a)
  ⟨Real.arcsin f.a, tmp • f.v⟩

/-- `tan` (jet.h:639-644). -/
def Jet.tan (f : Jet n) : Jet n :=
  let tanA := Real.tan f.a
  let tmp := 1 + tanA * tanA
  ⟨tanA, tmp • f.v⟩

/-- `atan` (jet.h:647-651). -/
def Jet.atan (f : Jet n) : Jet n :=
  let tmp := 1 / (1 + f.a * f.a)
  ⟨Real.arctan f.a, tmp • f.v⟩

/-- `sinh` (jet.h:654-657). -/
def Jet.sinh (f : Jet n) : Jet n := ⟨Real.sinh f.a, Real.cosh f.a • f.v⟩

/-- `cosh` (jet.h:660-663). -/
def Jet.cosh (f : Jet n) : Jet n := ⟨Real.cosh f.a, Real.sinh f.a • f.v⟩

/-- `tanh` (jet.h:666-671). -/
def Jet.tanh (f : Jet n) : Jet n :=
  let tanhA := Real.tanh f.a
  let tmp := 1 - tanhA * tanhA
  ⟨tanhA, tmp • f.v⟩

/-- `floor` (jet.h:677-680). -/
def Jet.floor (f : Jet n) : Jet n := Jet.const (⌊f.a⌋ : ℤ)

/-- `ceil` (jet.h:686-689). -/
def Jet.ceil (f : Jet n) : Jet n := Jet.const (⌈f.a⌉ : ℤ)

/-- `cbrt` (jet.h:694-698). -/
def Jet.cbrt (f : Jet n) : Jet n :=
  let derivative := 1 / (3 * Ceres.Jet.cbrt (f.a * f.a))
  ⟨Ceres.Jet.cbrt f.a, derivative • f.v⟩

/-- `exp2` (jet.h:701-706). -/
def Jet.exp2 (f : Jet n) : Jet n :=
  let tmp := Ceres.Jet.exp2 f.a
  let derivative := tmp * Real.log 2
  ⟨tmp, derivative • f.v⟩

/-- `log2` (jet.h:709-713). -/
def Jet.log2 (f : Jet n) : Jet n :=
  let derivative := 1 / (f.a * Real.log 2)
  ⟨Ceres.Jet.log2 f.a, derivative • f.v⟩

/-- `erf` (jet.h:852-862). -/
def Jet.erf (x : Jet n) : Jet n :=
  ⟨Ceres.Jet.erf x.a, (1 / Real.sqrt (Real.arctan 1)) • (Real.exp (-x.a * x.a) • x.v)⟩

/-- `erfc` (jet.h:866-871). -/
def Jet.erfc (x : Jet n) : Jet n :=
  ⟨Ceres.Jet.erfc x.a, (1 / Real.sqrt (Real.arctan 1)) • (Real.exp (-x.a * x.a) • -x.v)⟩

/-- `BesselJ0` (jet.h:920-927). -/
def Jet.besselJ0 (f : Jet n) : Jet n := ⟨besselJ 0 f.a, -besselJ 1 f.a • f.v⟩

/-- `BesselJ1` (jet.h:931-939). -/
def Jet.besselJ1 (f : Jet n) : Jet n :=
  ⟨besselJ 1 f.a, (1 / 2 * (besselJ 0 f.a - besselJ 2 f.a)) • f.v⟩

/-- `BesselJn` (jet.h:943-952), and `cyl_bessel_j` for integer orders (jet.h:961-972). -/
def Jet.besselJn (k : ℤ) (f : Jet n) : Jet n :=
  ⟨besselJ k f.a, (1 / 2 * (besselJ (k - 1) f.a - besselJ (k + 1) f.a)) • f.v⟩

/-- `norm` (jet.h:1206-1209). -/
def Jet.norm (f : Jet n) : Jet n := ⟨f.a * f.a, (2 * f.a) • f.v⟩

/-- `pow` with a constant exponent (jet.h:1213-1217). -/
def Jet.powConst (f : Jet n) (g : ℝ) : Jet n :=
  let tmp := g * f.a ^ (g - 1)
  ⟨f.a ^ g, tmp • f.v⟩

/-- `pow` with a constant base (jet.h:1230-1254). -/
def Jet.constPow (nan : ℝ) (f : ℝ) (g : Jet n) : Jet n :=
  if f = 0 ∧ g.a > 0 then Jet.const 0
  else if f < 0 ∧ g.a = (⌊g.a⌋ : ℤ) then ⟨f ^ g.a, fun i => if g.v i ≠ 0 then nan else 0⟩
  else
    let tmp := f ^ g.a
    ⟨tmp, (Real.log f * tmp) • g.v⟩

/-! ## Functions of two and three jets -/

/-- `copysign` (jet.h:552-565). -/
def Jet.copysign (inf : ℝ) (f g : Jet n) : Jet n :=
  let d := if g.a = 0 then inf else 0
  let sa := Ceres.Jet.copysign 1 f.a
  let sb := Ceres.Jet.copysign 1 g.a
  ⟨Ceres.Jet.copysign f.a g.a, (sa * sb) • f.v + (|f.a| * d) • g.v⟩

/-- `hypot` (jet.h:719-728). -/
def Jet.hypot (x y : Jet n) : Jet n :=
  let tmp := Ceres.Jet.hypot x.a y.a
  ⟨tmp, (x.a / tmp) • x.v + (y.a / tmp) • y.v⟩

/-- `hypot` with three arguments (jet.h:734-748). -/
def Jet.hypot3 (x y z : Jet n) : Jet n :=
  let tmp := Ceres.Jet.hypot3 x.a y.a z.a
  ⟨tmp, (x.a / tmp) • x.v + (y.a / tmp) • y.v + (z.a / tmp) • z.v⟩

/-- `fma` (jet.h:751-759). -/
def Jet.fma (x y z : Jet n) : Jet n :=
  ⟨Ceres.Jet.fma x.a y.a z.a, y.a • x.v + x.a • y.v + z.v⟩

/-- `midpoint` (jet.h:1168-1177). -/
def Jet.midpoint (a b : Jet n) : Jet n :=
  ⟨Ceres.Jet.midpoint a.a b.a, fun i => Ceres.Jet.midpoint (a.v i) (b.v i)⟩

/-- `fmax` (jet.h:792-808); no argument is a `NaN`.  A scalar argument is converted by `Jet.const`.
The average is `midpoint` (C++20) or half the sum, which are equal over the reals. -/
def Jet.fmax (x y : Jet n) : Jet n :=
  if x.a < y.a ∨ y.a < x.a then (if x.a < y.a then y else x) else x.midpoint y

/-- `fmin` (jet.h:815-831). -/
def Jet.fmin (x y : Jet n) : Jet n :=
  if x.a < y.a ∨ y.a < x.a then (if x.a > y.a then y else x) else x.midpoint y

/-- `fdim` (jet.h:838-847). -/
def Jet.fdim (f g : Jet n) : Jet n := if f.a > g.a then f.sub g else Jet.const 0

/-- `lerp` (jet.h:1150-1156). -/
def Jet.lerp (a b t : Jet n) : Jet n :=
  ⟨Ceres.Jet.lerp a.a b.a t.a, (1 - t.a) • a.v + t.a • b.v + (b.a - a.a) • t.v⟩

/-- `atan2(g, f)` (jet.h:1184-1193). -/
def Jet.atan2 (g f : Jet n) : Jet n :=
  let tmp := 1 / (f.a * f.a + g.a * g.a)
  ⟨Ceres.Jet.atan2 g.a f.a, tmp • (-g.a • f.v + f.a • g.v)⟩

/-- `pow` of two jets (jet.h:1292-1327). -/
def Jet.pow (nan : ℝ) (f g : Jet n) : Jet n :=
  if f.a = 0 ∧ g.a ≥ 1 then (if g.a > 1 then Jet.const 0 else f)
  else if f.a < 0 ∧ g.a = (⌊g.a⌋ : ℤ) then
    let tmp := g.a * f.a ^ (g.a - 1)
    ⟨f.a ^ g.a, fun i => if g.v i ≠ 0 then nan else tmp * f.v i⟩
  else
    let tmp1 := f.a ^ g.a
    let tmp2 := g.a * f.a ^ (g.a - 1)
    let tmp3 := tmp1 * Real.log f.a
    ⟨tmp1, tmp2 • f.v + tmp3 • g.v⟩

/-! ## Cost functors

A templated functor evaluates the same expressions on doubles and on jets. -/

/-- Functions of one argument, with their constants. -/
inductive Un where
  | neg | abs | log | log10 | log1p | exp | expm1 | sqrt | cos | acos | sin | asin | tan | atan
  | sinh | cosh | tanh | floor | ceil | cbrt | exp2 | log2 | erf | erfc | besselJ0 | besselJ1
  | besselJn (k : ℤ) | norm | addScalar (s : ℝ) | subScalar (s : ℝ) | scalarSub (s : ℝ)
  | mulScalar (s : ℝ) | scalarDiv (s : ℝ) | divScalar (s : ℝ) | powConst (g : ℝ) | constPow (f : ℝ)

/-- Functions of two arguments. -/
inductive Bin where
  | add | sub | mul | div | copysign | hypot | midpoint | fmax | fmin | fdim | atan2 | pow

/-- Functions of three arguments. -/
inductive Ter where
  | hypot3 | fma | lerp

/-- The comparison operators (jet.h:401-416): they compare the scalar parts. -/
inductive Cmp where
  | lt | le | gt | ge | eq | ne

/-- What a functor computes from its inputs `ι`. -/
inductive Expr (ι : Type) where
  | var (i : ι)
  | const (c : ℝ)
  | un (u : Un) (e : Expr ι)
  | bin (b : Bin) (e₁ e₂ : Expr ι)
  | ter (t : Ter) (e₁ e₂ e₃ : Expr ι)
  | ite (c : Cmp) (l r e₁ e₂ : Expr ι)

/-- On doubles. -/
def Un.real : Un → ℝ → ℝ
  | neg => fun x => -x
  | abs => fun x => |x|
  | log => Real.log
  | log10 => Ceres.Jet.log10
  | log1p => Ceres.Jet.log1p
  | exp => Real.exp
  | expm1 => Ceres.Jet.expm1
  | sqrt => Real.sqrt
  | cos => Real.cos
  | acos => Real.arccos
  | sin => Real.sin
  | asin => Real.arcsin
  | tan => Real.tan
  | atan => Real.arctan
  | sinh => Real.sinh
  | cosh => Real.cosh
  | tanh => Real.tanh
  | floor => fun x => (⌊x⌋ : ℤ)
  | ceil => fun x => (⌈x⌉ : ℤ)
  | cbrt => Ceres.Jet.cbrt
  | exp2 => Ceres.Jet.exp2
  | log2 => Ceres.Jet.log2
  | erf => Ceres.Jet.erf
  | erfc => Ceres.Jet.erfc
  | besselJ0 => besselJ 0
  | besselJ1 => besselJ 1
  | besselJn k => besselJ k
  | norm => fun x => x * x
  | addScalar s => fun x => x + s
  | subScalar s => fun x => x - s
  | scalarSub s => fun x => s - x
  | mulScalar s => fun x => x * s
  | scalarDiv s => fun x => s / x
  | divScalar s => fun x => x / s
  | powConst g => fun x => x ^ g
  | constPow f => fun x => f ^ x

/-- On jets. -/
def Un.jet (nan : ℝ) : Un → Jet n → Jet n
  | neg => Jet.neg
  | abs => Jet.abs
  | log => Jet.log
  | log10 => Jet.log10
  | log1p => Jet.log1p
  | exp => Jet.exp
  | expm1 => Jet.expm1
  | sqrt => Jet.sqrt
  | cos => Jet.cos
  | acos => Jet.acos
  | sin => Jet.sin
  | asin => Jet.asin
  | tan => Jet.tan
  | atan => Jet.atan
  | sinh => Jet.sinh
  | cosh => Jet.cosh
  | tanh => Jet.tanh
  | floor => Jet.floor
  | ceil => Jet.ceil
  | cbrt => Jet.cbrt
  | exp2 => Jet.exp2
  | log2 => Jet.log2
  | erf => Jet.erf
  | erfc => Jet.erfc
  | besselJ0 => Jet.besselJ0
  | besselJ1 => Jet.besselJ1
  | besselJn k => Jet.besselJn k
  | norm => Jet.norm
  | addScalar s => fun f => f.addScalar s
  | subScalar s => fun f => f.subScalar s
  | scalarSub s => Jet.scalarSub s
  | mulScalar s => fun f => f.mulScalar s
  | scalarDiv s => Jet.scalarDiv s
  | divScalar s => fun f => f.divScalar s
  | powConst g => fun f => f.powConst g
  | constPow f => Jet.constPow nan f

@[inherit_doc Un.real]
def Bin.real : Bin → ℝ → ℝ → ℝ
  | add => fun x y => x + y
  | sub => fun x y => x - y
  | mul => fun x y => x * y
  | div => fun x y => x / y
  | copysign => Ceres.Jet.copysign
  | hypot => Ceres.Jet.hypot
  | midpoint => Ceres.Jet.midpoint
  | fmax => max
  | fmin => min
  | fdim => fun x y => max (x - y) 0
  | atan2 => Ceres.Jet.atan2
  | pow => fun x y => x ^ y

@[inherit_doc Un.jet]
def Bin.jet (nan inf : ℝ) : Bin → Jet n → Jet n → Jet n
  | add => Jet.add
  | sub => Jet.sub
  | mul => Jet.mul
  | div => Jet.div
  | copysign => Jet.copysign inf
  | hypot => Jet.hypot
  | midpoint => Jet.midpoint
  | fmax => Jet.fmax
  | fmin => Jet.fmin
  | fdim => Jet.fdim
  | atan2 => Jet.atan2
  | pow => Jet.pow nan

@[inherit_doc Un.real]
def Ter.real : Ter → ℝ → ℝ → ℝ → ℝ
  | hypot3 => Ceres.Jet.hypot3
  | fma => Ceres.Jet.fma
  | lerp => Ceres.Jet.lerp

@[inherit_doc Un.jet]
def Ter.jet : Ter → Jet n → Jet n → Jet n → Jet n
  | hypot3 => Jet.hypot3
  | fma => Jet.fma
  | lerp => Jet.lerp

/-- The comparison of two doubles, or of the scalar parts of two jets. -/
def Cmp.holds : Cmp → ℝ → ℝ → Prop
  | lt => fun x y => x < y
  | le => fun x y => x ≤ y
  | gt => fun x y => x > y
  | ge => fun x y => x ≥ y
  | eq => fun x y => x = y
  | ne => fun x y => x ≠ y

open Classical in
/-- The functor on doubles. -/
def Expr.real {ι : Type} (x : ι → ℝ) : Expr ι → ℝ
  | var i => x i
  | const c => c
  | un u e => u.real (e.real x)
  | bin b e₁ e₂ => b.real (e₁.real x) (e₂.real x)
  | ter t e₁ e₂ e₃ => t.real (e₁.real x) (e₂.real x) (e₃.real x)
  | ite c l r e₁ e₂ => if c.holds (l.real x) (r.real x) then e₁.real x else e₂.real x

open Classical in
/-- The functor on jets. -/
def Expr.jet {ι : Type} (nan inf : ℝ) (x : ι → Jet n) : Expr ι → Jet n
  | var i => x i
  | const c => Jet.const c
  | un u e => u.jet nan (e.jet nan inf x)
  | bin b e₁ e₂ => b.jet nan inf (e₁.jet nan inf x) (e₂.jet nan inf x)
  | ter t e₁ e₂ e₃ => t.jet (e₁.jet nan inf x) (e₂.jet nan inf x) (e₃.jet nan inf x)
  | ite c l r e₁ e₂ =>
    if c.holds (l.jet nan inf x).a (r.jet nan inf x).a then e₁.jet nan inf x else e₂.jet nan inf x

/-! ## `AutoDifferentiate` -/

/-- The scalar parameters of a cost function with the given parameter block sizes. -/
abbrev Slot (sizes : List ℕ) : Type := (b : Fin sizes.length) × Fin (sizes.get b)

/-- A templated functor: it returns false unless all its checks hold, else it writes all its outputs.
(A functor that leaves outputs unwritten is not modelled.) -/
structure Functor (sizes : List ℕ) where
  checks : List (Cmp × Expr (Slot sizes) × Expr (Slot sizes))
  out : List (Expr (Slot sizes))

variable {sizes : List ℕ}

open Classical in
/-- The functor called with `T = double`. -/
def Functor.real (fn : Functor sizes) (x : Slot sizes → ℝ) : Option (List ℝ) :=
  if ∀ c ∈ fn.checks, c.1.holds (c.2.1.real x) (c.2.2.real x) then
    some (fn.out.map (Expr.real x)) else none

open Classical in
/-- The functor called with `T = Jet<double, n>`. -/
def Functor.jet (nan inf : ℝ) (fn : Functor sizes) (x : Slot sizes → Jet n) :
    Option (List (Jet n)) :=
  if ∀ c ∈ fn.checks, c.1.holds (c.2.1.jet nan inf x).a (c.2.2.jet nan inf x).a then
    some (fn.out.map (Expr.jet nan inf x)) else none

/-- `for (int i = 0; i < k; ++i)`. -/
def forRange {σ : Type} (k : ℕ) (s : σ) (body : ℕ → σ → σ) : σ :=
  (List.range k).foldl (fun s i => body i s) s

/-- `ExclusiveScan` (internal/integer_sequence_algorithm.h:69-105), from the start value. -/
def exclusiveScan : ℕ → List ℕ → List ℕ
  | _, [] => []
  | acc, a :: l => acc :: exclusiveScan (acc + a) l

/-- `Make1stOrderPerturbation` (internal/autodiff.h:182-189), writing at `x + base`. -/
def make1stOrderPerturbation (size offset : ℕ) (src : ℕ → ℝ) (base : ℕ) (dst : ℕ → Jet n) :
    ℕ → Jet n :=
  forRange size dst fun i dst => Function.update dst (base + i) (Jet.seed (src i) (i + offset))

/-- `Make1stOrderPerturbationsImpl` (internal/autodiff.h:192-205). -/
def make1stOrderPerturbations (sizes : List ℕ) (parameters : ℕ → ℕ → ℝ) (x : ℕ → Jet n) :
    ℕ → Jet n :=
  let offsets := exclusiveScan 0 sizes
  forRange sizes.length x fun b x =>
    make1stOrderPerturbation (sizes.getD b 0) (offsets.getD b 0) (parameters b) (offsets.getD b 0) x

/-- `Take0thOrderPart` (internal/autodiff.h:209-215). -/
def take0thOrderPart (m : ℕ) (src : ℕ → Jet n) (dst : ℕ → ℝ) : ℕ → ℝ :=
  forRange m dst fun i dst => Function.update dst i (src i).a

/-- `Take1stOrderPart` (internal/autodiff.h:219-227). -/
def take1stOrderPart (start size m : ℕ) (src : ℕ → Jet n) (dst : ℕ → ℝ) : ℕ → ℝ :=
  forRange m dst fun i dst =>
    forRange size dst fun j dst => Function.update dst (size * i + j) ((src i).part (start + j))

/-- `Take1stOrderPartsImpl` (internal/autodiff.h:230-246); `none` is a null pointer. -/
def take1stOrderParts (sizes : List ℕ) (m : ℕ) (output : ℕ → Jet n)
    (jacobians : ℕ → Option (ℕ → ℝ)) : ℕ → Option (ℕ → ℝ) :=
  let offsets := exclusiveScan 0 sizes
  forRange sizes.length jacobians fun b jacobians =>
    match jacobians b with
    | none => jacobians
    | some dst => Function.update jacobians b
        (some (take1stOrderPart (offsets.getD b 0) (sizes.getD b 0) m output dst))

/-- What an evaluation returns and leaves in the caller's buffers. -/
structure Result where
  ok : Bool
  residuals : ℕ → ℝ
  jacobians : ℕ → Option (ℕ → ℝ)

/-- A list read as an array. -/
def asArray {α : Type} (d : α) (l : List α) : ℕ → α := fun i => l.getD i d

/-- `AutoDifferentiate` (internal/autodiff.h:248-312).  `GetUnpackedParameters`
(internal/parameter_dims.h:72-86) hands block `b` of the functor the jets from offset `b` on.  The jets
are first default constructed (jet.h:220). -/
def autoDifferentiate (nan inf : ℝ) (fn : Functor sizes) (parameters : ℕ → ℕ → ℝ)
    (residuals : ℕ → ℝ) (jacobians : ℕ → Option (ℕ → ℝ)) : Result :=
  let parametersAsJets : ℕ → Jet sizes.sum :=
    make1stOrderPerturbations sizes parameters fun _ => Jet.const 0
  let offsets := exclusiveScan 0 sizes
  let unpacked : Slot sizes → Jet sizes.sum := fun s => parametersAsJets (offsets.getD s.1 0 + s.2)
  match fn.jet nan inf unpacked with
  | none => ⟨false, residuals, jacobians⟩
  | some output =>
    let residualsAsJets := asArray (Jet.const 0) output
    ⟨true, take0thOrderPart fn.out.length residualsAsJets residuals,
      take1stOrderParts sizes fn.out.length residualsAsJets jacobians⟩

/-- The functor run on the caller's doubles: it writes the residuals. -/
def evaluateReals (fn : Functor sizes) (parameters : ℕ → ℕ → ℝ) (residuals : ℕ → ℝ)
    (jacobians : ℕ → Option (ℕ → ℝ)) : Result :=
  match fn.real (fun s => parameters s.1 s.2) with
  | none => ⟨false, residuals, jacobians⟩
  | some output => ⟨true, forRange fn.out.length residuals fun i r =>
      Function.update r i (asArray 0 output i), jacobians⟩

/-- `AutoDiffCostFunction::Evaluate` (autodiff_cost_function.h:228-244); `none` for `jacobians` is the
null pointer. -/
def autoDiffEvaluate (nan inf : ℝ) (fn : Functor sizes) (parameters : ℕ → ℕ → ℝ)
    (residuals : ℕ → ℝ) (jacobians : Option (ℕ → Option (ℕ → ℝ))) : Result :=
  match jacobians with
  | none => evaluateReals fn parameters residuals fun _ => none
  | some jacobians => autoDifferentiate nan inf fn parameters residuals jacobians

/-! ## `AutoDiffFirstOrderFunction` -/

/-- `AutoDiffFirstOrderFunction::Evaluate` (autodiff_first_order_function.h:148-174): the new cost
and gradient, or `none` if the functor fails.  A null `gradient` is `none`. -/
def firstOrderEvaluate (nan inf : ℝ) (k : ℕ)
    (checks : List (Cmp × Expr (Fin k) × Expr (Fin k))) (cost : Expr (Fin k))
    (parameters : ℕ → ℝ) (gradient : Option (ℕ → ℝ)) : Option (ℝ × Option (ℕ → ℝ)) :=
  open Classical in
  match gradient with
  | none =>
    let x : Fin k → ℝ := fun i => parameters i
    if ∀ c ∈ checks, c.1.holds (c.2.1.real x) (c.2.2.real x) then some (cost.real x, none) else none
  | some gradient =>
    let buf : ℕ → Jet k := forRange k (fun _ => Jet.const 0) fun i x =>
      Function.update x i ⟨parameters i, Function.update (fun _ => 0) i 1 ∘ Fin.val⟩
    let x : Fin k → Jet k := fun i => buf i
    if ∀ c ∈ checks, c.1.holds (c.2.1.jet nan inf x).a (c.2.2.jet nan inf x).a then
      let output := cost.jet nan inf x
      some (output.a, some (forRange k gradient fun i g => Function.update g i (output.part i)))
    else none

/-! ## `AutoDiffManifold` -/

/-- `AutoDiffManifold::PlusJacobian` (autodiff_manifold.h:206-225): the functor's `Plus` maps the
blocks `x` and `delta` to the ambient coordinates. -/
def autoDiffPlusJacobian (nan inf : ℝ) {ambient tangent : ℕ} (plus : Functor [ambient, tangent])
    (x : ℕ → ℝ) (jacobian : ℕ → ℝ) : Result :=
  let zeroDelta : ℕ → ℝ := fun _ => 0
  let parameterPtrs : ℕ → ℕ → ℝ := fun b => if b = 0 then x else zeroDelta
  let jacobianPtrs : ℕ → Option (ℕ → ℝ) := fun b => if b = 1 then some jacobian else none
  autoDifferentiate nan inf plus parameterPtrs (fun _ => 0) jacobianPtrs

/-- `AutoDiffManifold::MinusJacobian` (autodiff_manifold.h:227-245): the functor's `Minus` maps the
blocks `y` and `x` to the tangent coordinates. -/
def autoDiffMinusJacobian (nan inf : ℝ) {ambient : ℕ} (minus : Functor [ambient, ambient])
    (x : ℕ → ℝ) (jacobian : ℕ → ℝ) : Result :=
  let parameterPtrs : ℕ → ℕ → ℝ := fun _ => x
  let jacobianPtrs : ℕ → Option (ℕ → ℝ) := fun b => if b = 0 then some jacobian else none
  autoDifferentiate nan inf minus parameterPtrs (fun _ => 0) jacobianPtrs

/-! ## `DynamicAutoDiffCostFunction` -/

/-- The scalar parameters in the order of the loops over blocks and their entries
(dynamic_autodiff_cost_function.h:230-231, 260-261): a doubly nested loop is a loop over this list. -/
def scalars (sizes : List ℕ) : List (ℕ × ℕ) :=
  (List.range sizes.length).flatMap fun i => (List.range (sizes.getD i 0)).map fun j => (i, j)

/-- The state of the first loop (dynamic_autodiff_cost_function.h:165-193). -/
structure Discover where
  numActive : ℕ := 0
  starts : List ℕ := []
  inSection : Bool := false
  cursor : ℕ := 0
  offsets : List ℕ := []
  values : ℕ → ℝ := fun _ => 0

/-- One block of the first loop (dynamic_autodiff_cost_function.h:175-193). -/
def discoverStep (sizes : List ℕ) (parameters : ℕ → ℕ → ℝ) (jacobians : ℕ → Option (ℕ → ℝ)) (i : ℕ)
    (d : Discover) : Discover :=
  let size := sizes.getD i 0
  let d := { d with offsets := d.offsets ++ [d.cursor] }
  let d :=
    if (jacobians i).isSome then
      let d := if !d.inSection then
        { d with starts := d.starts ++ [d.cursor], inSection := true } else d
      { d with numActive := d.numActive + size }
    else { d with inSection := false }
  forRange size d fun j d =>
    { d with values := Function.update d.values d.cursor (parameters i j), cursor := d.cursor + 1 }

/-- The first loop. -/
def discover (sizes : List ℕ) (parameters : ℕ → ℕ → ℝ) (jacobians : ℕ → Option (ℕ → ℝ)) : Discover :=
  forRange sizes.length {} (discoverStep sizes parameters jacobians)

/-- Where the derivative sections of a pass stand. -/
structure Section where
  active : ℕ
  index : ℕ
  offset : ℕ
  cursor : ℕ

/-- `active_parameter_count < Stride && parameter_cursor >= ...`
(dynamic_autodiff_cost_function.h:234-237, 263-266). -/
def Section.ready (stride : ℕ) (starts : List ℕ) (s : Section) : Prop :=
  s.active < stride ∧ s.cursor ≥ starts.getD s.index 0 + s.offset

instance (stride : ℕ) (starts : List ℕ) (s : Section) : Decidable (s.ready stride starts) := by
  unfold Section.ready; infer_instance

/-- One scalar of the seeding loop (dynamic_autodiff_cost_function.h:233-246). -/
def seedStep (stride : ℕ) (starts : List ℕ) (jacobians : ℕ → Option (ℕ → ℝ))
    (st : Section × (ℕ → Fin stride → ℝ)) (ij : ℕ × ℕ) : Section × (ℕ → Fin stride → ℝ) :=
  let s := st.1
  let v := Function.update st.2 s.cursor (fun _ => 0)
  if s.ready stride starts then
    if (jacobians ij.1).isSome then
      (⟨s.active + 1, s.index, s.offset + 1, s.cursor + 1⟩,
        Function.update v s.cursor (fun k => if k.val = s.active then 1 else v s.cursor k))
    else (⟨s.active, s.index + 1, 0, s.cursor + 1⟩, v)
  else (⟨s.active, s.index, s.offset, s.cursor + 1⟩, v)

/-- One scalar of the copying loop (dynamic_autodiff_cost_function.h:263-278). -/
def copyStep (sizes : List ℕ) (stride : ℕ) (starts : List ℕ) (m : ℕ) (output : ℕ → Jet stride)
    (st : Section × (ℕ → Option (ℕ → ℝ))) (ij : ℕ × ℕ) : Section × (ℕ → Option (ℕ → ℝ)) :=
  let s := st.1
  if s.ready stride starts then
    match st.2 ij.1 with
    | some buf =>
      (⟨s.active + 1, s.index, s.offset + 1, s.cursor + 1⟩,
        Function.update st.2 ij.1 (some (forRange m buf fun k buf =>
          Function.update buf (k * sizes.getD ij.1 0 + ij.2) ((output k).part s.active))))
    | none => (⟨s.active, s.index + 1, 0, s.cursor + 1⟩, st.2)
  else (⟨s.active, s.index, s.offset, s.cursor + 1⟩, st.2)

/-- The passes (dynamic_autodiff_cost_function.h:220-290), `pass` done out of `numStrides`; the fuel is
the number of passes left.  The jets keep their values `values`, the infinitesimal parts `v` are those
left by the previous pass. -/
def passes (nan inf : ℝ) (fn : Functor sizes) (stride numStrides : ℕ) (d : Discover)
    (starts : List ℕ) : ℕ → ℕ → ℕ × ℕ → (ℕ → Fin stride → ℝ) → (ℕ → ℝ) → (ℕ → Option (ℕ → ℝ)) → Result
  | 0, _, _, _, residuals, jacobians => ⟨true, residuals, jacobians⟩
  | left + 1, pass, (index, offset), v, residuals, jacobians =>
    let v' := ((scalars sizes).foldl (seedStep stride starts jacobians)
      (⟨0, index, offset, 0⟩, v)).2
    let inputJets : ℕ → Jet stride := fun c => ⟨d.values c, v' c⟩
    match fn.jet nan inf (fun s => inputJets (d.offsets.getD s.1 0 + s.2)) with
    | none => ⟨false, residuals, jacobians⟩
    | some output =>
      let outputJets := asArray (Jet.const 0) output
      let r := (scalars sizes).foldl (copyStep sizes stride starts fn.out.length outputJets)
        (⟨0, index, offset, 0⟩, jacobians)
      let residuals := if pass = numStrides - 1 then
        forRange fn.out.length residuals fun k res => Function.update res k (outputJets k).a
        else residuals
      passes nan inf fn stride numStrides d starts left (pass + 1) (r.1.index, r.1.offset) v'
        residuals r.2

/-- `DynamicAutoDiffCostFunction::Evaluate` (dynamic_autodiff_cost_function.h:128-291).  The number of
passes is the rounded up quotient; the code computes it in single precision. -/
def dynamicEvaluate (nan inf : ℝ) (stride : ℕ) (fn : Functor sizes) (parameters : ℕ → ℕ → ℝ)
    (residuals : ℕ → ℝ) (jacobians : Option (ℕ → Option (ℕ → ℝ))) : Result :=
  match jacobians with
  | none => evaluateReals fn parameters residuals fun _ => none
  | some jacobians =>
    let d := discover sizes parameters jacobians
    if d.numActive = 0 then evaluateReals fn parameters residuals jacobians
    else
      let starts := d.starts ++ [d.cursor]
      let numStrides := (d.numActive + stride - 1) / stride
      passes nan inf fn stride numStrides d starts numStrides 0 (0, 0) (fun _ _ => 0) residuals
        jacobians

end

end Ceres.Jet
