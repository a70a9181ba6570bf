import Mathlib.Analysis.SpecialFunctions.Trigonometric.Arctan
import Mathlib.Analysis.SpecialFunctions.Complex.Arg
import Mathlib.Analysis.SpecialFunctions.Log.Basic
import Mathlib.Analysis.SpecialFunctions.Sqrt
import Mathlib.Analysis.SpecialFunctions.Trigonometric.DerivHyp
import Mathlib.Data.Matrix.Mul

/-!
# Model of the loss functions, the corrector and `ResidualBlock::Evaluate`
(loss_function.h, loss_function.cc, corrector.cc, residual_block.cc, residual_block_utils.cc)

Doubles are reals; there is no rounding and no overflow.
-/
noncomputable section
namespace Ceres.Robust

/-- The output array `rho[3]`. -/
structure Rho where
  r0 : ℝ
  r1 : ℝ
  r2 : ℝ

/-- `std::numeric_limits<double>::min()`. -/
def dblMin : ℝ := (2 : ℝ) ^ (-1022 : ℤ)

/-- `TrivialLoss::Evaluate` (loss_function.cc:46-50). -/
def trivial (s : ℝ) : Rho := ⟨s, 1, 0⟩

/-- `HuberLoss::Evaluate` (loss_function.cc:52-66); `b_ = a * a` (loss_function.h:176). -/
def huber (a s : ℝ) : Rho :=
  if s > a * a then
    ⟨2 * a * √s - a * a, max dblMin (a / √s), -max dblMin (a / √s) / (2 * s)⟩
  else ⟨s, 1, 0⟩

/-- `SoftLOneLoss::Evaluate` (loss_function.cc:68-75); `b_ = a * a`, `c_ = 1 / b_`
(loss_function.h:192). -/
def softLOne (a s : ℝ) : Rho :=
  let c := 1 / (a * a)
  let sum := 1 + s * c
  let tmp := √sum
  ⟨2 * (a * a) * (tmp - 1), max dblMin (1 / tmp), -(c * max dblMin (1 / tmp)) / (2 * sum)⟩

/-- `CauchyLoss::Evaluate` (loss_function.cc:77-84); `b_ = a * a`, `c_ = 1 / b_`
(loss_function.h:209). -/
def cauchy (a s : ℝ) : Rho :=
  let c := 1 / (a * a)
  let sum := 1 + s * c
  let inv := 1 / sum
  ⟨a * a * Real.log sum, max dblMin inv, -c * (inv * inv)⟩

/-- `atan2(y, x)`. -/
def atan2 (y x : ℝ) : ℝ := Complex.arg ⟨x, y⟩

/-- `ArctanLoss::Evaluate` (loss_function.cc:86-93); `b_ = 1 / (a * a)` (loss_function.h:230). -/
def arctan (a s : ℝ) : Rho :=
  let b := 1 / (a * a)
  let sum := 1 + s * s * b
  let inv := 1 / sum
  ⟨a * atan2 s a, max dblMin inv, -2 * s * b * (inv * inv)⟩

/-- `c_` of `TolerantLoss` (loss_function.cc:95-99). -/
def tolerantC (a b : ℝ) : ℝ := b * Real.log (1 + Real.exp (-a / b))

/-- `TolerantLoss::Evaluate` (loss_function.cc:101-120). -/
def tolerant (a b s : ℝ) : Rho :=
  let x := (s - a) / b
  if x > 36.7 then ⟨s - a - tolerantC a b, 1, 0⟩
  else
    let ex := Real.exp x
    ⟨b * Real.log (1 + ex) - tolerantC a b, max dblMin (ex / (1 + ex)),
      0.5 / (b * (1 + Real.cosh x))⟩

/-- `TukeyLoss::Evaluate` (loss_function.cc:122-136); `a_squared_ = a * a` (loss_function.h:288). -/
def tukey (a s : ℝ) : Rho :=
  let a2 := a * a
  if s ≤ a2 then
    let value := 1 - s / a2
    let valueSq := value * value
    ⟨a2 / 3 * (1 - valueSq * value), valueSq, -2 / a2 * value⟩
  else ⟨a2 / 3, 0, 0⟩

/-- `ComposedLoss::Evaluate` (loss_function.cc:156-165). -/
def composed (f g : ℝ → Rho) (s : ℝ) : Rho :=
  let rg := g s
  let rf := f rg.r0
  ⟨rf.r0, rf.r1 * rg.r1, rf.r2 * rg.r1 * rg.r1 + rf.r1 * rg.r2⟩

/-- `ScaledLoss::Evaluate` (loss_function.cc:167-178); no function means the identity. -/
def scaled (rho : Option (ℝ → Rho)) (a s : ℝ) : Rho :=
  match rho with
  | none => ⟨a * s, a, 0⟩
  | some f => let r := f s; ⟨r.r0 * a, r.r1 * a, r.r2 * a⟩

/-! ### Corrector -/

/-- Members of `Corrector` (corrector.h). -/
structure Corrector where
  sqrtRho1 : ℝ
  residualScaling : ℝ
  alphaSqNorm : ℝ

/-- The constructor (corrector.cc:41-110); `none` is a failed `CHECK`. -/
def mkCorrector (sqNorm : ℝ) (rho : Rho) : Option Corrector :=
  if ¬ 0 ≤ sqNorm then none
  else if sqNorm = 0 ∨ rho.r2 ≤ 0 then some ⟨√rho.r1, √rho.r1, 0⟩
  else if ¬ 0 < rho.r1 then none
  else
    let D := 1 + 2 * sqNorm * rho.r2 / rho.r1
    let alpha := 1 - √D
    some ⟨√rho.r1, √rho.r1 / (1 - alpha), alpha / sqNorm⟩

variable {n : ℕ}

/-- `CorrectResiduals` (corrector.cc:112-116). -/
def Corrector.residuals (C : Corrector) (r : Fin n → ℝ) : Fin n → ℝ :=
  fun i => r i * C.residualScaling

/-- `CorrectJacobian` (corrector.cc:118-155). -/
def Corrector.jacobian {m : Type} (C : Corrector) (r : Fin n → ℝ)
    (J : Matrix (Fin n) m ℝ) : Matrix (Fin n) m ℝ :=
  fun i c =>
    if C.alphaSqNorm = 0 then J i c * C.sqrtRho1
    else
      let rtj := ∑ k, J k c * r k
      C.sqrtRho1 * (J i c - C.alphaSqNorm * r i * rtj)

/-! ### Residual block -/

/-- A double as the check of the evaluation sees it. -/
inductive Val where
  | fin (x : ℝ)
  | nonfinite

/-- `kImpossibleValue` (types.h:475). -/
def impossible : ℝ := 1e302

/-- What the user's `CostFunction::Evaluate` does to the output arrays: the entries it writes
(`none` means it leaves the entry alone) and whether it returns true. -/
structure UserEval (n : ℕ) (ι : Type) (amb : ι → ℕ) where
  ok : Bool
  res : Fin n → Option Val
  jac : (j : ι) → Fin n → Fin (amb j) → Option Val

/-- An entry after `InvalidateArray` (array_utils.cc:69-75) and the user's writes. -/
def stored (w : Option Val) : Val := w.getD (.fin impossible)

/-- `IsArrayValid` for one entry (array_utils.cc:44-53). -/
def entryValid : Val → Prop
  | .fin x => ¬ x = impossible
  | .nonfinite => False

/-- The number in an entry that passed the check. -/
def number : Val → ℝ
  | .fin x => x
  | .nonfinite => 0

/-- A residual block with `n` residuals and arguments `ι`: ambient and tangent sizes of the
arguments, `PlusJacobian` at the current state of those with a manifold, and the loss function. -/
structure Block (n : ℕ) (ι : Type) (amb tan : ι → ℕ) where
  plusJac : (j : ι) → Option (Matrix (Fin (amb j)) (Fin (tan j)) ℝ)
  same : ∀ j, plusJac j = none → amb j = tan j
  loss : Option (ℝ → Rho)

/-- What `ResidualBlock::Evaluate` hands out; `none` for what was not asked for. -/
structure Output (n : ℕ) (ι : Type) (tan : ι → ℕ) where
  cost : ℝ
  res : Option (Fin n → ℝ)
  jac : (j : ι) → Option (Matrix (Fin n) (Fin (tan j)) ℝ)

/-- How `ResidualBlock::Evaluate` ends: it returns false, it dies in a `CHECK`, or it yields the
cost, residuals and Jacobians. -/
inductive Outcome (n : ℕ) (ι : Type) (tan : ι → ℕ) where
  | failed
  | aborted
  | ok (o : Output n ι tan)

variable {ι : Type} {amb tan : ι → ℕ}

/-- Is the Jacobian for argument `j` asked for: `jacobians != nullptr && jacobians[j] != nullptr`. -/
def asked (want : Option (ι → Bool)) (j : ι) : Bool := (want.map fun w => w j).getD false

/-- `IsEvaluationValid` (residual_block_utils.cc:126-147). -/
def evaluationValid (want : Option (ι → Bool)) (u : UserEval n ι amb) : Prop :=
  (∀ i, entryValid (stored (u.res i))) ∧
    ∀ j, asked want j = true → ∀ i k, entryValid (stored (u.jac j i k))

/-- Applying `PlusJacobian` (residual_block.cc:135-159); without a manifold the user wrote straight
into the caller's array (residual_block.cc:94-96). -/
def Block.tangentJac (B : Block n ι amb tan) (j : ι) (G : Matrix (Fin n) (Fin (amb j)) ℝ) :
    Matrix (Fin n) (Fin (tan j)) ℝ :=
  match h : B.plusJac j with
  | some Q => G * Q
  | none => fun i k => G i (Fin.cast (B.same j h).symm k)

/-- The ambient Jacobian that the user wrote for argument `j`. -/
def userJac (u : UserEval n ι amb) (j : ι) : Matrix (Fin n) (Fin (amb j)) ℝ :=
  fun i k => number (stored (u.jac j i k))

open Classical in
/-- `ResidualBlock::Evaluate` (residual_block.cc:70-198). -/
def Block.evaluate (B : Block n ι amb tan) (applyLoss wantRes : Bool) (want : Option (ι → Bool))
    (u : UserEval n ι amb) : Outcome n ι tan :=
  if u.ok = false then .failed
  else if ¬ evaluationValid want u then .failed
  else
    let r : Fin n → ℝ := fun i => number (stored (u.res i))
    let sqNorm := ∑ i, r i * r i
    let J := fun j => B.tangentJac j (userJac u j)
    match B.loss, applyLoss with
    | some rho, true =>
      if want.isNone && !wantRes then .ok ⟨0.5 * (rho sqNorm).r0, none, fun _ => none⟩
      else match mkCorrector sqNorm (rho sqNorm) with
        | none => .aborted
        | some C => .ok ⟨0.5 * (rho sqNorm).r0, if wantRes then some (C.residuals r) else none,
            fun j => if asked want j then some (C.jacobian r (J j)) else none⟩
    | _, _ => .ok ⟨0.5 * sqNorm, if wantRes then some r else none,
        fun j => if asked want j then some (J j) else none⟩

/-! ### Scratch memory of a residual block -/

/-- An argument as the scratch bookkeeping sees it: is its Jacobian asked for, has it a
`PlusJacobian`, its ambient size. -/
structure SArg where
  asked : Bool
  manifold : Bool
  size : ℕ

/-- The areas given out in the scratch array: first position and length
(residual_block.cc:85-104). -/
def scratchAreas (n : ℕ) (wantRes : Bool) (args : List SArg) (pos : ℕ) : List (ℕ × ℕ) :=
  match args with
  | [] => if wantRes then [] else [(pos, n)]
  | a :: as =>
    if a.asked && a.manifold then (pos, n * a.size) :: scratchAreas n wantRes as (pos + n * a.size)
    else scratchAreas n wantRes as pos

/-- `NumScratchDoublesForEvaluate` (residual_block.cc:200-217). -/
def numScratch (n : ℕ) (args : List SArg) : ℕ :=
  (args.foldl (fun acc a => if a.manifold then acc + a.size else acc) 1) * n

end Ceres.Robust
